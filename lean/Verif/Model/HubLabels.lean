import Verif.Model.Graph
import Verif.Model.Sort
/- Model of `engine/src/algo/hl.rs`. -/
namespace Verif
namespace HL

/-- The update of the best hub (`hl.rs:106-112`): only a strictly smaller distance replaces it. -/
def better (result : Option (Nat × Nat)) (h1 d : Nat) : Option (Nat × Nat) :=
  match result with
  | some (h, best) => if d < best then some (h1, d) else some (h, best)
  | none => some (h1, d)

/-- The loop of `best_hub` (`hl.rs:100-115`), with the two iterators as lists. `none` is an overflow; enough fuel is given below. -/
def bestLoop : Nat → List (Nat × Nat) → List (Nat × Nat) → Option (Nat × Nat) → Option (Option (Nat × Nat))
  | fuel + 1, (h1, d1) :: l1, (h2, d2) :: l2, result =>
    if h1 < h2 then bestLoop fuel l1 ((h2, d2) :: l2) result
    else if h2 < h1 then bestLoop fuel ((h1, d1) :: l1) l2 result
    else do
      let d ← add32 d1 d2
      bestLoop fuel l1 l2 (better result h1 d)
  | 0, _ :: _, _ :: _, _ => none
  | _, _, _, result => some result

/-- `best_hub` (`hl.rs:94-118`); every turn consumes a label. -/
def bestHub (l1 l2 : List (Nat × Nat)) : Option (Option (Nat × Nat)) := bestLoop (l1.length + l2.length) l1 l2 none

/-- Adding the labels of one neighbour (`hl.rs:32-36`, `:38-42`): the neighbour must have a larger id (index arithmetic). -/
def extend (labels : List (List (Nat × Nat))) (node : Nat) (cur : List (Nat × Nat)) (l : Link) : Option (List (Nat × Nat)) :=
  if node < l.node then do
    let ls ← labels[l.node]?
    let ls ← ls.mapM (fun p => (add32 p.2 l.weight).map (fun w => (p.1, w)))
    return cur ++ ls
  else none

/-- `hl.rs:46-51`: in a sorted list every label gets the smallest distance of the labels with the same hub, which are consecutive. -/
def setMins : List (Nat × Nat) → List (Nat × Nat)
  | [] => []
  | x :: l =>
    match setMins l with
    | [] => [x]
    | y :: r =>
      if x.1 = y.1 then
        (x.1, min x.2 y.2) :: ((y :: r).takeWhile (fun p => p.1 == x.1)).map (fun p => (p.1, min x.2 y.2)) ++ (y :: r).dropWhile (fun p => p.1 == x.1)
      else x :: y :: r

/-- `hl.rs:44-53`: sort (lexicographically; distances are below `2^32`), take minima, remove duplicates. -/
def normalise (l : List (Nat × Nat)) : List (Nat × Nat) := dedup (setMins (isort (fun p => p.1 * U32 + p.2) l))

/-- the test in `hl.rs:58-66` and `:71-79` -/
def isBest (hub : Nat) (best : Option (Option (Nat × Nat))) : Option Bool :=
  best.map (fun r => match r with
    | some (via, _) => via == hub
    | none => true)

/-- One turn of the loop over the nodes (`hl.rs:27-82`). -/
def step (up down : FOGraph) (st : List (List (Nat × Nat)) × List (List (Nat × Nat))) (node : Nat) :
    Option (List (List (Nat × Nat)) × List (List (Nat × Nat))) := do
  let o ← st.1[node]?
  let i ← st.2[node]?
  let lu ← up.linkIter node
  let o ← lu.foldlM (extend st.1 node) (o ++ [(node, 0)])
  let ld ← down.linkIter node
  let i ← ld.foldlM (extend st.2 node) (i ++ [(node, 0)])
  let outs ← upd st.1 node (normalise o)
  let ins ← upd st.2 node (normalise i)
  let o ← (normalise o).filterM (fun p => do
    let l ← ins[p.1]?
    isBest p.1 (bestHub (normalise o) l))
  let outs ← upd outs node o
  let i ← (normalise i).filterM (fun p => do
    let l ← outs[p.1]?
    isBest p.1 (bestHub l (normalise i)))
  let ins ← upd ins node i
  return (outs, ins)

/-- `HubLabels::new` (`hl.rs:9-86`) -/
def build (up down : FOGraph) : Option (List (List (Nat × Nat)) × List (List (Nat × Nat))) :=
  (List.range up.numNodes).reverse.foldlM (step up down) (List.replicate up.numNodes [], List.replicate up.numNodes [])

/-- `hub_and_dist` (`hl.rs:92-94`) -/
def hubAndDist (hl : List (List (Nat × Nat)) × List (List (Nat × Nat))) (u v : Nat) : Option (Option (Nat × Nat)) := do
  let o ← hl.1[u]?
  let i ← hl.2[v]?
  bestHub o i

/-- `dist` (`hl.rs:88-90`) -/
def dist (hl : List (List (Nat × Nat)) × List (List (Nat × Nat))) (u v : Nat) : Option (Option Nat) :=
  (hubAndDist hl u v).map (fun r => r.map (·.2))

end HL
end Verif
