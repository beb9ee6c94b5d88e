import Verif.Model.MinMax
import Verif.Model.TdAStar
import Verif.Spec.Plf
/- Model of the queries of `IntervalMinPotential` (`engine/src/algo/td_astar.rs`). Statistics are omitted; nodes are ranks (in the code both
functions map their arguments with `node_order().rank` first). -/
namespace Verif
namespace IntervalMin
open MinMax

/-- The data of `struct IntervalMinPotential` (`td_astar.rs:751-765`), with that of its `MinMaxPotential` and the elimination tree. -/
structure Data where
  mmFw : BGraph
  mmBw : BGraph
  tree : List (Option Nat)
  fwFirst : List Nat
  fwHead : List Nat
  bwFirst : List Nat
  bwHead : List Nat
  fwWeights : List Nat
  bwWeights : List Nat
  bucketToMetric : List Nat

/-- The mutable part. The top of the stack is the head of the list. -/
structure IState where
  mm : MinMax.State
  pots : TSVec (Option (Nat × Nat))
  back : TSVec Nat
  globalUpper : Nat
  departure : Nat

/-- A potential as it is constructed (`td_astar.rs:1367-1389`). -/
def IState.new (n : Nat) : IState := ⟨MinMax.State.new n, TSVec.new none n, TSVec.new INFINITY n, INFINITY, INFINITY⟩

/-- `to_bucket_idx` (`td_astar.rs:1402-1404`) -/
def bucket (d : Data) (t : Nat) : Nat := t * d.bucketToMetric.length / Spec.PERIOD

/-- `fw_bucket_slice(idx)[e]` and `bw_bucket_slice(idx)[e]` (`td_astar.rs:1406-1416`), for the weights and the number `m` of arcs. -/
def bucketWeight (d : Data) (weights : List Nat) (m idx e : Nat) : Option Nat := do
  if d.bucketToMetric.length = 0 then none
  else
    let k ← d.bucketToMetric[idx % d.bucketToMetric.length]?
    let ws ← slice weights (k * m) ((k + 1) * m)
    ws[e]?

/-- The heads of the arcs of a node with their ids, `link_iter` of an unweighted graph (`first_out_graph.rs:356-363`). -/
def arcs (first head : List Nat) (v : Nat) : Option (List (Nat × Nat)) := do
  let a ← first[v]?
  let b ← first[v + 1]?
  let hs ← slice head a b
  return hs.zip ((List.range (b - a)).map (· + a))

/-- The smallest of the weights of an arc in some buckets (`td_astar.rs:1446-1449`). -/
def minWeight (d : Data) (weights : List Nat) (m e : Nat) (idxs : List Nat) : Option Nat :=
  idxs.foldlM (fun w idx => do
    let x ← bucketWeight d weights m idx e
    return min w x) INFINITY

/-- One arc in `init` (`td_astar.rs:1442-1454`). -/
def relaxBack (d : Data) (current : Nat) (s : IState) (l : Nat × Nat) : Option IState := do
  let (mm, o) ← MinMax.potential d.mmBw d.tree s.mm l.1
  let s := { s with mm := mm }
  match o with
  | none => return s
  | some (lower, upper) =>
    if lower ≤ s.globalUpper then
      let a ← add32 s.departure lower
      let b ← add32 s.departure upper
      let w ← minWeight d d.bwWeights d.bwHead.length l.2 (List.range' (bucket d a) (bucket d b + 1 - bucket d a))
      let old ← s.back.get l.1
      let cur ← s.back.get current
      let x ← add32 w cur
      let back ← s.back.modify l.1 (fun _ => min old x)
      return { s with back := back }
    else return s

/-- The loop in `init` (`td_astar.rs:1439-1457`), with fuel. -/
def walkBack (d : Data) : Nat → IState → Option Nat → Option IState
  | _, s, none => some s
  | 0, _, some _ => none
  | fuel + 1, s, some current => do
    let (mm, o) ← MinMax.potential d.mmBw d.tree s.mm current
    let s := { s with mm := mm }
    let b ← s.back.get current
    let x ← add32 b ((o.map Prod.fst).getD INFINITY)
    let ls ← arcs d.bwFirst d.bwHead current
    let next ← d.tree[current]?
    if x ≤ s.globalUpper then
      let s ← ls.foldlM (relaxBack d current) s
      walkBack d fuel s next
    else walkBack d fuel s next

/-- `init` (`td_astar.rs:1425-1458`) -/
def init (d : Data) (s : IState) (source target departure : Nat) : Option IState := do
  let mm ← MinMax.init d.mmFw d.tree s.mm source departure
  let back ← s.back.reset.modify target (fun _ => 0)
  let (mm, o) ← MinMax.potential d.mmBw d.tree mm target
  walkBack d (d.tree.length + 1) ⟨mm, s.pots.reset, back, (o.map Prod.snd).getD INFINITY, departure⟩ (some target)

/-- The first loop of `potential` (`td_astar.rs:1464-1477`), with fuel. -/
def climb (d : Data) (pots : TSVec (Option (Nat × Nat))) (minIdx : Nat) : Nat → List Nat → Nat → Option (List Nat)
  | 0, _, _ => none
  | fuel + 1, stack, cur => do
    let p ← pots.get cur
    let next ← d.tree[cur]?
    if (match p with | some (_, e) => decide (e ≤ minIdx) | none => false) then return stack
    else
      match next with
      | some q => climb d pots minIdx fuel (cur :: stack) q
      | none => return cur :: stack

/-- One bucket for all upward arcs of a node (`td_astar.rs:1505-1511`). The code reads the estimate of the head with `get_unchecked` and
`assume_some`; `unset` is what this yields if there is none (`none`: a panic). -/
def relaxBucket (d : Data) (unset : Option (Nat × Nat)) (pots : TSVec (Option (Nat × Nat))) (ls : List (Nat × Nat)) (dist idx : Nat) : Option Nat :=
  ls.foldlM (fun dist l => do
    let p ← pots.get l.1
    let p ← p.or unset
    let w ← bucketWeight d d.fwWeights d.fwHead.length idx l.2
    let x ← add32 p.1 w
    return min dist x) dist

/-- The second loop of `potential` (`td_astar.rs:1481-1517`); `earliest` is the variable `earliest_metric_idx`. -/
def popAll (d : Data) (unset : Option (Nat × Nat)) (minIdx : Nat) : List Nat → Nat → IState → Option IState
  | [], _, s => some s
  | node :: stack, earliest, s => do
    let (mm, o) ← MinMax.potential d.mmBw d.tree s.mm node
    let s := { s with mm := mm }
    match o with
    | some (lower, upper) =>
      if lower ≤ s.globalUpper then
        let cur ← s.pots.get node
        let b ← s.back.get node
        let lo ← add32 s.departure lower
        let up ← add32 s.departure (min upper s.globalUpper)
        let store := if bucket d lo < minIdx then minIdx else earliest
        let first := max (bucket d lo) minIdx
        let last := match cur with | some (_, e) => e | none => bucket d up + 1
        let ls ← arcs d.fwFirst d.fwHead node
        let start := match cur with | some (x, _) => x | none => b
        let dist ← (List.range' first (last - first)).foldlM (relaxBucket d unset s.pots ls) start
        let pots ← s.pots.modify node (fun _ => some (dist, store))
        popAll d unset minIdx stack first { s with pots := pots }
      else
        let pots ← s.pots.modify node (fun _ => some (INFINITY, earliest))
        popAll d unset minIdx stack earliest { s with pots := pots }
    | none =>
      let pots ← s.pots.modify node (fun _ => some (INFINITY, earliest))
      popAll d unset minIdx stack earliest { s with pots := pots }

/-- `potential` (`td_astar.rs:1460-1526`), for a given time. -/
def potential (d : Data) (unset : Option (Nat × Nat)) (s : IState) (node t : Nat) : Option (IState × Option Nat) := do
  let minIdx := bucket d t
  let stack ← climb d s.pots minIdx (d.tree.length + 1) [] node
  let s ← popAll d unset minIdx stack (bucket d s.departure) s
  let p ← s.pots.get node
  let p ← p
  return (s, if p.1 < INFINITY then some p.1 else none)

/-- The answers to some questions, one after the other. -/
def asks (d : Data) (unset : Option (Nat × Nat)) : IState → List (Nat × Nat) → Option (IState × List (Option Nat))
  | s, [] => some (s, [])
  | s, (v, t) :: qs => do
    let (s, x) ← potential d unset s v t
    let (s, xs) ← asks d unset s qs
    return (s, x :: xs)

/-- `init` followed by some questions. -/
def answers (d : Data) (n source target departure : Nat) (qs : List (Nat × Nat)) : Option (List (Option Nat)) := do
  let s ← init d (IState.new n) source target departure
  let (_, xs) ← asks d none s qs
  return xs

/-- Several queries on one potential: source, target and departure of `init`, and the questions after it. -/
def sessions (d : Data) (unset : Option (Nat × Nat)) : IState → List ((Nat × Nat × Nat) × List (Nat × Nat)) → Option (List (List (Option Nat)))
  | _, [] => some []
  | s, ((source, target, departure), qs) :: rest => do
    let s ← init d s source target departure
    let (s, xs) ← asks d unset s qs
    let xss ← sessions d unset s rest
    return xs :: xss

/-- `impl TDPotential for IntervalMinPotential` (`td_astar.rs:1419-1527`), for ranks. -/
def tdPot (d : Data) : TdAStar.TDPot IState where
  init := init d
  get s v t := potential d none s v (t.getD s.departure)

end IntervalMin
end Verif
