import Verif.Model.Graph
import Verif.Model.Containers
/-
Model of the graph transformations in `engine/src/datastr/graph.rs` and `datastr/graph/first_out_graph.rs`.

A graph that is only used through `num_nodes`, `num_arcs` and `link_iter` is given by `n`, `m` and the function
`links` (`none` = panic).
-/
namespace Verif

/-- What is assumed about `sort_unstable_by_key` and friends of the standard library: the result is a permutation of the
input, ordered by key. The order of elements with equal keys is not specified. -/
def SortOK {α : Type} (srt : (α → Nat) → List α → List α) : Prop :=
  ∀ key l, (srt key l).Perm l ∧ (srt key l).Pairwise (fun a b => key a ≤ key b)

namespace GraphOps

/-- The loop `for deg in &mut v { prefix_sum += *deg; *deg = prefix_sum; }` (`first_out_graph.rs:138-142`). -/
def prefixSum : Nat → List Nat → Option (List Nat)
  | _, [] => some []
  | sum, d :: ds => do
    let sum ← add32 sum d
    let rest ← prefixSum sum ds
    return sum :: rest

/-- The two nested loops `for node in 0..n { for link in graph.link_iter(node) { body } }`. -/
def forLinks {γ σ : Type} (n : Nat) (links : Nat → Option (List γ)) (body : σ → Nat → γ → Option σ) (s : σ) : Option σ :=
  (List.range n).foldlM (fun s node => do
    let ls ← links node
    ls.foldlM (fun s l => body s node l) s) s

/-- State while inserting: `reversed_first_out`, `head`, and the array of payloads (weights or edge ids). -/
structure RevState (γ : Type) where
  firstOut : List Nat
  head : List Nat
  payload : List γ

/-- One round of the insertion loop, `first_out_graph.rs:149-154` / `575-580`. -/
def revInsert {γ : Type} (st : RevState γ) (node : Nat) (l : Nat × γ) : Option (RevState γ) := do
  let idx ← st.firstOut[l.1]?
  let inc ← add32 idx 1
  let fo ← upd st.firstOut l.1 inc
  let head ← upd st.head idx node
  let payload ← upd st.payload idx l.2
  return ⟨fo, head, payload⟩

/-- `for node in (1..n).rev() { fo[node] = fo[node - 1]; } fo[0] = 0;` (`first_out_graph.rs:157-160`). -/
def shiftBack (n : Nat) (fo : List Nat) : Option (List Nat) := do
  let fo ← ((List.range (n - 1)).map (· + 1)).reverse.foldlM (fun fo node => do
    let x ← fo[node - 1]?
    upd fo node x) fo
  upd fo 0 0

/-- Lines 131-160 of `OwnedGraph::reversed`, equal to lines 557-586 of `ReversedGraphWithEdgeIds::reversed`; the links are
pairs of head and payload. -/
def revBuild {γ : Type} (dflt : γ) (n m : Nat) (links : Nat → Option (List (Nat × γ))) : Option (RevState γ) := do
  let fo ← forLinks n links (fun fo _ l => do
    let x ← fo[l.1 + 1]?
    let x ← add32 x 1
    upd fo (l.1 + 1) x) (List.replicate (n + 1) 0)
  let fo ← prefixSum 0 fo
  let st ← forLinks n links revInsert ⟨fo, List.replicate m 0, List.replicate m dflt⟩
  let fo ← shiftBack n st.firstOut
  return { st with firstOut := fo }

/-- `<OwnedGraph as BuildReversed>::reversed`, `first_out_graph.rs:130-163` -/
def reversed (n m : Nat) (links : Nat → Option (List Link)) : Option FOGraph := do
  let st ← revBuild 0 n m (fun v => (links v).map (List.map (fun l => (l.node, l.weight))))
  FOGraph.new st.firstOut st.head st.payload

/-- `struct ReversedGraphWithEdgeIds`, `first_out_graph.rs:549-553` -/
structure RevIds where
  firstOut : List Nat
  head : List Nat
  edgeIds : List Nat
deriving DecidableEq, Repr

/-- `LinkIterable<(NodeIdT, EdgeIdT)>::link_iter`, `first_out_graph.rs:327-333` -/
def headIds (g : FOGraph) (v : Nat) : Option (List (Nat × Nat)) := do
  let (a, b) ← g.range v
  let hs ← slice g.head a b
  return hs.zip ((List.range (b - a)).map (· + a))

/-- `<ReversedGraphWithEdgeIds as BuildReversed>::reversed`, `first_out_graph.rs:556-593` -/
def reversedWithEdgeIds (g : FOGraph) : Option RevIds := do
  let st ← revBuild 0 g.numNodes g.numArcs (headIds g)
  return ⟨st.firstOut, st.head, st.payload⟩

/-- `link_iter` of `ReversedGraphWithEdgeIds`, `first_out_graph.rs:611-618` -/
def RevIds.linkIter (g : RevIds) (v : Nat) : Option (List (Nat × Nat)) := do
  let a ← g.firstOut[v]?
  let b ← g.firstOut[v + 1]?
  let hs ← slice g.head a b
  let es ← slice g.edgeIds a b
  return hs.zip es

/-- State of the loop in `permutated_filtered`. -/
structure PermState where
  firstOut : List Nat
  head : List Nat
  weight : List Nat

/-- The loop body of `permutated_filtered` (`first_out_graph.rs:174-184`). -/
def permStep (srt : (Link → Nat) → List Link → List Link) (order : NodeOrder) (links : Nat → Option (List Link))
    (pred : Nat → Nat → Bool) (st : PermState) (rank node : Nat) : Option PermState := do
  let ls ← links node
  let kept ← ls.filterM (fun l => do
    let r ← order.rank l.node
    return pred rank r)
  let last ← st.firstOut.getLast?
  let next ← add32 last kept.length
  let sorted := srt (fun l => (order.rank l.node).getD 0) kept
  let heads ← sorted.mapM (fun l => order.rank l.node)
  return ⟨st.firstOut ++ [next], st.head ++ heads, st.weight ++ sorted.map Link.weight⟩

/-- `for (rank, &node) in order.order().iter().enumerate()` -/
def permLoop (srt : (Link → Nat) → List Link → List Link) (order : NodeOrder) (links : Nat → Option (List Link))
    (pred : Nat → Nat → Bool) : List Nat → Nat → PermState → Option PermState
  | [], _, st => some st
  | node :: nodes, rank, st => do
    let st ← permStep srt order links pred st rank node
    permLoop srt order links pred nodes (rank + 1) st

/-- `permutated_filtered`, `first_out_graph.rs:167-188`. `srt` is `sort_unstable_by_key`; the key of a link is defined
for all links because the filter before has looked it up. -/
def permutatedFiltered (srt : (Link → Nat) → List Link → List Link) (order : NodeOrder) (links : Nat → Option (List Link))
    (pred : Nat → Nat → Bool) : Option FOGraph := do
  let st ← permLoop srt order links pred order.nodeOrder 0 ⟨[0], [], []⟩
  FOGraph.new st.firstOut st.head st.weight

/-- `permutated`, `graph.rs:214-216` -/
def permutated (srt : (Link → Nat) → List Link → List Link) (order : NodeOrder) (links : Nat → Option (List Link)) : Option FOGraph :=
  permutatedFiltered srt order links (fun _ _ => true)

/-- `up[i].push(l)` -/
def pushAt {α : Type} (ls : List (List α)) (i : Nat) (x : α) : Option (List (List α)) := do
  let l ← ls[i]?
  upd ls i (l ++ [x])

/-- `ch_split`, `graph.rs:111-127` -/
def chSplit (n : Nat) (order : NodeOrder) (links : Nat → Option (List Link)) : Option (FOGraph × FOGraph) := do
  let (up, down) ← forLinks n links (fun (st : List (List Link) × List (List Link)) node l => do
    let r ← order.rank node
    let r' ← order.rank l.node
    if r < r' then
      let up ← pushAt st.1 node l
      return (up, st.2)
    else
      let down ← pushAt st.2 l.node ⟨node, l.weight⟩
      return (st.1, down)) (List.replicate n [], List.replicate n [])
  let g ← FOGraph.fromAdjacencyLists up
  let h ← FOGraph.fromAdjacencyLists down
  return (g, h)

/-- The body of the loop of `unify_parallel_edges` (`graph.rs:139-147`), with the links of the node given by edge id.
The state is the weight cache and the weight array. -/
def unifyStep (head : List Nat) (es : List Nat) (st : List Nat × List Nat) : Option (List Nat × List Nat) := do
  let cache ← es.foldlM (fun cache e => do
    let h ← head[e]?
    let w ← st.2[e]?
    let c ← cache[h]?
    upd cache h (min c w)) st.1
  let weight ← es.foldlM (fun weight e => do
    let h ← head[e]?
    let c ← cache[h]?
    upd weight e c) st.2
  let cache ← es.foldlM (fun cache e => do
    let h ← head[e]?
    upd cache h INFINITY) cache
  return (cache, weight)

/-- `unify_parallel_edges`, `graph.rs:136-149`; `link_iter_mut` slices `head` and `weight` with the same range. -/
def unifyParallelEdges (g : FOGraph) : Option FOGraph := do
  let n := g.numNodes
  let (_, weight) ← (List.range n).foldlM (fun st v => do
    let (a, b) ← g.range v
    let _ ← slice g.head a b
    let _ ← slice st.2 a b
    unifyStep g.head ((List.range (b - a)).map (· + a)) st) (List.replicate n INFINITY, g.weight)
  return { g with weight := weight }

/-- The inner loop body of `line_graph`, `graph.rs:190-195`: the state is `(head, weight)`. -/
def turnStep (turnCost : Nat → Nat → Option Nat) (e w : Nat) (st : List Nat × List Nat) (f : Nat) : Option (List Nat × List Nat) :=
  match turnCost e f with
  | some c => (add32 w c).map (fun x => (st.1 ++ [f], st.2 ++ [x]))
  | none => some st

/-- `2^31`, the first number that is no `i32`. -/
def I32 : Nat := 2147483648

/-- The outer loop body of `line_graph`, `graph.rs:188-198`: the state is `(first_out, head, weight)`. The counter
`num_turns` equals the length of `head`; it has no annotation, so its type is `i32` and it overflows at `2^31` turns. The
overflow happens in the inner loop; here it is checked after it (`head` only grows in the inner loop). -/
def lineStep (g : FOGraph) (turnCost : Nat → Nat → Option Nat) (st : List Nat × List Nat × List Nat) (e : Nat) :
    Option (List Nat × List Nat × List Nat) := do
  let link ← g.link e
  let next ← g.neighborEdgeIndices link.node
  let hw ← next.foldlM (turnStep turnCost e link.weight) (st.2.1, st.2.2)
  if hw.1.length < I32 then return (st.1 ++ [hw.1.length], hw.1, hw.2) else none

/-- `line_graph`, `graph.rs:181-201`. `turn_costs` is a function (the closure keeps no state). -/
def lineGraph (g : FOGraph) (turnCost : Nat → Nat → Option Nat) : Option FOGraph := do
  let st ← (List.range g.numArcs).foldlM (lineStep g turnCost) ([0], [], [])
  FOGraph.new st.1 st.2.1 st.2.2

/-- `InfinityFilteringGraph::link_iter`, `graph.rs:240-242`; `num_nodes` and `num_arcs` (l.225-235) are those of the
wrapped graph. -/
def infinityFiltered (links : Nat → Option (List Link)) (v : Nat) : Option (List Link) :=
  (links v).map (List.filter (fun l => l.weight < INFINITY))

end GraphOps
end Verif
