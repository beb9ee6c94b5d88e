import Verif.Model.Base
/-
Model of the static graph data structure, `engine/src/datastr/graph/first_out_graph.rs` and `datastr/graph.rs`.
-/
namespace Verif

/-- `&v[a..b]`: panics if `a > b` or `b > len`. -/
def slice {α : Type _} (l : List α) (a b : Nat) : Option (List α) :=
  if a ≤ b ∧ b ≤ l.length then some ((l.drop a).take (b - a)) else none

/-- `struct Link { node, weight }` (`datastr/graph.rs:53-58`). -/
structure Link where
  node : Nat
  weight : Nat
deriving DecidableEq, Repr

/-- `struct FirstOutGraph` with `u32` weights (`first_out_graph.rs:22-30`). -/
structure FOGraph where
  firstOut : List Nat
  head : List Nat
  weight : List Nat
deriving DecidableEq, Repr

namespace FOGraph

/-- `first_out_graph.rs:52-65` -/
def new (firstOut head weight : List Nat) : Option FOGraph :=
  if firstOut.length < U32 - 1 ∧ head.length < U32 - 1 ∧ firstOut.head? = some 0 ∧
      firstOut.getLast? = some head.length ∧ weight.length = head.length then
    some ⟨firstOut, head, weight⟩
  else none

/-- `first_out_graph.rs:214-216`. `first_out` is not empty for graphs built by `new`. -/
def numNodes (g : FOGraph) : Nat := g.firstOut.length - 1

/-- `first_out_graph.rs:218-220` -/
def numArcs (g : FOGraph) : Nat := g.head.length

/-- `first_out_graph.rs:222-225`; a decreasing `first_out` underflows. -/
def degree (g : FOGraph) (v : Nat) : Option Nat := do
  let b ← g.firstOut[v + 1]?
  let a ← g.firstOut[v]?
  if a ≤ b then some (b - a) else none

/-- `SlcsIdx::range`, `engine/src/util.rs`: `first_out[v]..first_out[v+1]`; also `neighbor_edge_indices`
(`first_out_graph.rs:297-299`). -/
def range (g : FOGraph) (v : Nat) : Option (Nat × Nat) := do
  let a ← g.firstOut[v]?
  let b ← g.firstOut[v + 1]?
  return (a, b)

/-- `LinkIterable<Link>::link_iter`, `first_out_graph.rs:237-243` -/
def linkIter (g : FOGraph) (v : Nat) : Option (List Link) := do
  let (a, b) ← g.range v
  let hs ← slice g.head a b
  let ws ← slice g.weight a b
  return List.zipWith Link.mk hs ws

/-- `LinkIterable<(NodeIdT, W, EdgeIdT)>::link_iter`, `first_out_graph.rs:347-354`: links with edge ids -/
def linkIterIds (g : FOGraph) (v : Nat) : Option (List (Link × Nat)) := do
  let (a, b) ← g.range v
  let hs ← slice g.head a b
  let ws ← slice g.weight a b
  return (List.zipWith Link.mk hs ws).zip ((List.range (b - a)).map (· + a))

/-- `neighbor_edge_indices`, `first_out_graph.rs:296-299`: the ids as a list. A decreasing range is empty in Rust. -/
def neighborEdgeIndices (g : FOGraph) (v : Nat) : Option (List Nat) := do
  let (a, b) ← g.range v
  return (List.range (b - a)).map (· + a)

/-- `edge_indices`, `first_out_graph.rs:292-294` (the lazy iterator as a list; `head[e]` panics out of bounds) -/
def edgeIndices (g : FOGraph) (u v : Nat) : Option (List Nat) := do
  let es ← g.neighborEdgeIndices u
  let hs ← es.mapM (fun e => g.head[e]?)
  return ((es.zip hs).filter (fun p => p.2 = v)).map Prod.fst

/-- `link`, `first_out_graph.rs:309-314` -/
def link (g : FOGraph) (e : Nat) : Option Link := do
  let h ← g.head[e]?
  let w ← g.weight[e]?
  return ⟨h, w⟩

/-- `degrees_to_first_out`, `first_out_graph.rs:622-627` (`u32` sums; `none` on overflow) -/
def degreesToFirstOut (degs : List Nat) : Option (List Nat) :=
  let rec go : Nat → List Nat → Option (List Nat)
    | _, [] => some []
    | st, d :: ds => do
      let st ← add32 st d
      let rest ← go st ds
      return st :: rest
  do
    let rest ← go 0 degs
    return 0 :: rest

/-- `from_adjancecy_lists`, `first_out_graph.rs:112-126` -/
def fromAdjacencyLists (adj : List (List Link)) : Option FOGraph := do
  let fo ← degreesToFirstOut (adj.map List.length)
  let links := adj.flatten
  FOGraph.new fo (links.map Link.node) (links.map Link.weight)

/-- A well-formed graph: what `new` checks, plus what the documentation of the data structure promises (l.3-9):
`first_out` never decreases and heads are node ids. -/
structure WF (g : FOGraph) : Prop where
  small : g.firstOut.length < U32 - 1 ∧ g.head.length < U32 - 1
  first : g.firstOut.head? = some 0
  last : g.firstOut.getLast? = some g.head.length
  weights : g.weight.length = g.head.length
  mono : ∀ i a b : Nat, g.firstOut[i]? = some a → g.firstOut[i + 1]? = some b → a ≤ b
  heads : ∀ h ∈ g.head, h < g.numNodes

/-- The arcs of the graph, as seen through `link_iter`. -/
def Arc (g : FOGraph) (u v w : Nat) : Prop := ∃ ls, g.linkIter u = some ls ∧ (⟨v, w⟩ : Link) ∈ ls

end FOGraph
end Verif
