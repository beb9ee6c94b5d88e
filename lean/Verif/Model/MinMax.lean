import Verif.Model.CCHPotential
import Verif.Spec.MinMax
/- Model of `MinMaxPotential` with `LiveToPredictedBounds` (`engine/src/algo/td_astar.rs`). Nodes are ranks, as in the code. -/
namespace Verif
namespace MinMax
open CCH Spec

/-- `struct LiveToPredictedBounds` (`td_astar.rs:641-646`) -/
structure Bounds where
  lower : Nat
  liveUpper : Nat
  predictedUpper : Nat
  predictedFrom : Nat
deriving DecidableEq, Repr

/-- `td_upper` (`td_astar.rs:652-658`) -/
def Bounds.tdUpper (b : Bounds) (t : Nat) : Nat := if b.predictedFrom ≤ t then b.predictedUpper else b.liveUpper

/-- `OwnedGraph<LiveToPredictedBounds>` (`first_out_graph.rs`, see `Verif.FOGraph`) -/
structure BGraph where
  firstOut : List Nat
  head : List Nat
  bounds : List Bounds
deriving DecidableEq, Repr

/-- `LinkIterable<(NodeIdT, W, EdgeIdT)>::link_iter` (`first_out_graph.rs:347-354`); the edge ids are not used here. -/
def BGraph.links (g : BGraph) (v : Nat) : Option (List (Nat × Bounds)) := do
  let a ← g.firstOut[v]?
  let b ← g.firstOut[v + 1]?
  let hs ← slice g.head a b
  let bs ← slice g.bounds a b
  return hs.zip bs

/-- The mutable part of `struct MinMaxPotential` (`td_astar.rs:666-674`). The top of the stack is the head of the list. -/
structure State where
  stack : List Nat
  fwDist : TSVec (Nat × Nat)
  pots : TSVec (Option (Nat × Nat))
  departure : Nat

/-- A potential as it is constructed (`td_astar.rs:1368-1376`). -/
def State.new (n : Nat) : State := ⟨[], TSVec.new (INFINITY, INFINITY) n, TSVec.new none n, INFINITY⟩

/-- The bounds for the end of an arc by way of its other end, joined with the bounds so far
(`td_astar.rs:685-689`, with the same expressions in l.711-712). -/
def combine (departure : Nat) (c : Nat × Nat) (b : Bounds) (old : Nat × Nat) : Option (Nat × Nat) := do
  let lo ← add32 c.1 b.lower
  let t ← add32 departure c.1
  let up ← add32 c.2 (b.tdUpper t)
  return (min old.1 lo, min old.2 up)

/-- One arc in `init` (`td_astar.rs:684-690`). Both components are written at once; the head differs from `current` in a hierarchy. -/
def relaxUp (departure current : Nat) (dist : TSVec (Nat × Nat)) (l : Nat × Bounds) : Option (TSVec (Nat × Nat)) := do
  let c ← dist.get current
  let old ← dist.get l.1
  let new ← combine departure c l.2 old
  dist.modify l.1 (fun _ => new)

/-- The loop in `init` (`td_astar.rs:683-692`), with fuel. -/
def walk (fw : BGraph) (tree : List (Option Nat)) (departure : Nat) : Nat → TSVec (Nat × Nat) → Option Nat → Option (TSVec (Nat × Nat))
  | _, dist, none => some dist
  | 0, _, some _ => none
  | fuel + 1, dist, some current => do
    let ls ← fw.links current
    let dist ← ls.foldlM (relaxUp departure current) dist
    let next ← tree[current]?
    walk fw tree departure fuel dist next

/-- `init` (`td_astar.rs:677-693`); the node is called `target` in the code, travel times are from it. -/
def init (fw : BGraph) (tree : List (Option Nat)) (s : State) (source departure : Nat) : Option State := do
  let dist ← s.fwDist.reset.modify source (fun _ => (0, 0))
  let dist ← walk fw tree departure (tree.length + 1) dist (some source)
  return ⟨s.stack, dist, s.pots.reset, departure⟩

/-- The first loop of `potential` (`td_astar.rs:696-704`), with fuel. -/
def climb (tree : List (Option Nat)) (pots : TSVec (Option (Nat × Nat))) : Nat → List Nat → Nat → Option (List Nat)
  | 0, _, _ => none
  | fuel + 1, stack, cur => do
    match ← pots.get cur with
    | some _ => return stack
    | none =>
      match ← tree[cur]? with
      | some p => climb tree pots fuel (cur :: stack) p
      | none => return cur :: stack

/-- One arc in the second loop (`td_astar.rs:709-713`); `assume_some` of a missing value is `none`. -/
def relaxDown (departure : Nat) (pots : TSVec (Option (Nat × Nat))) (dist : Nat × Nat) (l : Nat × Bounds) : Option (Nat × Nat) := do
  let p ← pots.get l.1
  let p ← p
  combine departure p l.2 dist

/-- The second loop of `potential` (`td_astar.rs:706-716`). -/
def popAll (bw : BGraph) (departure : Nat) (fwDist : TSVec (Nat × Nat)) : List Nat → TSVec (Option (Nat × Nat)) → Option (TSVec (Option (Nat × Nat)))
  | [], pots => some pots
  | node :: stack, pots => do
    let dist ← fwDist.get node
    let ls ← bw.links node
    let dist ← ls.foldlM (relaxDown departure pots) dist
    let pots ← pots.modify node (fun _ => some dist)
    popAll bw departure fwDist stack pots

/-- `potential` (`td_astar.rs:695-724`). The values are at most `INFINITY`, so they never look like the missing value of `InRangeOption`. -/
def potential (bw : BGraph) (tree : List (Option Nat)) (s : State) (node : Nat) : Option (State × Option (Nat × Nat)) := do
  let stack ← climb tree s.pots (tree.length + 1) s.stack node
  let pots ← popAll bw s.departure s.fwDist stack s.pots
  let dist ← pots.get node
  let dist ← dist
  return (⟨[], s.fwDist, pots, s.departure⟩, if dist.1 < INFINITY then some dist else none)

/-- The answers to a history of calls. -/
def run (fw bw : BGraph) (tree : List (Option Nat)) : State → List IntervalCall → Option (List (Option (Nat × Nat)))
  | _, [] => some []
  | s, .start source departure :: cs => do
    let s ← init fw tree s source departure
    run fw bw tree s cs
  | s, .ask v :: cs => do
    let (s, x) ← potential bw tree s v
    let xs ← run fw bw tree s cs
    return x :: xs

end MinMax
end Verif
