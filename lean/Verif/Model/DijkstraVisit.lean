import Verif.Model.Dijkstra
import Verif.Model.BitVec
import Verif.Spec.Nearest
/- Loops `while let Some(node) = run.next()` over the nodes settled by a `DijkstraRun`, and the nearest neighbour query that is one
of them (`engine/src/algo/dijkstra/query/nearest_neighbor.rs`). -/
namespace Verif

/-- `while let Some(node) = run.next() { visit(node); if stop { break } }`: `vis x d node` gets the data after `node` was settled and
returns the new state and whether the loop is left. -/
def DData.visitLoop {ξ : Type} (links : Nat → Option (List Link)) (vis : ξ → DData Unit → Nat → Option (ξ × Bool)) :
    Nat → DData Unit → ξ → Option (DData Unit × ξ)
  | 0, _, _ => none
  | fuel + 1, d, x => do
    let (o, d, _) ← DData.settleNext links defaultOps DData.plainCb d ()
    match o with
    | none => return (d, x)
    | some node =>
      let (x, stop) ← vis x d node
      if stop then return (d, x) else DData.visitLoop links vis fuel d x

namespace NN
open Spec

/-- The mutable part of `struct DijkstraNearestNeighbor` (`nearest_neighbor.rs:4-8`). -/
structure State where
  data : DData Unit
  targets : Bits.FastClear

/-- `new` (`nearest_neighbor.rs:11-17`) -/
def State.new (n : Nat) : State := ⟨DData.new n (), Bits.FastClear.new n⟩

/-- `select_targets` (`nearest_neighbor.rs:19-25`) -/
def select (s : State) (targets : List Nat) : Option State := do
  let b ← s.targets.clear
  let b ← targets.foldlM (fun b t => b.set t) b
  return { s with targets := b }

/-- The body of the loop in `query` (`nearest_neighbor.rs:32-37`). -/
def visit (targets : Bits.FastClear) (k : Nat) (closest : List (Nat × Nat)) (d : DData Unit) (node : Nat) : Option (List (Nat × Nat) × Bool) := do
  let b ← targets.get node
  if b then
    let dist ← d.dist.get node
    let closest := closest ++ [(dist, node)]
    return (closest, closest.length ≥ k)
  else return (closest, closest.length ≥ k)

/-- `query` (`nearest_neighbor.rs:27-41`) -/
def query (g : FOGraph) (s : State) (source k : Nat) : Option (List (Nat × Nat) × State) := do
  let d ← s.data.init source 0
  let (d, closest) ← DData.visitLoop g.linkIter (visit s.targets k) (g.numNodes + 1) d []
  return (closest, { s with data := d })

/-- a history of calls; the answers in order -/
def run (g : FOGraph) : State → List NNCall → Option (List (List (Nat × Nat)) × State)
  | s, [] => some ([], s)
  | s, .select ts :: cs => do
    let s ← select s ts
    run g s cs
  | s, .query v k :: cs => do
    let (r, s) ← query g s v k
    let (rs, s) ← run g s cs
    return (r :: rs, s)

end NN
end Verif
