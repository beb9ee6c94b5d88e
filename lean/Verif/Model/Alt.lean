import Verif.Model.Dijkstra
import Verif.Model.GraphOps
/- Model of `engine/src/algo/alt.rs` (landmark potentials); the landmark selection strategies are not modelled. -/
namespace Verif.Alt
open DData

/-- `ALTPotData` (`alt.rs:12-16`) -/
structure Data where
  fw : List Nat
  bw : List Nat
  k : Nat

/-- The distances of one landmark (`alt.rs:34-41`): `one_to_all`, then all nodes; `d` is the data of the server. -/
def run (g : FOGraph) (d : DData Unit) (l : Nat) : Option (List Nat × DData Unit) := do
  let d ← oneToAll g d l
  let ds ← (List.range g.numNodes).mapM d.dist.get
  return (ds, d)

/-- the runs of all landmarks, on one server (`alt.rs:31-43`) -/
def runs (g : FOGraph) : DData Unit → List Nat → Option (List (List Nat))
  | _, [] => some []
  | d, l :: ls => do
    let (ds, d) ← run g d l
    let rest ← runs g d ls
    return ds :: rest

/-- the loop of `new_with_landmark_distances` (`alt.rs:55-60`) for one direction -/
def nodeMajor (n : Nat) (dists : List (List Nat)) : Option (List Nat) := do
  let rows ← (List.range n).mapM (fun v => dists.mapM (fun l => l[v]?))
  return rows.flatten

/-- `new_with_landmark_distances` (`alt.rs:48-67`) -/
def newWithLandmarkDistances (forward backward : List (List Nat)) : Option Data := do
  let first ← forward[0]?
  let fw ← nodeMajor first.length forward
  let bw ← nodeMajor first.length backward
  return ⟨fw, bw, forward.length⟩

/-- `ALTPotData::new` (`alt.rs:19-46`) -/
def new (g : FOGraph) (landmarks : List Nat) : Option Data := do
  let reversed ← GraphOps.reversed g.numNodes g.numArcs g.linkIter
  let f ← runs g (DData.new g.numNodes ()) landmarks
  let b ← runs reversed (DData.new reversed.numNodes ()) landmarks
  newWithLandmarkDistances f b

/-- `ALTPotential` for one target (`alt.rs:225-231`) -/
structure Pot where
  fw : List Nat
  bw : List Nat
  k : Nat
  target : Nat

/-- `forward_potential` and `init` (`alt.rs:205-212`, `246-248`) -/
def Data.forward (d : Data) (target : Nat) : Pot := ⟨d.fw, d.bw, d.k, target⟩
/-- `backward_potential` and `init` (`alt.rs:214-221`) -/
def Data.backward (d : Data) (target : Nat) : Pot := ⟨d.bw, d.fw, d.k, target⟩

/-- `landmark_dists_to`, `landmark_dists_from` (`alt.rs:234-242`) -/
def dists (arr : List Nat) (k v : Nat) : Option (List Nat) := slice arr (v * k) (v * k + k)

/-- `potential` (`alt.rs:250-275`) -/
def potential (p : Pot) (v : Nat) : Option (Option Nat) := do
  let a ← dists p.fw p.k v
  let b ← dists p.fw p.k p.target
  let c ← dists p.bw p.k v
  let d ← dists p.bw p.k p.target
  let m ← (List.zipWith (fun node target => target - node) a b ++ List.zipWith (fun node target => node - target) c d).max?
  return if m < INFINITY then some m else none

end Verif.Alt
