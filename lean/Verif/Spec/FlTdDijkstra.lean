import Verif.Model.FlTdDijkstra
import Verif.Spec.Trip
import Verif.Spec.TravelTime
import Verif.Proof.TdDijkstra
/- What is expected of Dijkstra on time-dependent graphs over the rationals. -/
namespace Verif.FlTd
open Spec Fl

/-- Driving without waiting: nodes with arrivals; at each of them one directly takes a road to the next. -/
inductive Drive (R : Network) : Nat → Rat → List (Nat × Rat) → Nat → Rat → Prop where
  | last (u : Nat) (a : Rat) : Drive R u a [(u, a)] u a
  | step {u v w : Nat} {a b y : Rat} {l : List (Nat × Rat)} : R u v a b → Drive R v b l w y → Drive R u a ((u, a) :: l) w y

/-- The graph has the given roads: road `e` is arc `e`, with the same ends and a valid function for its travel times. -/
structure GraphOK (g : Graph) (roads : List (Nat × Nat × (Rat → Rat))) : Prop where
  topo : TD.TopoOK g.firstOut g.head
  len : roads.length = g.head.length
  road : ∀ (e : Nat) (r : Nat × Nat × (Rat → Rat)), roads[e]? = some r →
    (∃ (a b : Nat), g.firstOut[r.1]? = some a ∧ g.firstOut[r.1 + 1]? = some b ∧ a ≤ e ∧ e < b) ∧ g.head[e]? = some r.2.1 ∧
    ∃ p, g.ttf e = some p ∧ ValidTtf p ∧ ∀ τ, TravelTime p τ (r.2.2 τ)

end Verif.FlTd
