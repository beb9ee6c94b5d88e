import Verif.Spec.FlTdDijkstra
/- Driving along given roads. -/
namespace Verif.FlTd
open Spec

/-- Driving along the roads with these numbers, one after the other and without waiting: nodes with arrivals. -/
inductive DriveAlong (roads : List (Nat × Nat × (Rat → Rat))) : Nat → Rat → List Nat → List (Nat × Rat) → Prop where
  | stop (u : Nat) (a : Rat) : DriveAlong roads u a [] [(u, a)]
  | step {e : Nat} {r : Nat × Nat × (Rat → Rat)} {a : Rat} {es : List Nat} {l : List (Nat × Rat)} :
      roads[e]? = some r → DriveAlong roads r.2.1 (a + r.2.2 a) es l → DriveAlong roads r.1 a (e :: es) ((r.1, a) :: l)

/-- Each road begins where the one before ends. -/
inductive Connected (roads : List (Nat × Nat × (Rat → Rat))) : Nat → List Nat → Prop where
  | nil (u : Nat) : Connected roads u []
  | cons {e : Nat} {r : Nat × Nat × (Rat → Rat)} {es : List Nat} : roads[e]? = some r → Connected roads r.2.1 es → Connected roads r.1 (e :: es)

end Verif.FlTd
