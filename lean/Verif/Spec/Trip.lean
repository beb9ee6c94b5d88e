import Mathlib.Algebra.Order.Field.Rat
/- Travelling in a network whose travel times depend on the time, over the rationals. -/
namespace Verif.Spec

/-- A road network: `R u v τ y` says that whoever takes a road from `u` to `v` at time `τ` arrives at time `y`. -/
abbrev Network := Nat → Nat → Rat → Rat → Prop

/-- Leaving `u` at time `τ`, one can be at `w` at time `z`, without waiting. -/
inductive Trip (R : Network) : Nat → Rat → Nat → Rat → Prop where
  | here (v : Nat) (τ : Rat) : Trip R v τ v τ
  | there {u v w : Nat} {τ y z : Rat} : R u v τ y → Trip R v y w z → Trip R u τ w z

/-- Nobody travels back in time, and no one is overtaken by leaving later on the same road. -/
structure NoOvertaking (R : Network) : Prop where
  forward : ∀ u v τ y, R u v τ y → τ ≤ y
  fifo : ∀ u v τ y τ', R u v τ y → τ' ≤ τ → ∃ y', y' ≤ y ∧ R u v τ' y'

/-- `y` is the earliest time at which one can be at `t`. -/
def EarliestTrip (R : Network) (s : Nat) (τ : Rat) (t : Nat) (y : Rat) : Prop :=
  Trip R s τ t y ∧ ∀ y', Trip R s τ t y' → y ≤ y'

/-- The network of finitely many roads `(u, v, f)`: whoever leaves `u` at `τ` is at `v` at `τ + f τ`. -/
def roadNet (roads : List (Nat × Nat × (Rat → Rat))) : Network := fun u v τ y => ∃ r ∈ roads, r.1 = u ∧ r.2.1 = v ∧ y = τ + r.2.2 τ

end Verif.Spec
