import Verif.Spec.Trip
/- Paths that first go up and then down in a hierarchy, reaching every node as early as possible. -/
namespace Verif.Spec

/-- Going up only, from `s` at time `τ`. `up x y a b`: an upward arc leads from `x`, left at `a`, to `y`, at `b`. -/
inductive UpTight (up R : Network) (s : Nat) (τ : Rat) : Nat → Rat → Prop where
  | start : UpTight up R s τ s τ
  | step {x y : Nat} {a b : Rat} : UpTight up R s τ x a → up x y a b → EarliestTrip R s τ y b → UpTight up R s τ y b

/-- First up, then down. -/
inductive UpDownTight (up down R : Network) (s : Nat) (τ : Rat) : Nat → Rat → Prop where
  | top {x : Nat} {a : Rat} : UpTight up R s τ x a → UpDownTight up down R s τ x a
  | down {x y : Nat} {a b : Rat} : UpDownTight up down R s τ x a → down x y a b → EarliestTrip R s τ y b → UpDownTight up down R s τ y b

/-- Earliest arrivals of `R` are found on such paths, from time 0 until `lim`. -/
def Serves (up down R : Network) (lim : Rat) : Prop := ∀ s τ t y, 0 ≤ τ → y < lim → EarliestTrip R s τ t y → UpDownTight up down R s τ t y

/-- From `u` to `v` there is an arc at least as fast, or else this is not the fastest way. -/
def NoDetour (up down R : Network) (u v : Nat) (τ b : Rat) : Prop := (∃ b', b' ≤ b ∧ (up u v τ b' ∨ down u v τ b')) ∨ ∃ b', b' < b ∧ Trip R u τ v b'

/-- No detour is needed in the hierarchy: there is an arc at least as fast for each road, and an arc at least as fast for each way down and up
again, from time 0 until `lim`, except for roads and ways that are not the fastest ones. -/
structure Triangulated (up down R : Network) (lim : Rat) : Prop where
  roads : ∀ u v τ y, 0 ≤ τ → y < lim → R u v τ y → u ≠ v → NoDetour up down R u v τ y
  triangles : ∀ u x v τ a b, 0 ≤ τ → b < lim → down u x τ a → up x v a b → u ≠ v → NoDetour up down R u v τ b

end Verif.Spec
