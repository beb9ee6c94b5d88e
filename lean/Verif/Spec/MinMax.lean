import Verif.Model.Base
import Verif.Spec.Validity
/- Specification of travel times between two bounds. -/
namespace Verif.Spec

/-- Whoever leaves `x` at `v` or later can be at `y` after at least `lo` and at most `up`. -/
def TakesBetween (trip : Nat → Nat → Nat → Nat → Prop) (x y lo up v : Nat) : Prop :=
  ∀ t, v ≤ t → ∃ a, trip x y t a ∧ t + lo ≤ a ∧ a ≤ t + up

/-- The answer `o` for the travel times from `s` at time `t` to `v`: nobody arrives before the lower bound; an upper bound below `INFINITY`
can be kept, by a trip between the bounds; the lower bound is the sum along a path of lower bounds (`low`), the upper bound is not above
the sum along any path of live upper bounds (`live`). -/
structure IntervalOK (trip : Nat → Nat → Nat → Nat → Prop) (low live : Nat → Nat → Nat → Prop) (s t v : Nat) (o : Option (Nat × Nat)) : Prop where
  lower : ∀ a, trip s v t a → a < t + INFINITY → ∃ lo up, o = some (lo, up) ∧ t + lo ≤ a
  upper : ∀ lo up, o = some (lo, up) → up < INFINITY → ∃ a, trip s v t a ∧ t + lo ≤ a ∧ a ≤ t + up
  fromLow : ∀ lo up, o = some (lo, up) → lo < INFINITY ∧ low s v lo
  belowLive : ∀ d, live s v d → d < INFINITY → ∃ lo up, o = some (lo, up) ∧ up ≤ d

/-- A call of the potential with bounds: start anew with a source and a departure, or ask for a node. -/
inductive IntervalCall where
  | start (source departure : Nat)
  | ask (node : Nat)
deriving DecidableEq

/-- the questions of a history: source and departure in force, and the node -/
def intervalsAsked : Nat → Nat → List IntervalCall → List ((Nat × Nat) × Nat)
  | _, _, [] => []
  | _, _, .start s t :: cs => intervalsAsked s t cs
  | s, t, .ask v :: cs => ((s, t), v) :: intervalsAsked s t cs

end Verif.Spec
