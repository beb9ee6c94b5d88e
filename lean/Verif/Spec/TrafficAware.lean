import Verif.Spec.FixSubPaths
/- Vocabulary for traffic aware routes: fastest in the current traffic, but without detours in the usual traffic. -/
namespace Verif.Spec

/-- `p` leads from `s` to `t`, visits no node twice, no part of it is too long in `smooth`, and among all such paths it is a shortest
one in `live`; `d` is its length there. -/
def BestWithoutDetour (live smooth : Nat → Nat → Nat → Prop) (thr : Nat → Nat) (s t : Nat) (p : List Nat) (d : Nat) : Prop :=
  p.head? = some s ∧ p.getLast? = some t ∧ NoViolation smooth thr p ∧ CheapestLen live p d ∧
    ∀ q d', q.head? = some s → q.getLast? = some t → NoViolation smooth thr q → PathOf live q d' → d ≤ d'

/-- Lower bounds `h t v` for the distance from `v` to the target `t`: zero at the target, consistent with the arcs (and so defined
wherever the target can be reached), below `INFINITY`, and defined only where the target can be reached. -/
structure Consistent (A : Nat → Nat → Nat → Prop) (h : Nat → Nat → Option Nat) : Prop where
  target : ∀ t, h t t = some 0
  arc : ∀ t u v w y, A u v w → h t v = some y → ∃ x, h t u = some x ∧ x ≤ w + y
  lt : ∀ t v x, h t v = some x → x < INFINITY
  reach : ∀ t v x, h t v = some x → ∃ d, Walk A v t d

end Verif.Spec
