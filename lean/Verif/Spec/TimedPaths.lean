import Verif.Spec.Graph
/- Specification of time-dependent routing on a graph given by its arrays. -/
namespace Verif.Spec

/-- `tt e t d` means "travelling arc `e`, departing at time `t`, takes `d`". An arc from `u` to `v` with arrival function `f`: one of
the arcs `firstOut[u]..firstOut[u+1]` with head `v`. -/
def TimedArc (firstOut head : List Nat) (tt : Nat → Nat → Nat → Prop) (u v : Nat) (f : Nat → Nat) : Prop :=
  ∃ (a b e : Nat), firstOut[u]? = some a ∧ firstOut[u + 1]? = some b ∧ a ≤ e ∧ e < b ∧ head[e]? = some v ∧
    ∀ t, ∃ d, tt e t d ∧ f t = t + d

/-- The answer to a query for the earliest arrival: exactly that arrival if it is before `INFINITY`. -/
def ArrivalAnswer (F : Nat → Nat → (Nat → Nat) → Prop) (s τ t : Nat) (r : Option Nat) : Prop :=
  ∀ x, r = some x ↔ IsEarliest F s τ t x ∧ x < INFINITY

/-- Departing at the first node of `p` at time `τ` and following arcs along `p`, one arrives at its last node at the given time. -/
inductive TPathOf (F : Nat → Nat → (Nat → Nat) → Prop) (s τ : Nat) : List Nat → Nat → Prop
  | single : TPathOf F s τ [s] τ
  | snoc {p : List Nat} {u v a : Nat} {f : Nat → Nat} : TPathOf F s τ (p ++ [u]) a → F u v f → TPathOf F s τ (p ++ [u] ++ [v]) (f a)

end Verif.Spec
