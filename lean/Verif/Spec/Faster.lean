import Verif.Spec.TravelTime
/- Which of two travel time functions is the faster one. -/
namespace Verif
namespace Spec

/-- The end of the part of the day a change is valid for: the next change or the end of the day -/
def until_ : List (Rat × Bool) → Rat
  | [] => day
  | n :: _ => n.1

/-- `changes` tells the faster function at every time of the day: `(t, true)` says that from `t` until the next change `f` is not slower than `g`, `(t, false)`
that `g` is not slower than `f`. The first entry is for the start of the day, and every entry is a change. -/
structure Faster (f g : List Pt) (changes : List (Rat × Bool)) : Prop where
  start : ∃ b rest, changes = (0, b) :: rest
  inDay : ∀ x ∈ changes, 0 ≤ x.1 ∧ x.1 < day
  change : ∀ A x y B, changes = A ++ x :: y :: B → x.1 < y.1 ∧ x.2 ≠ y.2
  right : ∀ A x B, changes = A ++ x :: B → ∀ t y z, x.1 ≤ t → t ≤ until_ B → TravelTime f t y → TravelTime g t z → if x.2 then y ≤ z else z ≤ y

end Spec
end Verif
