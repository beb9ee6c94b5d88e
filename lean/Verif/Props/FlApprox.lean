import Verif.Proof.FlBoundsMain
import Verif.Props.FlPlf
/- Property C74: approximations and bounds of travel time functions of CATCHUp, in exact arithmetic. -/
set_option linter.unusedSimpArgs false
set_option linter.unusedVariables false
namespace Verif
open Spec Fl

/-- Approximating a travel time function does not panic. The result is a travel time function with some of the points, and at every time (on any
day) it differs from the function by at most the tolerance. Partial: exact arithmetic, `EPSILON` is zero. -/
theorem C74_approximate_partial {A : Rat} (hA : 0 ≤ A) {f : List Pt} (hf : ValidTtf f) (h2 : 2 ≤ f.length) :
    ∃ r, approximate 0 A f = some r ∧ ValidTtf r ∧ r.Sublist f ∧ ∀ t y, TravelTime f t y → ∃ z, TravelTime r t z ∧ z ≤ y + A ∧ y ≤ z + A := by
  rcases hf with ⟨v, rfl, _⟩ | ⟨h1, hp, hn⟩
  · simp at h2
  · obtain ⟨r, e, hr, hs, h⟩ := approximate_spec hA ⟨h1, hn⟩
    exact ⟨r, e, .inr ⟨hr.1, fun p hp' => hp p (hs.subset hp'), hr.2⟩, hs, h⟩

/-- Bounding a travel time function (also one with negative values, as lower bounds can be) does not panic. Both bounds are periodic, and who leaves
later does not arrive earlier. At every time the lower bound is not above the function and at most twice the tolerance below; the upper bound is not
below the function and at most twice the tolerance above. The two separate functions return the same bounds. Partial: exact arithmetic, `EPSILON` is
zero. -/
theorem C74_bounds_partial {A : Rat} (hA : 0 ≤ A) {f : List Pt} (hf : PeriodicTtf f) :
    ∃ lo up, boundTtfs 0 A f = some (lo, up) ∧ lowerBoundTtf 0 A f = some lo ∧ upperBoundTtf 0 A f = some up ∧ PeriodicTtf lo ∧ PeriodicTtf up ∧
      LowerWithin (2 * A) lo f ∧ UpperWithin (2 * A) up f := by
  obtain ⟨lo, up, h1, h2, h3, h4, h5, h6, h7, _⟩ := bounds_spec hA hf
  exact ⟨lo, up, h1, h2, h3, h4, h5, h6, h7⟩

/-- The upper bound of a travel time function is a travel time function. Partial: exact arithmetic, `EPSILON` is zero. -/
theorem C74_upper_valid_partial {A : Rat} (hA : 0 ≤ A) {f up : List Pt} (hf : ValidTtf f) (h : upperBoundTtf 0 A f = some up) : ValidTtf up := by
  rcases hf with ⟨v, rfl, _⟩ | ⟨h1, hp, hn⟩
  · simp [upperBoundTtf, tryPartial] at h
  · obtain ⟨lo, up', _, _, h3, _, h5, _, _, _, h9⟩ := bounds_spec hA ⟨h1, hn⟩
    rw [h] at h3
    simp at h3; subst h3
    refine .inr ⟨h5.1, fun p hp' => ?_, h5.2⟩
    obtain ⟨q, hq, _, hv⟩ := h9 p hp'
    exact (hp q hq).trans hv

/-- Bounding a function for a part of a day: bounds for the same part with the same guarantees. Partial: exact arithmetic, `EPSILON` is zero. -/
theorem C74_part_of_day_partial {A : Rat} (hA : 0 ≤ A) {f : List Pt} (hf : PartialTtf f) :
    ∃ lo up, partialBounds 0 A f = some (lo, up) ∧ partialLower 0 A f = some lo ∧ partialUpper 0 A f = some up ∧ PartialTtf lo ∧ PartialTtf up ∧
      lo.head?.map Pt.t = f.head?.map Pt.t ∧ lo.getLast?.map Pt.t = f.getLast?.map Pt.t ∧ up.head?.map Pt.t = f.head?.map Pt.t ∧
      up.getLast?.map Pt.t = f.getLast?.map Pt.t ∧
      (∀ t y, Interp f t y → ∃ z w, Interp lo t z ∧ Interp up t w ∧ z ≤ y ∧ y - 2 * A ≤ z ∧ y ≤ w ∧ w ≤ y + 2 * A) :=
  partial_spec hA hf

namespace FlApproxExample

/-- a function with several points -/
def f : List Pt := [⟨0, 0⟩, ⟨100, 0⟩, ⟨200, 9/5⟩, ⟨300, 2⟩, ⟨400, 3⟩, ⟨86400, 0⟩]

theorem f_valid : ValidTtf f := FlPlfExample.valid_ok (by decide +kernel)

/-- points are dropped, and points stay -/
example : approximate 0 1 f = some [⟨0, 0⟩, ⟨400, 3⟩, ⟨86400, 0⟩] := by decide +kernel
example : ∃ r, approximate 0 1 f = some r ∧ ValidTtf r ∧ r.Sublist f ∧ ∀ t y, TravelTime f t y → ∃ z, TravelTime r t z ∧ z ≤ y + 1 ∧ y ≤ z + 1 :=
  C74_approximate_partial (by decide) f_valid (by decide)
example : boundTtfs 0 1 f = some ([⟨0, -3/4⟩, ⟨400, 9/4⟩, ⟨86400, -3/4⟩], [⟨0, 3/10⟩, ⟨400, 33/10⟩, ⟨86400, 3/10⟩]) := by decide +kernel
example : partialBounds 0 1 f = some ([⟨0, -3/4⟩, ⟨400, 9/4⟩, ⟨86400, 0⟩], [⟨0, 3/10⟩, ⟨400, 33/10⟩, ⟨86400, 0⟩]) := by decide +kernel

theorem f_periodic : PeriodicTtf f := by
  rcases f_valid with ⟨v, e, _⟩ | ⟨h, _, h'⟩
  · simp [f] at e
  · exact ⟨h, h'⟩

example : ∃ lo up, boundTtfs 0 1 f = some (lo, up) ∧ lowerBoundTtf 0 1 f = some lo ∧ upperBoundTtf 0 1 f = some up ∧ PeriodicTtf lo ∧ PeriodicTtf up ∧
    LowerWithin 2 lo f ∧ UpperWithin 2 up f := by
  have := C74_bounds_partial (A := 1) (by decide) f_periodic
  simpa using this
example : ∀ up, upperBoundTtf 0 1 f = some up → ValidTtf up := fun up h => C74_upper_valid_partial (by decide) f_valid h
example : PartialTtf f := ⟨by decide, f_periodic.2⟩

end FlApproxExample

/-- The lower bound of a travel time function need not be a travel time function: with the tolerance of the code it can be negative, and linking it
(as the customization does with lower bounds) hits the assertion that travel times are not negative. -/
theorem C74_lower_negative :
    ∃ f lo, ValidTtf f ∧ lowerBoundTtf 0 1 f = some lo ∧ TravelTime lo 0 (-3/4) ∧ ¬ ValidTtf lo ∧
      ∃ bs, SearchBy bs ∧ link bs true 0 lo lo = none ∧ link bs false 0 lo lo = none := by
  refine ⟨FlApproxExample.f, [⟨0, -3/4⟩, ⟨400, 9/4⟩, ⟨86400, -3/4⟩], FlApproxExample.f_valid, by decide +kernel, ?_, ?_, FlPlfExample.linear, FlPlfExample.linear_ok, ?_, ?_⟩
  · refine .inr ⟨0, by decide +kernel, by decide +kernel, [], _, _, _, rfl, ?_⟩
    refine ⟨by decide +kernel, by decide +kernel, by decide +kernel⟩
  · rintro (⟨v, e, _⟩ | ⟨_, h, _⟩)
    · simp at e
    · exact absurd (h ⟨0, -3/4⟩ (by simp)) (by decide +kernel)
  · decide +kernel
  · decide +kernel

/-- A constant function (one point) cannot be approximated or bounded: the code panics. The callers only look at the number of points of the lower and
the upper bound together. -/
theorem C74_constant_panics (eps A v : Rat) : ValidTtf [⟨0, max v 0⟩] ∧ approximate eps A [⟨0, max v 0⟩] = none ∧ boundTtfs eps A [⟨0, max v 0⟩] = none ∧
    lowerBoundTtf eps A [⟨0, max v 0⟩] = none ∧ upperBoundTtf eps A [⟨0, max v 0⟩] = none :=
  ⟨.inl ⟨_, rfl, le_max_right _ _⟩, rfl, rfl, rfl, rfl⟩

end Verif
