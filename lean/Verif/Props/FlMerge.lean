import Verif.Proof.FlMergeMain
import Verif.Props.FlPlf
/- Property C73: the minimum of two travel time functions of CATCHUp, in exact arithmetic. -/
set_option linter.unusedSimpArgs false
set_option linter.unusedVariables false
namespace Verif
open Spec Fl

/-- Merging two travel time functions does not panic (release builds) and returns a travel time function, at every time the smaller one of the two
travel times, and the exact times of the day at which the faster function changes. Partial: exact arithmetic, the tolerances are zero. -/
theorem C73_merge_partial (co : Bool) {f g : List Pt} (hf : ValidTtf f) (hg : ValidTtf g) :
    ∃ r changes, merge co false Tol.exact f g = some (r, changes) ∧ ValidTtf r ∧
      (∀ t y z, TravelTime f t y → TravelTime g t z → TravelTime r t (min y z)) ∧ Faster f g changes := by
  obtain ⟨r, bl, hm, h1, _⟩ := merge_spec co hf hg
  refine ⟨r, bl, h1, hm.valid, ?_, hm.fast⟩
  intro t y z hy hz
  rw [fn_iff hm.valid, hm.val, ← (fn_iff hf).1 hy, ← (fn_iff hg).1 hz]

/-- All debug assertions hold and builds with them return the same, if the minimum is not constant. Partial: exact arithmetic, the tolerances are
zero; not true for a constant minimum (`C73_constant_panics`). -/
theorem C73_debug_partial (co : Bool) {f g : List Pt} (hf : ValidTtf f) (hg : ValidTtf g) {r : List Pt} {changes : List (Rat × Bool)}
    (h : merge co false Tol.exact f g = some (r, changes)) (h2 : r.length ≠ 1) : merge co true Tol.exact f g = some (r, changes) := by
  obtain ⟨r', bl, hm, h1, h3⟩ := merge_spec co hf hg
  rw [h] at h1
  obtain ⟨rfl, rfl⟩ := Prod.mk.inj (Option.some.inj h1)
  exact h3.resolve_right h2

namespace FlMergeExample
open FlPlfExample

/-- the road with a rush hour against a detour -/
def detour : List Pt := [⟨0, 900⟩, ⟨28800, 1200⟩, ⟨86400, 900⟩]

theorem detour_ok : ValidTtf detour := valid_ok (by decide +kernel)

/-- two changes; with the tolerances of the code or without -/
example : merge true true Tol.exact f detour =
    some ([⟨0, 600⟩, ⟨21600, 600⟩, ⟨24960, 1160⟩, ⟨28800, 1200⟩, ⟨1008000 / 31, 36600 / 31⟩, ⟨36000, 600⟩, ⟨86400, 600⟩],
      [(0, true), (24960, false), (1008000 / 31, true)]) := by decide +kernel
example : merge true true Tol.code f detour = merge true true Tol.exact f detour := by decide +kernel
example := C73_merge_partial true f_ok detour_ok
example := C73_debug_partial true f_ok detour_ok (r := [⟨0, 600⟩, ⟨21600, 600⟩, ⟨24960, 1160⟩, ⟨28800, 1200⟩, ⟨1008000 / 31, 36600 / 31⟩, ⟨36000, 600⟩, ⟨86400, 600⟩])
  (changes := [(0, true), (24960, false), (1008000 / 31, true)]) (by decide +kernel) (by decide)

/-- never faster than the constant -/
def slow : List Pt := [⟨0, 600⟩, ⟨21600, 600⟩, ⟨28800, 1800⟩, ⟨86400, 600⟩]

theorem slow_ok : ValidTtf slow := valid_ok (by decide +kernel)
theorem const_ok : ValidTtf [⟨0, 600⟩] := valid_ok (by decide +kernel)

end FlMergeExample

open FlMergeExample in
/-- If the minimum is constant, merging panics in debug builds for some functions, also with the tolerances of the code (the last assertions use the
second point of the result); release builds return the constant. -/
theorem C73_constant_panics : ValidTtf slow ∧ ValidTtf [⟨0, 600⟩] ∧ (∀ tl ∈ [Tol.exact, Tol.code], merge true true tl slow [⟨0, 600⟩] = none ∧
    merge true false tl slow [⟨0, 600⟩] = some ([⟨0, 600⟩], [(0, true), (21600, false)])) := by
  refine ⟨slow_ok, const_ok, ?_⟩
  intro tl htl
  simp only [List.mem_cons, List.not_mem_nil, or_false] at htl
  rcases htl with rfl | rfl <;> decide +kernel

end Verif
