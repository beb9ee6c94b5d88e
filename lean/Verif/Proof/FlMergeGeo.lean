import Verif.Proof.FlMergeCur
import Mathlib.Tactic.LinearCombination
/- The geometry of `merge` in exact arithmetic. -/
set_option linter.unusedSimpArgs false
set_option linter.unusedVariables false
namespace Verif
namespace Fl
open Spec

/-- affine functions -/
def Aff (h : Rat → Rat) : Prop := ∃ m, ∀ t s, h t = h s + m * (t - s)

theorem aff_ln (p q : Pt) : Aff (ln p q) := ⟨slope p q, fun t s => by simp only [ln]; ring⟩

theorem Aff.sub {h k : Rat → Rat} (h1 : Aff h) (h2 : Aff k) : Aff (fun t => h t - k t) := by
  obtain ⟨m, e⟩ := h1
  obtain ⟨n, e'⟩ := h2
  refine ⟨m - n, fun t s => ?_⟩
  simp only
  rw [e t s, e' t s]; ring

theorem Aff.between {h : Rat → Rat} (ha : Aff h) {a b t : Rat} (h1 : h a ≤ 0) (h2 : h b ≤ 0) (hat : a ≤ t) (htb : t ≤ b) : h t ≤ 0 := by
  obtain ⟨m, e⟩ := ha
  rcases le_total m 0 with hm | hm
  · rw [e t a]; nlinarith
  · rw [e t b]; nlinarith

/-- the sign does not change before a zero or after it -/
theorem Aff.before {h : Rat → Rat} (ha : Aff h) {w e t : Rat} (hw : h w ≤ 0) (he : h e = 0) (hwe : w < e) (ht : t ≤ e) : h t ≤ 0 := by
  obtain ⟨m, eq⟩ := ha
  have h1 : 0 ≤ m := by
    have := eq w e
    rw [he] at this
    by_contra hc
    nlinarith
  rw [eq t e, he]
  nlinarith

theorem Aff.after {h : Rat → Rat} (ha : Aff h) {w s t : Rat} (hw : h w ≤ 0) (hs : h s = 0) (hsw : s < w) (ht : s ≤ t) : h t ≤ 0 := by
  obtain ⟨m, eq⟩ := ha
  have h1 : m ≤ 0 := by
    have := eq w s
    rw [hs] at this
    by_contra hc
    nlinarith
  rw [eq t s, hs]
  nlinarith

theorem Aff.near {h : Rat → Rat} (ha : Aff h) {s : Rat} (hs : h s < 0) : ∃ w, s < w ∧ h w ≤ 0 := by
  obtain ⟨m, eq⟩ := ha
  rcases le_or_gt m 0 with hm | hm
  · exact ⟨s + 1, by linarith, by rw [eq _ s]; nlinarith⟩
  · have hp : 0 < -h s / m := div_pos (by linarith) hm
    refine ⟨s + -h s / m, by linarith, ?_⟩
    rw [eq _ s]
    have : m * (s + -h s / m - s) = -h s := by field_simp; ring
    rw [this]; linarith

/-- twice the signed area -/
def area (a b c : Pt) : Rat := (c.t - a.t) * (b.v - a.v) - (b.t - a.t) * (c.v - a.v)

theorem ccw_spec {a b c : Pt} (h : c.t ≠ a.t ∨ b.t ≠ a.t) : ccw Tol.exact a b c = if 0 < area a b c then 1 else if area a b c = 0 then 0 else -1 := by
  have hx : perp (ptSub c a) (ptSub b a) = area a b c := rfl
  simp only [ccw, near, Tol.exact, feq_zero, hx]
  by_cases h1 : a.t = b.t ∧ a.v = b.v
  · have : area a b c = 0 := by simp only [area, h1.1, h1.2]; ring
    simp [h1, this]
  by_cases h2 : a.t = c.t ∧ a.v = c.v
  · have : area a b c = 0 := by simp only [area, h2.1, h2.2]; ring
    rw [if_neg (by simpa using h1), if_pos (by simpa using h2)]
    simp [this]
  by_cases h3 : b.t = c.t ∧ b.v = c.v
  · have : area a b c = 0 := by simp only [area, h3.1, h3.2]; ring
    rw [if_neg (by simpa using h1), if_neg (by simpa using h2), if_pos (by simpa using h3)]
    simp [this]
  rw [if_neg (by simpa using h1), if_neg (by simpa using h2), if_neg (by simpa using h3)]
  have h4 : ¬ (area a b c < 0 ∧ -area a b c < 0) := by rintro ⟨h5, h6⟩; linarith
  rw [if_neg h4]
  have key : (((ptSub b a).t ≠ 0 ∧ decide ((ptSub c a).v = (ptSub c a).t / (ptSub b a).t * (ptSub b a).v) = true) ∨
      ((ptSub c a).t ≠ 0 ∧ decide ((ptSub b a).v = (ptSub b a).t / (ptSub c a).t * (ptSub c a).v) = true)) ↔ area a b c = 0 := by
    simp only [decide_eq_true_eq, ptSub, area]
    constructor
    · rintro (⟨g, e⟩ | ⟨g, e⟩)
      · rw [of_decide_eq_true e]; field_simp; ring
      · rw [of_decide_eq_true e]; field_simp; ring
    · intro e
      rcases h with h | h
      · refine .inr ⟨sub_ne_zero.2 h, ?_⟩
        have h' := sub_ne_zero.2 h
        refine decide_eq_true ?_
        field_simp
        linarith
      · refine .inl ⟨sub_ne_zero.2 h, ?_⟩
        have h' := sub_ne_zero.2 h
        refine decide_eq_true ?_
        field_simp
        linarith
  by_cases h0 : area a b c = 0
  · rw [if_pos ⟨by rw [h0]; norm_num, key.2 h0⟩]
    simp [h0]
  · rw [if_neg (fun hh => h0 (key.1 hh.2))]
    simp [h0]

theorem ccw_pos {a b c : Pt} (h : c.t ≠ a.t ∨ b.t ≠ a.t) : ccw Tol.exact a b c = 1 ↔ 0 < area a b c := by
  rw [ccw_spec h]
  split
  · simp [*]
  · split <;> simp [*]

theorem ccw_neg {a b c : Pt} (h : c.t ≠ a.t ∨ b.t ≠ a.t) : ccw Tol.exact a b c = -1 ↔ area a b c < 0 := by
  rw [ccw_spec h]
  split
  · simp; linarith
  · split
    · simp; linarith
    · rename_i h1 h2
      simp
      exact lt_of_le_of_ne (not_lt.1 h1) h2

theorem ccw_zero {a b c : Pt} (h : c.t ≠ a.t ∨ b.t ≠ a.t) : ccw Tol.exact a b c = 0 ↔ area a b c = 0 := by
  rw [ccw_spec h]
  split
  · simp; linarith
  · split <;> simp [*]

/-- `c` against the line from `a` to `b` -/
theorem area_ab {a b c : Pt} (h : a.t < b.t) : area a b c = (b.t - a.t) * (ln a b c.t - c.v) := by
  have := slope_mul h
  simp only [area, ln]
  linear_combination (-(c.t - a.t)) * this

/-- `b` against the line from `a` to `c` -/
theorem area_ac {a b c : Pt} (h : a.t < c.t) : area a b c = (c.t - a.t) * (b.v - ln a c b.t) := by
  have := slope_mul h
  simp only [area, ln]
  linear_combination (b.t - a.t) * this

/-- both later -/
theorem area_slopes {a b c : Pt} (h1 : a.t < b.t) (h2 : a.t < c.t) : area a b c = (b.t - a.t) * (c.t - a.t) * (slope a b - slope a c) := by
  have := slope_mul h1
  have := slope_mul h2
  simp only [area]
  linear_combination (-(c.t - a.t)) * slope_mul h1 + (b.t - a.t) * slope_mul h2

theorem cc_ac {a b c : Pt} (h : a.t < c.t) : counterClockwise Tol.exact a b c = decide (b.v < ln a c b.t) := by
  have hp : 0 < c.t - a.t := by linarith
  rw [counterClockwise, Bool.eq_iff_iff, beq_iff_eq, decide_eq_true_eq, ccw_neg (.inl h.ne'), area_ac h]
  constructor
  · intro h1; by_contra hc; nlinarith
  · intro h1; nlinarith

theorem cw_ac {a b c : Pt} (h : a.t < c.t) : clockwise Tol.exact a b c = decide (ln a c b.t < b.v) := by
  have hp : 0 < c.t - a.t := by linarith
  rw [clockwise, Bool.eq_iff_iff, beq_iff_eq, decide_eq_true_eq, ccw_pos (.inl h.ne'), area_ac h]
  constructor
  · intro h1; by_contra hc; nlinarith
  · intro h1; nlinarith

theorem cc_ab {a b c : Pt} (h : a.t < b.t) : counterClockwise Tol.exact a b c = decide (ln a b c.t < c.v) := by
  have hp : 0 < b.t - a.t := by linarith
  rw [counterClockwise, Bool.eq_iff_iff, beq_iff_eq, decide_eq_true_eq, ccw_neg (.inr h.ne'), area_ab h]
  constructor
  · intro h1; by_contra hc; nlinarith
  · intro h1; nlinarith

theorem cc_slopes {a b c : Pt} (h1 : a.t < b.t) (h2 : a.t < c.t) : counterClockwise Tol.exact a b c = decide (slope a b < slope a c) := by
  have hp : 0 < (b.t - a.t) * (c.t - a.t) := mul_pos (by linarith) (by linarith)
  rw [counterClockwise, Bool.eq_iff_iff, beq_iff_eq, decide_eq_true_eq, ccw_neg (.inr h1.ne'), area_slopes h1 h2]
  constructor
  · intro h1; by_contra hc; nlinarith
  · intro h1; nlinarith

theorem cw_slopes {a b c : Pt} (h1 : a.t < b.t) (h2 : a.t < c.t) : clockwise Tol.exact a b c = decide (slope a c < slope a b) := by
  have hp : 0 < (b.t - a.t) * (c.t - a.t) := mul_pos (by linarith) (by linarith)
  rw [clockwise, Bool.eq_iff_iff, beq_iff_eq, decide_eq_true_eq, ccw_pos (.inr h1.ne'), area_slopes h1 h2]
  constructor
  · intro h1; by_contra hc; nlinarith
  · intro h1; nlinarith

theorem sign_pair {a b c d : Pt} {X Y k : Rat} (hk : 0 < k) (h1 : c.t ≠ a.t ∨ b.t ≠ a.t) (h2 : d.t ≠ a.t ∨ b.t ≠ a.t) (e1 : area a b c = k * X) (e2 : area a b d = k * Y) :
    (ccw Tol.exact a b c ≠ 0 ∧ ccw Tol.exact a b d ≠ 0 ∧ ccw Tol.exact a b c ≠ ccw Tol.exact a b d) ↔ X * Y < 0 := by
  have p1 : 0 < area a b c ↔ 0 < X := by rw [e1]; exact mul_pos_iff_of_pos_left hk
  have p2 : 0 < area a b d ↔ 0 < Y := by rw [e2]; exact mul_pos_iff_of_pos_left hk
  have z1 : area a b c = 0 ↔ X = 0 := by rw [e1]; simp [hk.ne']
  have z2 : area a b d = 0 ↔ Y = 0 := by rw [e2]; simp [hk.ne']
  rw [ccw_spec h1, ccw_spec h2]
  simp only [p1, p2, z1, z2]
  rcases lt_trichotomy X 0 with hX | hX | hX <;> rcases lt_trichotomy Y 0 with hY | hY | hY
  · simp [hX.not_gt, hX.ne, hY.not_gt, hY.ne]; nlinarith
  · simp [hX.not_gt, hX.ne, hY]
  · simp [hX.not_gt, hX.ne, hY, hY.ne']; nlinarith
  · simp [hX]
  · simp [hX]
  · simp [hX]
  · simp [hX, hX.ne', hY.not_gt, hY.ne]; nlinarith
  · simp [hX, hX.ne', hY]
  · simp [hX, hY]; nlinarith

/-- the segments cross -/
theorem intersect_iff {f1 f2 g1 g2 : Pt} (hf : f1.t < f2.t) (hg : g1.t < g2.t) :
    intersect Tol.exact f1 f2 g1 g2 = true ↔
      (ln f1 f2 g1.t - ln g1 g2 g1.t) * (ln f1 f2 g2.t - ln g1 g2 g2.t) < 0 ∧ (ln f1 f2 f1.t - ln g1 g2 f1.t) * (ln f1 f2 f2.t - ln g1 g2 f2.t) < 0 := by
  have a1 := sign_pair (a := f1) (b := f2) (c := g1) (d := g2) (k := f2.t - f1.t) (by linarith) (.inr hf.ne') (.inr hf.ne') (area_ab hf) (area_ab hf)
  have a2 := sign_pair (a := g1) (b := g2) (c := f1) (d := f2) (k := g2.t - g1.t) (by linarith) (.inr hg.ne') (.inr hg.ne') (area_ab hg) (area_ab hg)
  rw [ln_left g1 g2, ln_right hg, ln_left f1 f2, ln_right hf]
  rw [show (f1.v - ln g1 g2 f1.t) * (f2.v - ln g1 g2 f2.t) = (ln g1 g2 f1.t - f1.v) * (ln g1 g2 f2.t - f2.v) by ring]
  rw [← a1, ← a2]
  simp only [intersect, Bool.and_eq_true, Bool.not_eq_true', beq_eq_false_iff_ne]
  tauto

theorem point_spec {f1 f2 g1 g2 : Pt} (hf : f1.t < f2.t) (hg : g1.t < g2.t) (hne : slope f1 f2 ≠ slope g1 g2) :
    ∃ x, intersectionPoint Tol.exact f1 f2 g1 g2 = some ⟨x, ln f1 f2 x⟩ ∧ ln f1 f2 x = ln g1 g2 x := by
  have hm : slope g1 g2 - slope f1 f2 ≠ 0 := sub_ne_zero.2 (Ne.symm hne)
  have hf' : f2.t - f1.t ≠ 0 := by linarith
  have hg' : g2.t - g1.t ≠ 0 := by linarith
  have e1 : perp (ptSub g1 g2) (ptSub g1 f1) = (g2.t - g1.t) * (f1.v - ln g1 g2 f1.t) := by
    simp only [perp, ptSub, ln]
    linear_combination (-(g1.t - f1.t)) * slope_mul hg
  have e2 : perp (ptSub g1 g2) (ptSub f2 f1) = (g2.t - g1.t) * (f2.t - f1.t) * (slope g1 g2 - slope f1 f2) := by
    simp only [perp, ptSub]
    linear_combination (g2.t - g1.t) * slope_mul hf - (f2.t - f1.t) * slope_mul hg
  have hd : (g2.t - g1.t) * (f2.t - f1.t) * (slope g1 g2 - slope f1 f2) ≠ 0 := mul_ne_zero (mul_ne_zero hg' hf') hm
  have e3 : (g2.t - g1.t) * (f1.v - ln g1 g2 f1.t) / ((g2.t - g1.t) * (f2.t - f1.t) * (slope g1 g2 - slope f1 f2)) * (f2.t - f1.t) =
      (f1.v - ln g1 g2 f1.t) / (slope g1 g2 - slope f1 f2) := by
    field_simp
  have e4 : (g2.t - g1.t) * (f1.v - ln g1 g2 f1.t) / ((g2.t - g1.t) * (f2.t - f1.t) * (slope g1 g2 - slope f1 f2)) * (f2.v - f1.v) =
      slope f1 f2 * ((f1.v - ln g1 g2 f1.t) / (slope g1 g2 - slope f1 f2)) := by
    rw [← slope_mul hf]
    field_simp
  have hv : ln f1 f2 (f1.t + (f1.v - ln g1 g2 f1.t) / (slope g1 g2 - slope f1 f2)) = f1.v + slope f1 f2 * ((f1.v - ln g1 g2 f1.t) / (slope g1 g2 - slope f1 f2)) := by
    simp only [ln]; ring
  have hw : ln f1 f2 (f1.t + (f1.v - ln g1 g2 f1.t) / (slope g1 g2 - slope f1 f2)) = ln g1 g2 (f1.t + (f1.v - ln g1 g2 f1.t) / (slope g1 g2 - slope f1 f2)) := by
    have : ln g1 g2 (f1.t + (f1.v - ln g1 g2 f1.t) / (slope g1 g2 - slope f1 f2)) = ln g1 g2 f1.t + slope g1 g2 * ((f1.v - ln g1 g2 f1.t) / (slope g1 g2 - slope f1 f2)) := by
      simp only [ln]; ring
    rw [hv, this]
    have h5 : (slope g1 g2 - slope f1 f2) * ((f1.v - ln g1 g2 f1.t) / (slope g1 g2 - slope f1 f2)) = f1.v - ln g1 g2 f1.t := mul_div_cancel₀ _ hm
    linarith
  refine ⟨f1.t + (f1.v - ln g1 g2 f1.t) / (slope g1 g2 - slope f1 f2), ?_, hw⟩
  simp only [intersectionPoint, e1, e2, Option.bind_eq_bind, Option.pure_def, Tol.exact]
  rw [e3, e4, ← hv]
  revert hw
  generalize f1.t + (f1.v - ln g1 g2 f1.t) / (slope g1 g2 - slope f1 f2) = x
  intro hw
  have hd' : decide ((g2.t - g1.t) * (f2.t - f1.t) * (slope g1 g2 - slope f1 f2) ≠ 0) = true := decide_eq_true hd
  rw [hd', interpolate_ok hf, interpolate_ok hg, show f1.v + slope f1 f2 * (x - f1.t) = ln f1 f2 x from rfl, show g1.v + slope g1 g2 * (x - g1.t) = ln g1 g2 x from rfl, hw]
  simp [assert, feq_zero]

theorem collinear_spec {p q r : Pt} (h1 : p.t < q.t) (h2 : q.t < r.t) : colinearOrdered Tol.exact p q r = some (decide (q.v = ln p r q.t)) := by
  have : p.v + (q.t - p.t) / (r.t - p.t) * (r.v - p.v) = ln p r q.t := by
    have : r.t - p.t ≠ 0 := by linarith
    simp only [ln, slope]; field_simp
  simp [colinearOrdered, Tol.exact, assert, flt_zero, feq_zero, h1, h2, this]

end Fl
end Verif
