import Verif.Proof.FlLink
/- `inverse_evaluate` in exact arithmetic. -/
set_option linter.unusedSimpArgs false
set_option linter.unusedVariables false
namespace Verif
namespace Fl
open Spec

/-- searching an arrival -/
theorem search_arrival {bs : Search} (hbs : SearchBy bs) {l : List Pt} (hc : Ch l) (t : Rat) :
    (∃ i p, bs (fun p => cmp 0 (p.t + p.v) t) l = .ok i ∧ l[i]? = some p ∧ p.t + p.v = t) ∨
    (∃ i, bs (fun p => cmp 0 (p.t + p.v) t) l = .error i ∧ i ≤ l.length ∧ (∀ (j : Nat) (x : Pt), j < i → l[j]? = some x → x.t + x.v < t) ∧
      ∀ (j : Nat) (x : Pt), i ≤ j → l[j]? = some x → t < x.t + x.v) := by
  have h := hbs (fun p => cmp 0 (p.t + p.v) t) l (by
    intro i j x y hij hx hy
    have := (ch_lt hc hij hx hy).2
    simp only [cmp_lt, cmp_gt]
    exact ⟨fun h => by linarith, fun h => by linarith⟩)
  cases hb : bs (fun p => cmp 0 (p.t + p.v) t) l with
  | ok i =>
    obtain ⟨x, e1, e2⟩ := h.1 i hb
    exact .inl ⟨i, x, rfl, e1, cmp_eq.1 e2⟩
  | error i =>
    obtain ⟨e0, e1, e2⟩ := h.2 i hb
    exact .inr ⟨i, rfl, e0, fun j x hj hx => cmp_lt.1 (e1 j x hj hx), fun j x hj hx => cmp_gt.1 (e2 j x hj hx)⟩

/-- the first day -/
theorem Ok.inverse {bs : Search} (hbs : SearchBy bs) {l : List Pt} (h : Ok l) {v : Rat} (h0 : l[0]? = some ⟨0, v⟩) {a : Rat} (h1 : v ≤ a) (h2 : a < v + day) :
    ∃ t y, inverseEvaluate bs 0 l a = some t ∧ TravelTime l t y ∧ t + y = a ∧ 0 ≤ t ∧ t ≤ day := by
  obtain ⟨v', h0', hz⟩ := h.ends
  rw [h0] at h0'; simp at h0'; subst h0'
  have hlen := h.two
  have hd := day_pos
  have hk : splitDay (a - v) = (0, a - v) := by
    obtain ⟨k, e, k1, k2⟩ := splitDay_spec (a - v)
    have : k = 0 := day_unique k1 k2 (by push_cast; linarith) (by push_cast; linarith)
    subst this
    rw [e]; simp
  match l, h, h0, hz, hlen with
  | p :: q :: B, h, h0, hz, hlen =>
    have hlast : (p :: q :: B).getLast? = some ⟨day, v⟩ := by rw [List.getLast?_eq_getElem?]; exact hz
    simp at h0
    have a1 : assert (!flt 0 (day + v) a) = some () := by simp [assert]; linarith
    have a2 : assert (!flt 0 a (p.t + p.v)) = some () := by rw [h0]; simp [assert]; linarith
    have hv : a - v + v = a := by ring
    have hpv : p.v = v := by rw [h0]
    simp only [inverseEvaluate, hpv, hk, hv, hlast, Option.bind_eq_bind, Option.bind_some, a1]
    rw [hpv] at a2
    simp only [a2, Option.bind_some]
    rcases search_arrival hbs h.ch a with ⟨i, x, e1, e2, e3⟩ | ⟨i, e1, e2, e3, e4⟩
    · have hb := h.bounds e2
      simp only [e1, e2, Option.map_some]
      refine ⟨_, x.v, rfl, ?_, by linarith, by linarith [hb.1], by linarith [hb.2.1]⟩
      rw [zero_add]
      exact h.tt_of 0 (by simpa using hb.1) (by simpa using hb.2.1) (by simpa using interp_at h.ch h.two e2)
    · have hi0 : i ≠ 0 := by
        rintro rfl
        have := e4 0 p (le_refl _) rfl
        rw [h0] at this
        simp only at this; linarith
      have hil : i < (p :: q :: B).length := by
        by_contra hc
        have := e3 _ _ (by simp at hc ⊢; omega) hz
        simp only at this; linarith
      obtain ⟨j, rfl⟩ : ∃ j, i = j + 1 := ⟨i - 1, by omega⟩
      obtain ⟨x, hx⟩ := h.get (i := j) (by omega)
      obtain ⟨y, hy⟩ := h.get (i := j + 1) hil
      have hlt1 := e3 j x (by omega) hx
      have hlt2 := e4 (j + 1) y (le_refl _) hy
      have hne : (y.t + y.v) - (x.t + x.v) ≠ 0 := by linarith
      have hpos : 0 < (y.t + y.v) - (x.t + x.v) := by linarith
      obtain ⟨A, C, e, _⟩ := split_of_get hx hy
      have hn : Nx x y := ch_iff.1 h.ch A x y C e
      simp only [e1, if_neg hi0, Nat.add_sub_cancel, hx, hy, Option.bind_some, div_ok hne, Option.pure_def]
      set f := (a - (x.t + x.v)) / (y.t + y.v - (x.t + x.v)) with hf
      have hf0 : 0 ≤ f := div_nonneg (by linarith) hpos.le
      have hf1 : f ≤ 1 := by rw [hf, div_le_iff₀ hpos]; linarith
      have hfe : f * (y.t + y.v - (x.t + x.v)) = a - (x.t + x.v) := by rw [hf]; field_simp
      have hyx : 0 < y.t - x.t := by linarith [hn.1]
      have hm0 : 0 ≤ (y.t - x.t) * f := mul_nonneg hyx.le hf0
      have hm1 : (y.t - x.t) * f ≤ y.t - x.t := by nlinarith
      have hseg : OnSeg x y (x.t + (y.t - x.t) * f) (x.v + (y.v - x.v) * f) := ⟨by linarith, by linarith, by ring⟩
      have hb1 := h.bounds hx
      have hb2 := h.bounds hy
      refine ⟨_, x.v + (y.v - x.v) * f, rfl, ?_, by linarith, by linarith, by linarith⟩
      rw [zero_add]
      refine h.tt_of 0 (by simp; linarith) (by simp; linarith) ?_
      simp only [Int.cast_zero, zero_mul, sub_zero]
      exact ⟨A, x, y, C, e, hseg⟩

end Fl
end Verif
