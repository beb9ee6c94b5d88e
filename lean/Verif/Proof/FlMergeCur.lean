import Verif.Proof.FlLinkMain
import Verif.Model.FlMerge
/- The cursors of `merge`: both kinds of functions look alike. -/
set_option linter.unusedSimpArgs false
set_option linter.unusedVariables false
namespace Verif
namespace Fl
open Spec

/-- the function -/
noncomputable def fn (l : List Pt) (t : Rat) : Rat := by
  classical exact if h : ∃ y, TravelTime l t y then h.choose else 0

theorem tt_exists {l : List Pt} (hv : ValidTtf l) (t : Rat) : ∃ y, TravelTime l t y := by
  rcases valid_cases hv with ⟨v, rfl, _⟩ | h
  · exact ⟨v, tt_const.2 rfl⟩
  · exact h.tt_exists t

theorem tt_unique {l : List Pt} (hv : ValidTtf l) {t y y' : Rat} (h1 : TravelTime l t y) (h2 : TravelTime l t y') : y = y' := by
  rcases valid_cases hv with ⟨v, rfl, _⟩ | h
  · rw [tt_const.1 h1, tt_const.1 h2]
  · exact h.tt_unique h1 h2

theorem tt_shift {l : List Pt} (hv : ValidTtf l) {t y : Rat} (j : Int) (h1 : TravelTime l t y) : TravelTime l (t + j * day) y := by
  rcases valid_cases hv with ⟨v, rfl, _⟩ | h
  · rw [tt_const] at h1 ⊢; exact h1
  · exact h.tt_shift j h1

theorem fn_iff {l : List Pt} (hv : ValidTtf l) {t y : Rat} : TravelTime l t y ↔ y = fn l t := by
  have h := tt_exists hv t
  have hf : fn l t = h.choose := by unfold fn; rw [dif_pos h]
  constructor
  · intro h1; rw [hf]; exact tt_unique hv h1 h.choose_spec
  · intro e; rw [e, hf]; exact h.choose_spec

theorem fn_shift {l : List Pt} (hv : ValidTtf l) (t : Rat) (j : Int) : fn l (t + j * day) = fn l t :=
  ((fn_iff hv).1 (tt_shift hv j ((fn_iff hv).2 rfl))).symm

theorem fn_fifo {l : List Pt} (hv : ValidTtf l) {t t' : Rat} (h : t ≤ t') : t + fn l t ≤ t' + fn l t' :=
  fifo hv ((fn_iff hv).2 rfl) ((fn_iff hv).2 rfl) h

/-- the line through two points -/
def ln (p q : Pt) (t : Rat) : Rat := p.v + slope p q * (t - p.t)

theorem onSeg_ln {p q : Pt} (h : p.t < q.t) {t y : Rat} : OnSeg p q t y ↔ p.t ≤ t ∧ t ≤ q.t ∧ y = ln p q t := onSeg_iff h

theorem ln_left (p q : Pt) : ln p q p.t = p.v := by simp [ln]

theorem slope_mul {p q : Pt} (h : p.t < q.t) : slope p q * (q.t - p.t) = q.v - p.v := by
  have h' : q.t - p.t ≠ 0 := by linarith
  simp only [slope]; field_simp

theorem ln_right {p q : Pt} (h : p.t < q.t) : ln p q q.t = q.v := by
  rw [ln, slope_mul h]; ring

/-- consecutive points of the function on any day -/
structure Seg (l : List Pt) (p q : Pt) : Prop where
  nx : Nx p q
  pv : 0 ≤ p.v
  qv : 0 ≤ q.v
  on : ∀ t, p.t ≤ t → t ≤ q.t → fn l t = ln p q t
  days : ∃ k : Int, k * day ≤ p.t ∧ q.t ≤ (k + 1) * day

/-- what every cursor is -/
structure Inner (l : List Pt) (c : Cursor) : Prop where
  ipps : c.ipps = l
  idx : c.idx < max 1 (l.length - 1)
  off : ∃ k : Int, c.offset = k * day

structure MCur (l : List Pt) (c : Cursor) (p q r : Pt) : Prop where
  inner : Inner l c
  prev : c.prev = some p
  cur : c.cur = some q
  next : c.next = some r
  s1 : Seg l p q
  s2 : Seg l q r

theorem gcur_days {g : List Pt} (h : Ok g) {c : Cursor} {p q : Pt} (hc : GCur g c p q) : ∃ k : Int, k * day ≤ p.t ∧ q.t ≤ (k + 1) * day := by
  obtain ⟨j, k, a, b, h1, h2, rfl, rfl⟩ := gcur_seg h hc
  have b1 := h.bounds h1
  have b2 := h.bounds h2
  exact ⟨k, by simp only [shifted]; linarith, by simp only [shifted]; linarith⟩

theorem gcur_Seg {g : List Pt} (h : Ok g) {c : Cursor} {p q : Pt} (hc : GCur g c p q) : Seg g p q := by
  obtain ⟨h1, h2, h3⟩ := gcur_nx h hc
  refine ⟨h1, h2, h3, ?_, gcur_days h hc⟩
  intro t ht1 ht2
  exact ((fn_iff h.valid).1 (gcur_tt h hc ((onSeg_ln h1.1).2 ⟨ht1, ht2, rfl⟩))).symm

theorem ok_next {g : List Pt} (h : Ok g) {c : Cursor} (e1 : c.ipps = g) (hi : c.idx < g.length - 1) : c.next = c.advance.cur := by
  have h2 := h.two
  obtain ⟨v, h0, hz⟩ := h.ends
  rw [advance_of h e1 hi, Cursor.next, e1, if_neg (by omega)]
  by_cases hl : c.idx + 1 = g.length - 1
  · rw [if_pos hl, hl, hz]
    simp only [Cursor.cur, h0, Option.map_some, shifted]
    congr 2; ring
  · rw [if_neg hl]
    rfl

theorem seg_const {v o : Rat} (hv : 0 ≤ v) {k : Int} (hk : o = k * day) : Seg [⟨0, v⟩] ⟨o, v⟩ ⟨o + day, v⟩ := by
  have hd := day_pos
  refine ⟨⟨by simp only; linarith, by simp only; linarith⟩, hv, hv, ?_, k, by simp only; linarith, by simp only; linarith⟩
  intro t _ _
  have : fn [⟨0, v⟩] t = v := (tt_const.1 ((fn_iff (.inl ⟨v, rfl, hv⟩)).2 rfl))
  rw [this]
  simp [ln, slope]

theorem mcur_of {l : List Pt} (hv : ValidTtf l) {c : Cursor} (hc : Inner l c) : ∃ p q r, MCur l c p q r ∧ Inner l c.advance ∧ c.advance.prev = some q ∧ c.advance.cur = some r := by
  rcases valid_cases hv with ⟨v, rfl, hv0⟩ | h
  · obtain ⟨k, hk⟩ := hc.off
    have hi := hc.idx
    simp at hi
    have ha : c.advance = ⟨[⟨0, v⟩], 0, c.offset + day⟩ := by simp [Cursor.advance, hc.ipps]
    refine ⟨⟨c.offset - day, v⟩, ⟨c.offset, v⟩, ⟨c.offset + day, v⟩, ⟨hc, ?_, ?_, ?_, ?_, seg_const hv0 hk⟩, ?_, ?_, ?_⟩
    · simp [Cursor.prev, hc.ipps, shifted]
    · simp [Cursor.cur, hc.ipps, hi, shifted]
    · simp [Cursor.next, hc.ipps, shifted]
    · have := seg_const hv0 (v := v) (o := c.offset - day) (k := k - 1) (by rw [hk]; push_cast; ring)
      simpa using this
    · rw [ha]; exact ⟨rfl, by simp, k + 1, by simp only; rw [hk]; push_cast; ring⟩
    · rw [ha]; simp [Cursor.prev, shifted]
    · rw [ha]; simp [Cursor.cur, shifted]
  · have h2 := h.two
    have hi : c.idx < l.length - 1 := by have := hc.idx; omega
    obtain ⟨p, q, hg⟩ := gcur_of h hc.ipps hi hc.off
    obtain ⟨r, hg'⟩ := gcur_advance h hg
    refine ⟨p, q, r, ⟨hc, hg.prev, hg.cur, by rw [ok_next h hc.ipps hi]; exact hg'.cur, gcur_Seg h hg, gcur_Seg h hg'⟩, ⟨hg'.ipps, by have := hg'.idx; omega, hg'.off⟩, hg'.prev, hg'.cur⟩

theorem MCur.advance {l : List Pt} (hv : ValidTtf l) {c : Cursor} {p q r : Pt} (hc : MCur l c p q r) : ∃ r', MCur l c.advance q r r' := by
  obtain ⟨p', q', r', h1, h2, h3, h4⟩ := mcur_of hv hc.inner
  have e2 : q' = q := by have := h1.cur; rw [hc.cur] at this; simpa using this.symm
  have e3 : r' = r := by have := h1.next; rw [hc.next] at this; simpa using this.symm
  subst e2; subst e3
  obtain ⟨p2, q2, r2, k1, k2, k3, k4⟩ := mcur_of hv h2
  have e4 : p2 = q' := by have := k1.prev; rw [h3] at this; simpa using this.symm
  have e5 : q2 = r' := by have := k1.cur; rw [h4] at this; simpa using this.symm
  subst e4; subst e5
  exact ⟨r2, k1⟩

/-- the cursor at the start -/
theorem mcur_new {l : List Pt} (hv : ValidTtf l) : ∃ p q r, MCur l (Cursor.new l) p q r ∧ q.t = 0 := by
  have hl : ∃ v rest, l = ⟨0, v⟩ :: rest := by
    rcases hv with ⟨v, e, _⟩ | ⟨⟨v, rest, e⟩, _⟩
    · exact ⟨v, [], e⟩
    · exact ⟨v, rest ++ [⟨day, v⟩], by rw [e]; simp⟩
  obtain ⟨v, rest, e⟩ := hl
  have hI : Inner l (Cursor.new l) := ⟨rfl, by simp [Cursor.new], 0, by simp [Cursor.new]⟩
  obtain ⟨p, q, r, h1, _⟩ := mcur_of hv hI
  refine ⟨p, q, r, h1, ?_⟩
  have := h1.cur
  rw [e] at this
  simp [Cursor.new, Cursor.cur, shifted] at this
  rw [← this]

/-- the points of a day -/
def per (l : List Pt) : Nat := max 1 (l.length - 1)

theorem iter_per {l : List Pt} (hv : ValidTtf l) {c : Cursor} (hc : Inner l c) : Cursor.advance^[per l] c = ⟨l, c.idx, c.offset + day⟩ := by
  rcases valid_cases hv with ⟨v, rfl, hv0⟩ | h
  · have hi := hc.idx
    simp at hi
    simp only [per, List.length_singleton, Nat.sub_self, Nat.max_zero, Nat.max_eq_left, Nat.zero_le, Function.iterate_one]
    simp [Cursor.advance, hc.ipps, hi]
  · have h2 := h.two
    have hi : c.idx < l.length - 1 := by have := hc.idx; omega
    have e : c = ⟨l, c.idx, c.offset⟩ := by cases c; simp; exact hc.ipps
    rw [show per l = l.length - 1 by simp only [per]; omega]
    have := iter_day h c.offset hi
    rw [← e] at this
    exact this

/-- time left -/
def Reach (c : Cursor) (m : Nat) (t : Rat) : Prop := ∃ q, (Cursor.advance^[m] c).cur = some q ∧ t ≤ q.t

theorem reach_new {l : List Pt} (hv : ValidTtf l) (k : Nat) : ∃ q, (Cursor.advance^[k * per l] (Cursor.new l)).cur = some q ∧ q.t = k * day := by
  have hl : ∃ v rest, l = ⟨0, v⟩ :: rest := by
    rcases hv with ⟨v, e, _⟩ | ⟨⟨v, rest, e⟩, _⟩
    · exact ⟨v, [], e⟩
    · exact ⟨v, rest ++ [⟨day, v⟩], by rw [e]; simp⟩
  obtain ⟨v, rest, e⟩ := hl
  have key : Cursor.advance^[k * per l] (Cursor.new l) = ⟨l, 0, k * day⟩ := by
    induction k with
    | zero => simp [Cursor.new]
    | succ k ih =>
      rw [Nat.succ_mul, Nat.add_comm, Function.iterate_add_apply, ih, iter_per hv ⟨rfl, by simp, k, by simp⟩]
      simp only [Cursor.mk.injEq, true_and]
      push_cast; ring
  rw [key]
  refine ⟨⟨k * day, v⟩, ?_, rfl⟩
  simp [Cursor.cur, e, shifted]

theorem reach_step {c : Cursor} {m : Nat} {t : Rat} {q : Pt} (h : Reach c m t) (hq : c.cur = some q) (hlt : q.t < t) : ∃ m', m = m' + 1 ∧ Reach c.advance m' t := by
  cases m with
  | zero =>
    obtain ⟨q', h1, h2⟩ := h
    simp at h1
    rw [hq] at h1; simp at h1; subst h1
    linarith
  | succ m =>
    obtain ⟨q', h1, h2⟩ := h
    exact ⟨m, rfl, q', by rw [Function.iterate_succ_apply] at h1; exact h1, h2⟩

/-- the next point is not after the end of the day -/
theorem Seg.le_day {l : List Pt} {p q : Pt} (h : Seg l p q) (j : Int) (hp : p.t < j * day) : q.t ≤ j * day := by
  obtain ⟨k, h1, h2⟩ := h.days
  have hd := day_pos
  have : (k : Rat) < j := by
    by_contra hc
    have := mul_le_mul_of_nonneg_right (not_lt.1 hc) hd.le
    linarith
  have : (k : Rat) + 1 ≤ j := by
    have h3 : k < j := by exact_mod_cast this
    exact_mod_cast Int.add_one_le_iff.2 h3
  have := mul_le_mul_of_nonneg_right this hd.le
  linarith

/-- the bounds of the values -/
theorem fn_le_upper {l : List Pt} (hv : ValidTtf l) {u : Rat} (h : ∀ p ∈ l, p.v ≤ u) (t : Rat) : fn l t ≤ u := by
  have := (fn_iff hv).2 (rfl : fn l t = fn l t)
  rcases this with ⟨p, e, hp⟩ | ⟨k, _, _, A, p, q, B, e, hs⟩
  · rw [hp]; exact h p (by rw [e]; simp)
  · have h1 : p.v ≤ u := h p (by rw [e]; simp)
    have h2 : q.v ≤ u := h q (by rw [e]; simp)
    have hn : p.t < q.t := by
      rcases hv with ⟨v, e', _⟩ | ⟨_, _, hn⟩
      · rw [e'] at e
        have := congrArg List.length e
        simp at this; omega
      · exact (hn A p q B e).1
    obtain ⟨a, b, c⟩ := hs
    by_contra hc
    nlinarith

theorem fn_ge_lower {l : List Pt} (hv : ValidTtf l) {u : Rat} (h : ∀ p ∈ l, u ≤ p.v) (t : Rat) : u ≤ fn l t := by
  have := (fn_iff hv).2 (rfl : fn l t = fn l t)
  rcases this with ⟨p, e, hp⟩ | ⟨k, _, _, A, p, q, B, e, hs⟩
  · rw [hp]; exact h p (by rw [e]; simp)
  · have h1 : u ≤ p.v := h p (by rw [e]; simp)
    have h2 : u ≤ q.v := h q (by rw [e]; simp)
    have hn : p.t < q.t := by
      rcases hv with ⟨v, e', _⟩ | ⟨_, _, hn⟩
      · rw [e'] at e
        have := congrArg List.length e
        simp at this; omega
      · exact (hn A p q B e).1
    obtain ⟨a, b, c⟩ := hs
    by_contra hc
    nlinarith

theorem upper_spec {l : List Pt} (hl : l ≠ []) : ∃ u, upperBound l = some u ∧ ∀ p ∈ l, p.v ≤ u := by
  cases l with
  | nil => exact absurd rfl hl
  | cons p l =>
    refine ⟨_, rfl, ?_⟩
    have key : ∀ (l : List Pt) (a : Rat), a ≤ l.foldl (fun m q => max m q.v) a ∧ ∀ q ∈ l, q.v ≤ l.foldl (fun m q => max m q.v) a := by
      intro l
      induction l with
      | nil => intro a; simp
      | cons x l ih =>
        intro a
        obtain ⟨h1, h2⟩ := ih (max a x.v)
        refine ⟨(le_max_left _ _).trans h1, ?_⟩
        intro q hq
        rcases List.mem_cons.1 hq with rfl | hq
        · exact (le_max_right _ _).trans h1
        · exact h2 q hq
    intro q hq
    rcases List.mem_cons.1 hq with rfl | hq
    · exact (key l _).1
    · exact (key l _).2 q hq

theorem lower_spec {l : List Pt} (hl : l ≠ []) : ∃ u, lowerBound l = some u ∧ ∀ p ∈ l, u ≤ p.v := by
  cases l with
  | nil => exact absurd rfl hl
  | cons p l =>
    refine ⟨_, rfl, ?_⟩
    have key : ∀ (l : List Pt) (a : Rat), l.foldl (fun m q => min m q.v) a ≤ a ∧ ∀ q ∈ l, l.foldl (fun m q => min m q.v) a ≤ q.v := by
      intro l
      induction l with
      | nil => intro a; simp
      | cons x l ih =>
        intro a
        obtain ⟨h1, h2⟩ := ih (min a x.v)
        refine ⟨h1.trans (min_le_left _ _), ?_⟩
        intro q hq
        rcases List.mem_cons.1 hq with rfl | hq
        · exact h1.trans (min_le_right _ _)
        · exact h2 q hq
    intro q hq
    rcases List.mem_cons.1 hq with rfl | hq
    · exact (key l _).1
    · exact (key l _).2 q hq

end Fl
end Verif
