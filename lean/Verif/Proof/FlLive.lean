import Verif.Model.FlLive
import Verif.Spec.LiveTime
import Verif.Proof.FlMergeGeo
import Verif.Proof.FtdMerge
import Verif.Proof.Reversed
/- Live travel times: where the report ends. -/
set_option linter.unusedSimpArgs false
set_option linter.unusedVariables false
namespace Verif
namespace FlTd
open Spec Fl

/-- the line from the end of the report on -/
def lineAt (live soon : Rat) (below : Bool) (t : Rat) : Rat := if below then soon + live - t else live + t - soon

/-- how far the line is from the usual travel time -/
def gap (below : Bool) (line usual : Rat) : Rat := if below then line - usual else usual - line

theorem reach_exists {l : List Pt} (hv : ValidTtf l) {c : Cursor} (hc : Inner l c) (T : Rat) : ∃ m, Reach c m T := by
  obtain ⟨p, q, r, h1, _⟩ := mcur_of hv hc
  have hd := day_pos
  have key : ∀ k : Nat, Cursor.advance^[k * per l] c = ⟨l, c.idx, c.offset + k * day⟩ := by
    intro k
    induction k with
    | zero => cases c; have := hc.ipps; simp at this ⊢; exact this
    | succ k ih =>
      obtain ⟨j, hj⟩ := hc.off
      rw [Nat.succ_mul, Nat.add_comm, Function.iterate_add_apply, ih, iter_per hv (c := ⟨l, c.idx, c.offset + k * day⟩) ⟨rfl, hc.idx, j + k, by simp only; rw [hj]; push_cast; ring⟩]
      simp only [Cursor.mk.injEq, true_and]
      push_cast; ring
  obtain ⟨k, hk⟩ : ∃ k : Nat, T - q.t ≤ k * day := by
    obtain ⟨j, _, _, h3⟩ := splitDay_spec (T - q.t)
    refine ⟨(j + 1).toNat, ?_⟩
    have : ((j + 1 : Int) : Rat) ≤ (((j + 1).toNat : Int) : Rat) := by exact_mod_cast Int.self_le_toNat _
    have := mul_le_mul_of_nonneg_right this hd.le
    push_cast at this ⊢
    linarith
  refine ⟨k * per l, ⟨q.t + k * day, q.v⟩, ?_, ?_⟩
  · rw [key]
    have hq := h1.cur
    simp only [Cursor.cur, hc.ipps] at hq ⊢
    cases hx : l[c.idx]? with
    | none => rw [hx] at hq; simp at hq
    | some x =>
      rw [hx] at hq
      simp only [Option.map_some, Option.some.injEq, shifted] at hq ⊢
      rw [← hq]
      simp only [Pt.mk.injEq, and_true]
      ring
  · simp only
    linarith

/-- the gap on a segment -/
theorem gap_affine (live soon : Rat) (below : Bool) (p q : Pt) : ∃ a b : Rat, ∀ t, gap below (lineAt live soon below t) (ln p q t) = a + b * t := by
  cases below
  · exact ⟨p.v - slope p q * p.t - live + soon, slope p q - 1, fun t => by simp only [gap, lineAt, ln, Bool.false_eq_true, if_false]; ring⟩
  · exact ⟨soon + live - p.v + slope p q * p.t, -1 - slope p q, fun t => by simp only [gap, lineAt, ln, if_true]; ring⟩

theorem ln_line {live soon : Rat} (below : Bool) {q : Rat} (h : soon < q) (t : Rat) : ln ⟨soon, live⟩ ⟨q, lineAt live soon below q⟩ t = lineAt live soon below t := by
  have hq : q - soon ≠ 0 := by linarith
  cases below
  · have : slope ⟨soon, live⟩ ⟨q, lineAt live soon false q⟩ = 1 := by
      simp only [slope, lineAt, Bool.false_eq_true, if_false]; field_simp; ring
    simp only [ln, this]; simp only [lineAt, Bool.false_eq_true, if_false]; ring
  · have : slope ⟨soon, live⟩ ⟨q, lineAt live soon true q⟩ = -1 := by
      simp only [slope, lineAt, if_true]; field_simp; ring
    simp only [ln, this]; simp only [lineAt, if_true]; ring

theorem gap_zero {below : Bool} {x y : Rat} : gap below x y = 0 ↔ x = y := by
  cases below <;> simp only [gap, Bool.false_eq_true, if_false, if_true, sub_eq_zero]
  exact eq_comm

theorem affine_pos {a b s u t : Rat} (h1 : 0 < a + b * s) (h2 : 0 ≤ a + b * u) (hs : s ≤ t) (ht : t < u) : 0 < a + b * t := by
  rcases le_total 0 b with hb | hb
  · have := mul_le_mul_of_nonneg_left hs hb; linarith
  · by_contra hc
    have h3 : b * t ≤ -a := by linarith
    have h4 : -a ≤ b * u := by linarith
    have h5 : b ≠ 0 := by rintro rfl; linarith
    have : b < 0 := lt_of_le_of_ne hb h5
    have := mul_lt_mul_of_neg_left ht this
    linarith

/-- what `switchpoint` is to find -/
structure Meets (pts : List Pt) (live soon : Rat) (below : Bool) (w : Rat) : Prop where
  after : soon < w
  met : fn pts w = lineAt live soon below w
  apart : ∀ t, soon ≤ t → t < w → 0 < gap below (lineAt live soon below t) (fn pts t)

/-- one step of the loop -/
theorem switch_step {l : List Pt} (hv : ValidTtf l) {live soon U : Rat} (hl : 0 ≤ live) (hU : ∀ t, fn l t ≤ U) (below : Bool) {m : Nat} {c : Cursor} {p q r : Pt} (hc : MCur l c p q r)
    (hq : soon ≤ q.t) (hr : Reach c m (soon + live + U)) (h0 : 0 < gap below (lineAt live soon below soon) (fn l soon))
    (hp : ∀ t, soon ≤ t → t ≤ p.t → 0 < gap below (lineAt live soon below t) (fn l t)) :
    (∃ w, Meets l live soon below w ∧ ∀ n, switchLoop Tol.exact live soon below (n + 1) c = some ⟨w, fn l w⟩) ∨
    ∃ m' r', m = m' + 1 ∧ MCur l c.advance q r r' ∧ soon ≤ r.t ∧ Reach c.advance m' (soon + live + U) ∧
      (∀ t, soon ≤ t → t ≤ q.t → 0 < gap below (lineAt live soon below t) (fn l t)) ∧
      ∀ n, switchLoop Tol.exact live soon below (n + 1) c = switchLoop Tol.exact live soon below n c.advance := by
  have hpq := hc.s1.nx.1
  have hfq : fn l q.t = q.v := by rw [hc.s1.on q.t hpq.le (le_refl _), ln_right hpq]
  obtain ⟨a, b, hab⟩ := gap_affine live soon below p q
  -- a time on the segment where the line is apart
  obtain ⟨s, s1, s2, s3, s4, s5⟩ : ∃ s, soon ≤ s ∧ p.t ≤ s ∧ s ≤ q.t ∧ 0 < a + b * s ∧ (∀ t, soon ≤ t → t ≤ s → 0 < gap below (lineAt live soon below t) (fn l t)) := by
    rcases le_total soon p.t with h | h
    · refine ⟨p.t, h, le_refl _, hpq.le, ?_, hp⟩
      rw [← hab, ← hc.s1.on p.t (le_refl _) hpq.le]
      exact hp _ h (le_refl _)
    · refine ⟨soon, le_refl _, h, hq, ?_, ?_⟩
      · rw [← hab, ← hc.s1.on soon h hq]; exact h0
      · intro t h1 h2; rw [le_antisymm h2 h1]; exact h0
  have hseg : ∀ t, p.t ≤ t → t ≤ q.t → gap below (lineAt live soon below t) (fn l t) = a + b * t := by
    intro t h1 h2; rw [hc.s1.on t h1 h2, hab]
  have hline : (if below then soon + live - q.t else live + q.t - soon) = lineAt live soon below q.t := rfl
  have hgq : gap below (lineAt live soon below q.t) q.v = a + b * q.t := by rw [← hfq]; exact hseg _ hpq.le (le_refl _)
  have hstep : ∀ n, switchLoop Tol.exact live soon below (n + 1) c =
      if lineAt live soon below q.t = q.v then some q else if gap below (lineAt live soon below q.t) q.v < 0 then intersectionPoint Tol.exact p q ⟨soon, live⟩ ⟨q.t, lineAt live soon below q.t⟩
      else switchLoop Tol.exact live soon below n c.advance := by
    intro n
    rw [switchLoop]
    simp only [hc.cur, hc.prev, Option.bind_eq_bind, Option.bind_some, hline, Tol.exact, feq_zero, flt_zero, decide_eq_true_eq]
    by_cases e : lineAt live soon below q.t = q.v
    · rw [if_pos e, if_pos e]
    · rw [if_neg e, if_neg e]
      congr 1
      cases below <;> simp [gap, sub_neg]
  rcases lt_trichotomy (a + b * q.t) 0 with hn | hz | hpos
  · -- the line has been crossed
    left
    have hsq : s < q.t := lt_of_le_of_ne s3 (by rintro rfl; linarith)
    have hsoon : soon < q.t := lt_of_le_of_lt s1 hsq
    have hne : slope p q ≠ slope ⟨soon, live⟩ ⟨q.t, lineAt live soon below q.t⟩ := by
      intro he
      have e1 : ∀ t, lineAt live soon below t - ln p q t = lineAt live soon below q.t - ln p q q.t := by
        intro t
        have u1 := ln_line (live := live) below hsoon t
        have u2 := ln_line (live := live) below hsoon q.t
        simp only [ln, ← he] at u1 u2 ⊢
        linarith
      have e2 : a + b * s = a + b * q.t := by
        rw [← hab, ← hab]
        have := e1 s
        cases below <;> simp only [gap, Bool.false_eq_true, if_false, if_true] <;> linarith
      linarith
    obtain ⟨x, x1, x2⟩ := point_spec hpq (show (⟨soon, live⟩ : Pt).t < (⟨q.t, lineAt live soon below q.t⟩ : Pt).t from hsoon) hne
    rw [ln_line below hsoon] at x2
    have x3 : a + b * x = 0 := by rw [← hab]; exact gap_zero.2 x2.symm
    have hb : b < 0 := by
      by_contra hc'
      have := mul_le_mul_of_nonneg_left hsq.le (not_lt.1 hc')
      linarith
    have x4 : s < x := by
      by_contra hc'
      have := mul_le_mul_of_nonpos_left (not_lt.1 hc') hb.le
      linarith
    have x5 : x < q.t := by
      by_contra hc'
      have := mul_le_mul_of_nonpos_left (not_lt.1 hc') hb.le
      linarith
    have x6 := hc.s1.on x (by linarith) x5.le
    refine ⟨x, ⟨by linarith, by rw [x6, x2], ?_⟩, ?_⟩
    · intro t t1 t2
      rcases le_total t s with h | h
      · exact s5 t t1 h
      · rw [hseg t (by linarith) (by linarith)]
        exact affine_pos s4 x3.ge h t2
    · intro n
      rw [hstep, if_neg (by intro e; rw [gap_zero.2 e] at hgq; linarith), if_pos (by rw [hgq]; exact hn), x1, x6]
  · left
    have hsq : s < q.t := lt_of_le_of_ne s3 (by rintro rfl; linarith)
    have he : lineAt live soon below q.t = q.v := by rw [hz] at hgq; exact gap_zero.1 hgq
    refine ⟨q.t, ⟨by linarith, by rw [hfq, he], ?_⟩, ?_⟩
    · intro t t1 t2
      rcases le_total t s with h | h
      · exact s5 t t1 h
      · rw [hseg t (by linarith) t2.le]
        exact affine_pos s4 hz.ge h t2
    · intro n
      rw [hstep, if_pos he, hfq]
  · right
    have hlt : q.t < soon + live + U := by
      by_contra hc'
      have h1 := hU q.t
      have h2 := Ftd.fn_nonneg hv q.t
      rw [← hgq, ← hfq] at hpos
      cases below <;> simp only [gap, lineAt, Bool.false_eq_true, if_false, if_true] at hpos <;> linarith
    obtain ⟨m', e, hr'⟩ := reach_step hr hc.cur hlt
    obtain ⟨r', hc'⟩ := MCur.advance hv hc
    refine ⟨m', r', e, hc', by have := hc.s2.nx.1; linarith, hr', ?_, ?_⟩
    · intro t t1 t2
      rcases le_total t s with h | h
      · exact s5 t t1 h
      · rcases t2.eq_or_lt with rfl | t2'
        · rw [hseg _ hpq.le (le_refl _)]; exact hpos
        · rw [hseg t (by linarith) t2]
          exact affine_pos s4 hpos.le h t2'
    · intro n
      rw [hstep, if_neg (by intro e; rw [gap_zero.2 e] at hgq; linarith), if_neg (by rw [hgq]; linarith)]

theorem switchLoop_ok {l : List Pt} (hv : ValidTtf l) {live soon U : Rat} (hl : 0 ≤ live) (hU : ∀ t, fn l t ≤ U) (below : Bool) : ∀ (m : Nat) (c : Cursor) (p q r : Pt), MCur l c p q r →
    soon ≤ q.t → Reach c m (soon + live + U) → 0 < gap below (lineAt live soon below soon) (fn l soon) → (∀ t, soon ≤ t → t ≤ p.t → 0 < gap below (lineAt live soon below t) (fn l t)) →
    ∃ w, Meets l live soon below w ∧ ∀ fuel, m + 1 ≤ fuel → switchLoop Tol.exact live soon below fuel c = some ⟨w, fn l w⟩ := by
  intro m
  induction m with
  | zero =>
    intro c p q r hc hq hr h0 hp
    rcases switch_step hv hl hU below hc hq hr h0 hp with ⟨w, h1, h2⟩ | ⟨m', r', e, _⟩
    · refine ⟨w, h1, ?_⟩
      intro fuel hf
      obtain ⟨n, rfl⟩ : ∃ n, fuel = n + 1 := ⟨fuel - 1, by omega⟩
      exact h2 n
    · omega
  | succ m ih =>
    intro c p q r hc hq hr h0 hp
    rcases switch_step hv hl hU below hc hq hr h0 hp with ⟨w, h1, h2⟩ | ⟨m', r', e, h1, h2, h3, h4, h5⟩
    · refine ⟨w, h1, ?_⟩
      intro fuel hf
      obtain ⟨n, rfl⟩ : ∃ n, fuel = n + 1 := ⟨fuel - 1, by omega⟩
      exact h2 n
    · obtain rfl : m = m' := by omega
      obtain ⟨w, k1, k2⟩ := ih _ _ _ _ h1 h2 h3 h0 h4
      refine ⟨w, k1, ?_⟩
      intro fuel hf
      obtain ⟨n, rfl⟩ : ∃ n, fuel = n + 1 := ⟨fuel - 1, by omega⟩
      rw [h5 n]
      exact k2 n (by omega)

/-- where the cursor starts, also for constant functions -/
theorem start_any {bs : Search} (hbs : SearchBy bs) {l : List Pt} (hv : ValidTtf l) (t : Rat) : ∃ p q r, MCur l (Cursor.startingAt bs 0 l t) p q r ∧ p.t < t ∧ t ≤ q.t := by
  rcases valid_cases hv with ⟨v, rfl, hv0⟩ | h
  · obtain ⟨k, e, h1, h2⟩ := splitDay_spec t
    have hd := day_pos
    by_cases h3 : 0 < t - k * day
    · have e1 : Cursor.startingAt bs 0 [⟨0, v⟩] t = ⟨[⟨0, v⟩], 0, day + k * day⟩ := by
        simp only [Cursor.startingAt, e, List.length_singleton, if_true, gt_iff_lt, if_pos h3]
      obtain ⟨p, q, r, g1, _⟩ := mcur_of hv (c := ⟨[⟨0, v⟩], 0, day + k * day⟩) ⟨rfl, by simp, k + 1, by simp only; push_cast; ring⟩
      refine ⟨p, q, r, by rw [e1]; exact g1, ?_, ?_⟩
      · have := g1.prev; simp [Cursor.prev, shifted] at this; rw [← this]; simp only; linarith
      · have := g1.cur; simp [Cursor.cur, shifted] at this; rw [← this]; simp only; linarith
    · have e1 : Cursor.startingAt bs 0 [⟨0, v⟩] t = ⟨[⟨0, v⟩], 0, k * day⟩ := by
        simp only [Cursor.startingAt, e, List.length_singleton, if_true, gt_iff_lt, if_neg h3]
      obtain ⟨p, q, r, g1, _⟩ := mcur_of hv (c := ⟨[⟨0, v⟩], 0, k * day⟩) ⟨rfl, by simp, k, rfl⟩
      refine ⟨p, q, r, by rw [e1]; exact g1, ?_, ?_⟩
      · have := g1.prev; simp [Cursor.prev, shifted] at this; rw [← this]; simp only; linarith
      · have := g1.cur; simp [Cursor.cur, shifted] at this; rw [← this]; simp only; linarith
  · obtain ⟨c, p, q, h1, h2, h3, h4⟩ := start_spec hbs h t
    obtain ⟨p', q', r', g1, _⟩ := mcur_of hv (c := c) ⟨h2.ipps, by have := h2.idx; have := h.two; omega, h2.off⟩
    have e1 : p' = p := by have := g1.prev; rw [h2.prev] at this; simpa using this.symm
    have e2 : q' = q := by have := g1.cur; rw [h2.cur] at this; simpa using this.symm
    subst e1; subst e2
    exact ⟨p', q', r', by rw [h1]; exact g1, h3, h4⟩

theorem evaluate_fn {bs : Search} (hbs : SearchBy bs) {l : List Pt} (hv : ValidTtf l) (t : Rat) : evaluate bs 0 l t = some (fn l t) := by
  rcases valid_cases hv with ⟨v, rfl, hv0⟩ | h
  · have : fn [⟨0, v⟩] t = v := tt_const.1 ((fn_iff hv).2 rfl)
    rw [this]; rfl
  · obtain ⟨y, h1, h2⟩ := h.evaluate hbs t
    rw [h1, (fn_iff hv).1 h2]

/-- `switchpoint` finds where the line meets the usual travel time -/
theorem switchpoint_ok {bs : Search} (hbs : SearchBy bs) {l : List Pt} (hv : ValidTtf l) {live : Rat} (hl : 0 ≤ live) (soon : Rat) :
    ∃ k w, (∀ fuel, k ≤ fuel → switchpoint bs Tol.exact fuel l live soon = some ⟨w, fn l w⟩) ∧
      ((w = soon ∧ fn l soon = live) ∨ (fn l soon < live ∧ Meets l live soon true w) ∨ (live < fn l soon ∧ Meets l live soon false w)) := by
  obtain ⟨U, hU⟩ : ∃ U, ∀ t, fn l t ≤ U := by
    refine ⟨(l.map (·.v)).foldr max 0, fun t => fn_le_upper hv ?_ t⟩
    intro p hp
    clear hv
    induction l with
    | nil => simp at hp
    | cons a l ih =>
      simp only [List.map_cons, List.foldr_cons]
      rcases List.mem_cons.1 hp with rfl | hp
      · exact le_max_left _ _
      · exact (ih hp).trans (le_max_right _ _)
  by_cases he : fn l soon = live
  · refine ⟨0, soon, ?_, .inl ⟨rfl, he⟩⟩
    intro fuel _
    simp only [switchpoint, Tol.exact, evaluate_fn hbs hv, Option.bind_eq_bind, Option.bind_some, feq_zero, he, decide_true, if_true]
  · obtain ⟨p, q, r, h1, h2, h3⟩ := start_any hbs hv soon
    obtain ⟨m, hm⟩ := reach_exists hv h1.inner (soon + live + U)
    have hs : ∀ fuel, switchpoint bs Tol.exact fuel l live soon = switchLoop Tol.exact live soon (decide (fn l soon < live)) fuel (Cursor.startingAt bs 0 l soon) := by
      intro fuel
      simp only [switchpoint, Tol.exact, evaluate_fn hbs hv, Option.bind_eq_bind, Option.bind_some, feq_zero, flt_zero, he, decide_false, Bool.false_eq_true, if_false]
    rcases lt_or_gt_of_ne he with h | h
    · obtain ⟨w, k1, k2⟩ := switchLoop_ok hv hl hU true m _ p q r h1 h3 hm (by simp [gap, lineAt]; exact h) (fun t t1 t2 => by linarith)
      refine ⟨m + 1, w, ?_, .inr (.inl ⟨h, k1⟩)⟩
      intro fuel hf
      rw [hs, decide_eq_true h]
      exact k2 fuel hf
    · obtain ⟨w, k1, k2⟩ := switchLoop_ok hv hl hU false m _ p q r h1 h3 hm (by simp [gap, lineAt]; exact h) (fun t t1 t2 => by linarith)
      refine ⟨m + 1, w, ?_, .inr (.inr ⟨h, k1⟩)⟩
      intro fuel hf
      rw [hs, decide_eq_false (by linarith)]
      exact k2 fuel hf

/-- `eval` on any points in the order of time -/
theorem eval_chain {bs : Search} (hbs : SearchBy bs) {p q : Pt} {B : List Pt} (hch : Ch (p :: q :: B)) {z : Pt} (hz : (p :: q :: B).getLast? = some z) {t : Rat} (h1 : p.t ≤ t) (h2 : t ≤ z.t) :
    ∃ y, eval bs 0 (p :: q :: B) t = some y ∧ Interp (p :: q :: B) t y := by
  have a1 : assert (!flt 0 z.t t) = some () := by simp [assert, h2]
  have a2 : assert (!flt 0 t p.t) = some () := by simp [assert, h1]
  simp only [Fl.eval, hz, a1, a2, Option.bind_eq_bind, Option.bind_some]
  rcases search_time hbs hch t with ⟨i, x, e1, e2, e3⟩ | ⟨i, e1, e2, e3, e4⟩
  · rw [e1]
    exact ⟨x.v, by simp [e2], by rw [← e3]; exact interp_at hch (by simp) e2⟩
  · rw [e1]
    have hi0 : i ≠ 0 := by
      intro hi
      have := e4 0 p (by omega) rfl
      linarith
    have hil : i < (p :: q :: B).length := by
      by_contra hc
      rw [List.getLast?_eq_getElem?] at hz
      have := e3 ((p :: q :: B).length - 1) _ (by simp at hc ⊢; omega) hz
      linarith
    obtain ⟨j, rfl⟩ : ∃ j, i = j + 1 := ⟨i - 1, by omega⟩
    obtain ⟨x, hx⟩ : ∃ x, (p :: q :: B)[j]? = some x := ⟨_, List.getElem?_eq_getElem (by omega)⟩
    obtain ⟨y, hy⟩ : ∃ x, (p :: q :: B)[j + 1]? = some x := ⟨_, List.getElem?_eq_getElem hil⟩
    obtain ⟨A, C, e, _⟩ := split_of_get hx hy
    have hnx := ch_iff.1 hch A x y C e
    simp only [if_neg hi0, Nat.add_sub_cancel, hx, hy, Option.bind_some, interpolate_ok hnx.1]
    refine ⟨_, rfl, A, x, y, C, e, (onSeg_iff hnx.1).2 ⟨(e3 j x (by omega) hx).le, (e4 (j + 1) y (le_refl _) hy).le, rfl⟩⟩

/-- the points of a report -/
noncomputable def reportPts (l : List Pt) (now live soon w : Rat) : List Pt := (if soon < w then [⟨now, live⟩, ⟨soon, live⟩] else [⟨now, live⟩]) ++ [⟨w, fn l w⟩]

/-- what `switchpoint` finds -/
def Ends (l : List Pt) (live soon w : Rat) : Prop :=
  (w = soon ∧ fn l soon = live) ∨ (fn l soon < live ∧ Meets l live soon true w) ∨ (live < fn l soon ∧ Meets l live soon false w)

/-- the travel time with a report -/
noncomputable def withReport (l : List Pt) (live soon w t : Rat) : Rat :=
  if t ≤ soon then live else if t < w then lineAt live soon (decide (fn l soon < live)) t else fn l t

theorem withReport_spec {l : List Pt} {now live soon w : Rat} (h : Ends l live soon w) : LiveTravelTime (fn l) now soon live (withReport l live soon w) := by
  refine ⟨fun t _ ht => by simp only [withReport, if_pos ht], w, ?_, ?_, ?_, ?_⟩
  · rcases h with ⟨h, _⟩ | ⟨_, h⟩ | ⟨_, h⟩
    · exact h.ge
    · exact h.after.le
    · exact h.after.le
  · intro t ht
    rcases h with ⟨h, h'⟩ | ⟨_, h⟩ | ⟨_, h⟩
    · subst h
      rcases ht.eq_or_lt with rfl | ht'
      · simp only [withReport, le_refl, if_true, h']
      · simp only [withReport, if_neg (not_le.2 ht'), if_neg (not_lt.2 ht)]
    · simp only [withReport, if_neg (not_le.2 (lt_of_lt_of_le h.after ht)), if_neg (not_lt.2 ht)]
    · simp only [withReport, if_neg (not_le.2 (lt_of_lt_of_le h.after ht)), if_neg (not_lt.2 ht)]
  · intro hle t t1
    rcases h with ⟨h, h'⟩ | ⟨h', h⟩ | ⟨h', h⟩
    · subst h
      refine ⟨fun t2 => ?_, fun t2 => absurd t2 (not_lt.2 t1)⟩
      obtain rfl := le_antisymm t2 t1
      simp only [withReport, le_refl, if_true]; ring
    · have e : t ≤ w → withReport l live soon w t = lineAt live soon true t := by
        intro t2
        rcases t1.eq_or_lt with rfl | t1'
        · simp only [withReport, le_refl, if_true, lineAt]; ring
        · rcases t2.eq_or_lt with rfl | t2
          · simp only [withReport, if_neg (not_le.2 t1'), lt_irrefl, if_false, h.met]
          · simp only [withReport, if_neg (not_le.2 t1'), if_pos t2, decide_eq_true h']
      refine ⟨fun t2 => ?_, fun t2 => ?_⟩
      · rw [e t2]; simp only [lineAt, if_true]; ring
      · have := h.apart t t1 t2
        rw [e t2.le]
        simp only [lineAt, gap, if_true] at this ⊢
        linarith
    · linarith
  · intro hle t t1
    rcases h with ⟨h, h'⟩ | ⟨h', h⟩ | ⟨h', h⟩
    · subst h
      refine ⟨fun t2 => ?_, fun t2 => absurd t2 (not_lt.2 t1)⟩
      obtain rfl := le_antisymm t2 t1
      simp only [withReport, le_refl, if_true]; ring
    · linarith
    · have e : t ≤ w → withReport l live soon w t = lineAt live soon false t := by
        intro t2
        rcases t1.eq_or_lt with rfl | t1'
        · simp only [withReport, le_refl, if_true, lineAt, Bool.false_eq_true, if_false]; ring
        · rcases t2.eq_or_lt with rfl | t2
          · simp only [withReport, if_neg (not_le.2 t1'), lt_irrefl, if_false, h.met]
          · simp only [withReport, if_neg (not_le.2 t1'), if_pos t2, decide_eq_false (not_lt.2 h'.le)]
      refine ⟨fun t2 => ?_, fun t2 => ?_⟩
      · rw [e t2]; simp only [lineAt, Bool.false_eq_true, if_false]; ring
      · have := h.apart t t1 t2
        rw [e t2.le]
        simp only [lineAt, gap, Bool.false_eq_true, if_false] at this ⊢
        linarith

theorem livePoints_ok {bs : Search} (hbs : SearchBy bs) (dbg : Bool) {g : Graph} {e : Nat} {l : List Pt} (hg : g.ttf e = some l) (hv : ValidTtf l) (now : Rat) (a b : Nat) :
    ∃ k w, Ends l ((a : Rat) / 1000) ((b : Rat) / 1000) w ∧
      ∀ fuel, k ≤ fuel → livePoints bs Tol.exact dbg fuel g now e (some (a, b)) = some (reportPts l now ((a : Rat) / 1000) ((b : Rat) / 1000) w) := by
  obtain ⟨k, w, h1, h2⟩ := switchpoint_ok hbs hv (live := (a : Rat) / 1000) (div_nonneg (Nat.cast_nonneg a) (by norm_num)) ((b : Rat) / 1000)
  refine ⟨k, w, h2, ?_⟩
  intro fuel hf
  simp only [livePoints, hg, h1 fuel hf, Option.bind_eq_bind, Option.bind_some]
  have e1 : evaluate bs Tol.exact.eps l w = some (fn l w) := evaluate_fn hbs hv w
  have e2 : dassert dbg (feq Tol.exact.eps (fn l w) (fn l w)) = some () := by simp [dassert, Tol.exact]
  rw [e1]
  simp only [e2, Option.bind_some]
  simp only [reportPts, Tol.exact, flt_zero, decide_eq_true_eq]

theorem seg_flat {a b v t y : Rat} (h : a < b) (hs : OnSeg ⟨a, v⟩ ⟨b, v⟩ t y) : y = v := by
  obtain ⟨_, _, h3⟩ := hs
  simp only [sub_self, zero_mul] at h3
  rcases mul_eq_zero.1 h3 with h4 | h4 <;> linarith

/-- the points are in order -/
theorem report_chain {l : List Pt} {now live soon w : Rat} (h : Ends l live soon w) (hn : now < soon) :
    ∃ q B, reportPts l now live soon w = ⟨now, live⟩ :: q :: B ∧ Ch (⟨now, live⟩ :: q :: B) ∧ (⟨now, live⟩ :: q :: B : List Pt).getLast? = some ⟨w, fn l w⟩ ∧
      ∀ t y, Interp (⟨now, live⟩ :: q :: B) t y → y = withReport l live soon w t := by
  have key : ∀ below, decide (fn l soon < live) = below → Meets l live soon below w → ∃ q B, reportPts l now live soon w = ⟨now, live⟩ :: q :: B ∧ Ch (⟨now, live⟩ :: q :: B) ∧
      (⟨now, live⟩ :: q :: B : List Pt).getLast? = some ⟨w, fn l w⟩ ∧ ∀ t y, Interp (⟨now, live⟩ :: q :: B) t y → y = withReport l live soon w t := by
    intro below hb hm
    refine ⟨⟨soon, live⟩, [⟨w, fn l w⟩], ?_, ?_, rfl, ?_⟩
    · simp only [reportPts, if_pos hm.after, List.cons_append, List.nil_append]
    · refine .cons_cons ⟨hn, by simp only; linarith⟩ (.cons_cons ⟨hm.after, ?_⟩ (.singleton _))
      simp only [hm.met]
      have := hm.after
      cases below <;> simp only [lineAt, Bool.false_eq_true, if_false, if_true] <;> linarith
    · intro t y hI
      rcases interp_cons.1 hI with hs | hI
      · rw [seg_flat hn hs]
        simp only [withReport, if_pos hs.2.1]
      · rcases interp_cons.1 hI with hs | hI
        · rw [hm.met] at hs
          obtain ⟨h1, h2, h3⟩ := (onSeg_ln (show (⟨soon, live⟩ : Pt).t < (⟨w, lineAt live soon below w⟩ : Pt).t from hm.after)).1 hs
          rw [ln_line below hm.after] at h3
          simp only at h1 h2
          rcases h1.eq_or_lt with rfl | h1
          · rw [h3]; simp only [withReport, le_refl, if_true]
            cases below <;> simp [lineAt]
          · rcases h2.eq_or_lt with rfl | h2
            · rw [h3]; simp only [withReport, if_neg (not_le.2 h1), lt_irrefl, if_false, hm.met]
            · rw [h3]; simp only [withReport, if_neg (not_le.2 h1), if_pos h2, hb]
        · exact absurd hI interp_short
  rcases h with ⟨h, h'⟩ | ⟨h', h⟩ | ⟨h', h⟩
  · subst h
    refine ⟨⟨w, fn l w⟩, [], by simp only [reportPts, lt_irrefl, if_false, List.cons_append, List.nil_append], .cons_cons ⟨hn, by simp only [h']; linarith⟩ (.singleton _), rfl, ?_⟩
    intro t y hI
    rcases interp_cons.1 hI with hs | hI
    · rw [h'] at hs
      rw [seg_flat hn hs]
      simp only [withReport, if_pos hs.2.1]
    · exact absurd hI interp_short
  · exact key true (decide_eq_true h') h
  · exact key false (decide_eq_false (not_lt.2 h'.le)) h

theorem chain_all : ∀ {pts : List Pt}, Ch pts → (pts.zip pts.tail).all (fun x => flt 0 x.1.t x.2.t && !flt 0 (x.2.v - x.1.v) (x.1.t - x.2.t)) = true
  | [], _ => rfl
  | [p], _ => rfl
  | p :: q :: B, h => by
    obtain ⟨h1, h2⟩ := List.isChain_cons_cons.1 h
    have := chain_all h2
    simp only [List.tail_cons, List.zip_cons_cons, List.all_cons, Bool.and_eq_true] at this ⊢
    refine ⟨?_, this⟩
    simp only [flt_zero, decide_eq_true_eq, Bool.not_eq_true', decide_eq_false_iff_not, not_lt]
    exact ⟨h1.1, by linarith [h1.2]⟩

/-- who leaves later does not arrive earlier -/
theorem live_fifo {usual F : Rat → Rat} {now til live : Rat} (hn : now ≤ til) (hu : ∀ t t', t ≤ t' → t + usual t ≤ t' + usual t') (h : LiveTravelTime usual now til live F) {t t' : Rat} (h0 : now ≤ t) (hle : t ≤ t') :
    t + F t ≤ t' + F t' := by
  obtain ⟨w, w1, w2, w3, w4⟩ := h.back
  have z1 : ∀ t t', now ≤ t → t ≤ t' → t' ≤ til → t + F t ≤ t' + F t' := by
    intro t t' a b c
    rw [h.reported t a (by linarith), h.reported t' (by linarith) c]; linarith
  have z2 : ∀ t t', til ≤ t → t ≤ t' → t' ≤ w → t + F t ≤ t' + F t' := by
    intro t t' a b c
    rcases le_total (usual til) live with hc | hc
    · rw [(w3 hc t a).1 (by linarith), (w3 hc t' (by linarith)).1 c]; linarith
    · rw [(w4 hc t a).1 (by linarith), (w4 hc t' (by linarith)).1 c]; linarith
  have z3 : ∀ t t', w ≤ t → t ≤ t' → t + F t ≤ t' + F t' := by
    intro t t' a b
    rw [w2 t a, w2 t' (by linarith)]; exact hu t t' b
  have z12 : ∀ t t', now ≤ t → t ≤ t' → t' ≤ w → t + F t ≤ t' + F t' := by
    intro t t' a b c
    rcases le_total t' til with h1 | h1
    · exact z1 t t' a b h1
    · rcases le_total t til with h2 | h2
      · exact (z1 t til a h2 (le_refl _)).trans (z2 til t' (le_refl _) h1 c)
      · exact z2 t t' h2 b c
  rcases le_total t' w with h1 | h1
  · exact z12 t t' h0 hle h1
  · rcases le_total t w with h2 | h2
    · exact (z12 t w h0 h2 (le_refl _)).trans (z3 w t' (le_refl _) h1)
    · exact z3 t t' h2 hle

/-- the travel time is the usual one or between two that are known -/
theorem live_between {usual F : Rat → Rat} {now til live : Rat} (h : LiveTravelTime usual now til live F) {t : Rat} (h0 : now ≤ t) :
    ∃ τ, (∀ a, a ≤ live → a ≤ usual τ → a ≤ F t) ∧ ∀ a, live ≤ a → usual τ ≤ a → F t ≤ a := by
  obtain ⟨w, w1, w2, w3, w4⟩ := h.back
  rcases le_total t til with h1 | h1
  · rw [h.reported t h0 h1]
    exact ⟨t, fun a h _ => h, fun a h _ => h⟩
  · rcases le_total t w with h2 | h2
    · refine ⟨w, ?_⟩
      rw [← w2 w (le_refl _)]
      rcases le_total (usual til) live with hc | hc
      · rw [(w3 hc t h1).1 h2, (w3 hc w w1).1 (le_refl _)]
        exact ⟨fun a _ _ => by linarith, fun a _ _ => by linarith⟩
      · rw [(w4 hc t h1).1 h2, (w4 hc w w1).1 (le_refl _)]
        exact ⟨fun a _ _ => by linarith, fun a _ _ => by linarith⟩
    · rw [w2 t h2]
      exact ⟨t, fun a _ h => h, fun a _ h => h⟩

/-- evaluating with a report -/
theorem updated_ok {bs : Search} (hbs : SearchBy bs) (dbg : Bool) {l : List Pt} (hv : ValidTtf l) {now live soon w : Rat} (h : Ends l live soon w) (hn : now < soon) :
    ∃ f, Updated.new bs Tol.exact dbg l (reportPts l now live soon w) = some f ∧ f = ⟨l, reportPts l now live soon w⟩ ∧
      ∀ t, now ≤ t → f.evaluate bs Tol.exact dbg t = some (withReport l live soon w t) := by
  obtain ⟨q, B, e, hch, hz, hval⟩ := report_chain h hn
  refine ⟨⟨l, reportPts l now live soon w⟩, ?_, rfl, ?_⟩
  · rw [e]
    have a1 : dassert dbg ((⟨now, live⟩ :: q :: B : List Pt).length != 1) = some () := by simp [dassert]
    have a2 : evaluate bs Tol.exact.eps l w = some (fn l w) := evaluate_fn hbs hv w
    have a3 : assert (feq Tol.exact.eps (fn l w) (fn l w)) = some () := by simp [assert, Tol.exact]
    simp only [Updated.new, a1, hz, Option.bind_eq_bind, Option.bind_some]
    rw [a2]
    simp only [Option.bind_some, a3, ite_self]
  · intro t ht
    have hmain : Updated.evaluateMain bs Tol.exact dbg ⟨l, reportPts l now live soon w⟩ t = some (withReport l live soon w t) := by
      simp only [Updated.evaluateMain, e, hz]
      by_cases hw : t ≤ w
      · rw [if_pos hw]
        have a1 : partialNew Tol.exact.eps dbg (⟨now, live⟩ :: q :: B) = some (⟨now, live⟩ :: q :: B) := by
          show partialNew 0 dbg _ = _
          have d1 : dassert dbg (!(⟨now, live⟩ :: q :: B : List Pt).isEmpty) = some () := by simp [dassert]
          simp only [partialNew, d1, chain_all hch, Option.bind_eq_bind, Option.bind_some]
          simp [dassert]
        obtain ⟨y, y1, y2⟩ := eval_chain hbs hch hz ht hw
        rw [a1]
        simp only [Option.bind_eq_bind, Option.bind_some]
        rw [show Tol.exact.eps = 0 from rfl, y1, hval t y y2]
      · rw [if_neg hw]
        rw [show Tol.exact.eps = 0 from rfl, evaluate_fn hbs hv]
        have hw' := not_le.1 hw
        obtain ⟨w', w1, w2, _⟩ := (withReport_spec (now := now) h).back
        have : soon ≤ w := by
          rcases h with ⟨h, _⟩ | ⟨_, h⟩ | ⟨_, h⟩
          · exact h.ge
          · exact h.after.le
          · exact h.after.le
        simp only [withReport, if_neg (not_le.2 (lt_of_le_of_lt this hw')), if_neg (not_lt.2 hw'.le)]
    cases dbg
    · simp only [Updated.evaluate, Bool.false_eq_true, if_false]; exact hmain
    · have a1 : assert (!flt Tol.exact.eps t now) = some () := by simp [assert, Tol.exact, ht]
      have a2 : (reportPts l now live soon w)[0]? = some ⟨now, live⟩ := by rw [e]; rfl
      simp only [Updated.evaluate, if_true, a2, a1, Option.bind_eq_bind, Option.bind_some]
      exact hmain

/-- the steps that suffice for all arcs -/
theorem fuel_all {bs : Search} (hbs : SearchBy bs) (dbg : Bool) {g : Graph} (now : Rat) {live : List (Option (Nat × Nat))} (hg : ∀ e, e < live.length → ∃ p, g.ttf e = some p ∧ ValidTtf p) :
    ∀ n, n ≤ live.length → ∃ k, ∀ e < n, ∀ x, live[e]? = some x → ∃ pts, (∀ fuel, k ≤ fuel → livePoints bs Tol.exact dbg fuel g now e x = some pts) ∧
      (x = none → pts = []) ∧
      (∀ a b p, x = some (a, b) → g.ttf e = some p → ∃ w, Ends p ((a : Rat) / 1000) ((b : Rat) / 1000) w ∧ pts = reportPts p now ((a : Rat) / 1000) ((b : Rat) / 1000) w) := by
  intro n
  induction n with
  | zero => intro _; exact ⟨0, fun e he => by omega⟩
  | succ n ih =>
    intro hn
    obtain ⟨k, hk⟩ := ih (by omega)
    obtain ⟨p, p1, p2⟩ := hg n (by omega)
    obtain ⟨k', hk'⟩ : ∃ k', ∀ x, live[n]? = some x → ∃ pts, (∀ fuel, k' ≤ fuel → livePoints bs Tol.exact dbg fuel g now n x = some pts) ∧ (x = none → pts = []) ∧
        (∀ a b p, x = some (a, b) → g.ttf n = some p → ∃ w, Ends p ((a : Rat) / 1000) ((b : Rat) / 1000) w ∧ pts = reportPts p now ((a : Rat) / 1000) ((b : Rat) / 1000) w) := by
      cases hx : live[n]? with
      | none => exact ⟨0, fun x hx => (nomatch hx)⟩
      | some x =>
        cases x with
        | none =>
          refine ⟨0, fun y hy => ?_⟩
          injection hy with hy; subst hy
          exact ⟨[], fun _ _ => rfl, fun _ => rfl, fun _ _ _ h => (nomatch h)⟩
        | some ab =>
          obtain ⟨a, b⟩ := ab
          obtain ⟨k', w, w1, w2⟩ := livePoints_ok hbs dbg p1 p2 now a b
          refine ⟨k', fun y hy => ?_⟩
          injection hy with hy; subst hy
          refine ⟨_, w2, fun h => (nomatch h), ?_⟩
          intro a' b' p' h1 h2
          injection h1 with h1; injection h1 with h1 h1'; subst h1; subst h1'
          rw [p1] at h2; injection h2 with h2; subst h2
          exact ⟨w, w1, rfl⟩
    refine ⟨max k k', ?_⟩
    intro e he x hx
    by_cases hen : e = n
    · subst hen
      obtain ⟨pts, h1, h2⟩ := hk' x hx
      exact ⟨pts, fun fuel hf => h1 fuel (le_trans (le_max_right _ _) hf), h2⟩
    · obtain ⟨pts, h1, h2⟩ := hk e (by omega) x hx
      exact ⟨pts, fun fuel hf => h1 fuel (le_trans (le_max_left _ _) hf), h2⟩

theorem slice_app {α : Type} {l m r : List α} {a b : Nat} (h : slice l a b = some r) : slice (l ++ m) a b = some r := by
  unfold slice at h ⊢
  split at h
  · rename_i hc
    injection h with h
    rw [if_pos ⟨hc.1, by rw [List.length_append]; omega⟩, ← h]
    congr 1
    rw [List.drop_append_of_le_length (by omega), List.take_append_of_le_length (by rw [List.length_drop]; omega)]
  · exact (nomatch h)

theorem slice_end {α : Type} (l m : List α) : slice (l ++ m) l.length (l ++ m).length = some m := by
  unfold slice
  rw [if_pos ⟨by simp, le_refl _⟩]
  simp

/-- after some arcs -/
structure LInv (P : List (Option (Nat × Nat) × Nat)) (f : Option (Nat × Nat) → Nat → List Pt) (st : List Nat × List Pt) : Prop where
  len : st.1.length = P.length + 1
  last : st.1[P.length]? = some st.2.length
  part : ∀ (i : Nat) (x : Option (Nat × Nat) × Nat), P[i]? = some x → ∃ a b, st.1[i]? = some a ∧ st.1[i + 1]? = some b ∧ slice st.2 a b = some (f x.1 x.2)

theorem new_ok {bs : Search} {dbg : Bool} {fuel : Nat} {g : Graph} {now : Rat} {live : List (Option (Nat × Nat))} (f : Option (Nat × Nat) → Nat → List Pt)
    (hf : ∀ e x, live[e]? = some x → livePoints bs Tol.exact dbg fuel g now e x = some (f x e)) :
    ∃ st, live.zipIdx.foldlM (liveStep bs Tol.exact dbg fuel g now) ([0], []) = some st ∧ LInv live.zipIdx f st := by
  refine GraphOps.foldlM_inv _ (fun P st => LInv P f st) live.zipIdx ?_ _ ⟨rfl, rfl, fun i x hx => by simp at hx⟩
  intro P x Q st hE hI
  have hx : live.zipIdx[P.length]? = some x := by rw [hE]; simp
  rw [List.getElem?_zipIdx] at hx
  cases hy : live[P.length]? with
  | none => rw [hy] at hx; exact (nomatch hx)
  | some y =>
    rw [hy] at hx
    simp only [Option.map_some, Nat.zero_add, Option.some.injEq] at hx
    subst hx
    have := hf P.length y hy
    refine ⟨(st.1 ++ [(st.2 ++ f y P.length).length], st.2 ++ f y P.length), ?_, ?_⟩
    · simp only [liveStep, this, Option.bind_eq_bind, Option.bind_some]
    · refine ⟨?_, ?_, ?_⟩
      · simp only [List.length_append, List.length_singleton, hI.len]
      · simp only [List.length_append, List.length_singleton]
        rw [List.getElem?_append_right (by rw [hI.len])]
        simp [hI.len]
      · intro i x hi
        by_cases hl : i < P.length
        · rw [List.getElem?_append_left hl] at hi
          obtain ⟨a, b, h1, h2, h3⟩ := hI.part i x hi
          refine ⟨a, b, ?_, ?_, slice_app h3⟩
          · rw [List.getElem?_append_left (by rw [hI.len]; omega)]; exact h1
          · rw [List.getElem?_append_left (by rw [hI.len]; omega)]; exact h2
        · have hi' : i = P.length := by
            have := (List.getElem?_eq_some_iff.1 hi).1
            simp at this; omega
          subst hi'
          simp only [List.getElem?_append_right (le_refl _), Nat.sub_self, List.getElem?_cons_zero, Option.some.injEq] at hi
          subst hi
          refine ⟨st.2.length, (st.2 ++ f y P.length).length, ?_, ?_, slice_end _ _⟩
          · rw [List.getElem?_append_left (by rw [hI.len]; omega)]; exact hI.last
          · rw [List.getElem?_append_right (by rw [hI.len])]; simp [hI.len]

theorem foldlM_same {α σ : Type} {f g : σ → α → Option σ} : ∀ {l : List α}, (∀ x ∈ l, ∀ s, f s x = g s x) → ∀ s, l.foldlM f s = l.foldlM g s
  | [], _, _ => rfl
  | a :: l, h, s => by
    simp only [List.foldlM_cons, h a (by simp)]
    cases g s a with
    | none => rfl
    | some s' => exact foldlM_same (fun x hx => h x (by simp [hx])) s'

/-- the travel time functions of the graph with reports -/
theorem live_ok {bs : Search} (hbs : SearchBy bs) (dbg : Bool) {g : Graph} (now : Rat) {live : List (Option (Nat × Nat))} (hg : ∀ e, e < live.length → ∃ p, g.ttf e = some p ∧ ValidTtf p) :
    ∃ k G, (∀ fuel, k ≤ fuel → LiveGraph.new bs Tol.exact dbg fuel g now live = some G) ∧ G.graph = g ∧
      (∀ e p, live[e]? = some none → g.ttf e = some p → ∀ d, G.ttf bs Tol.exact d e = Updated.new bs Tol.exact d p []) ∧
      (∀ (e : Nat) (p : List Pt) (a b : Nat), live[e]? = some (some (a, b)) → g.ttf e = some p → ∃ w, Ends p ((a : Rat) / 1000) ((b : Rat) / 1000) w ∧
        ∀ d, G.ttf bs Tol.exact d e = Updated.new bs Tol.exact d p (reportPts p now ((a : Rat) / 1000) ((b : Rat) / 1000) w)) := by
  classical
  obtain ⟨k, hk⟩ := fuel_all hbs dbg now hg live.length (le_refl _)
  have hlt : ∀ {e : Nat} {x : Option (Nat × Nat)}, live[e]? = some x → e < live.length := fun h => (List.getElem?_eq_some_iff.1 h).1
  let f : Option (Nat × Nat) → Nat → List Pt := fun x e => if h : live[e]? = some x then (hk e (hlt h) x h).choose else []
  have hf : ∀ e x (h : live[e]? = some x), f x e = (hk e (hlt h) x h).choose := fun e x h => dif_pos h
  have hfs := fun e x (h : live[e]? = some x) => (hk e (hlt h) x h).choose_spec
  obtain ⟨st, s1, s2⟩ := new_ok (fuel := k) f (fun e x h => by rw [hf e x h]; exact (hfs e x h).1 k (le_refl _))
  have hst : ∀ fuel, k ≤ fuel → live.zipIdx.foldlM (liveStep bs Tol.exact dbg fuel g now) ([0], []) = some st := by
    intro fuel hfu
    rw [← s1]
    refine foldlM_same ?_ _
    rintro ⟨x, e⟩ hx s
    obtain ⟨h1, h2⟩ := List.mem_zipIdx' hx
    have he : live[e]? = some x := by rw [List.getElem?_eq_getElem h1, h2]
    simp only [liveStep, (hfs e x he).1 fuel hfu, (hfs e x he).1 k (le_refl _)]
  refine ⟨k, ⟨g, st.1, st.2⟩, ?_, rfl, ?_, ?_⟩
  · intro fuel hfu
    simp only [LiveGraph.new, hst fuel hfu, Option.bind_eq_bind, Option.bind_some]
  · intro e p he hp d
    obtain ⟨a, b, h1, h2, h3⟩ := s2.part e (none, e) (by rw [List.getElem?_zipIdx, he]; simp)
    simp only [LiveGraph.ttf, hp, h1, h2, h3, Option.bind_eq_bind, Option.bind_some]
    rw [hf e none he, (hfs e none he).2.1 rfl]
  · intro e p a' b' he hp
    obtain ⟨a, b, h1, h2, h3⟩ := s2.part e (some (a', b'), e) (by rw [List.getElem?_zipIdx, he]; simp)
    obtain ⟨w, w1, w2⟩ := (hfs e _ he).2.2 a' b' p rfl hp
    refine ⟨w, w1, ?_⟩
    intro d
    simp only [LiveGraph.ttf, hp, h1, h2, h3, Option.bind_eq_bind, Option.bind_some]
    rw [hf e _ he, w2]

theorem foldl_min_le : ∀ (l : List Rat) (a : Rat), l.foldl min a ≤ a ∧ ∀ v ∈ l, l.foldl min a ≤ v
  | [], a => ⟨le_refl _, fun v h => by simp at h⟩
  | b :: l, a => by
    obtain ⟨h1, h2⟩ := foldl_min_le l (min a b)
    refine ⟨h1.trans (min_le_left _ _), ?_⟩
    intro v hv
    rcases List.mem_cons.1 hv with rfl | hv
    · exact h1.trans (min_le_right _ _)
    · exact h2 v hv

theorem le_foldl_max : ∀ (l : List Rat) (a : Rat), a ≤ l.foldl max a ∧ ∀ v ∈ l, v ≤ l.foldl max a
  | [], a => ⟨le_refl _, fun v h => by simp at h⟩
  | b :: l, a => by
    obtain ⟨h1, h2⟩ := le_foldl_max l (max a b)
    refine ⟨(le_max_left _ _).trans h1, ?_⟩
    intro v hv
    rcases List.mem_cons.1 hv with rfl | hv
    · exact (le_max_right _ _).trans h1
    · exact h2 v hv

theorem min_some {l : List Rat} (h : l ≠ []) : ∃ m, l.min? = some m ∧ ∀ v ∈ l, m ≤ v := by
  cases l with
  | nil => exact absurd rfl h
  | cons a l =>
    obtain ⟨h1, h2⟩ := foldl_min_le l a
    refine ⟨l.foldl min a, rfl, ?_⟩
    intro v hv
    rcases List.mem_cons.1 hv with rfl | hv
    · exact h1
    · exact h2 v hv

theorem max_some {l : List Rat} (h : l ≠ []) : ∃ m, l.max? = some m ∧ ∀ v ∈ l, v ≤ m := by
  cases l with
  | nil => exact absurd rfl h
  | cons a l =>
    obtain ⟨h1, h2⟩ := le_foldl_max l a
    refine ⟨l.foldl max a, rfl, ?_⟩
    intro v hv
    rcases List.mem_cons.1 hv with rfl | hv
    · exact h1
    · exact h2 v hv

theorem valid_ne {l : List Pt} (h : ValidTtf l) : l ≠ [] := by
  rcases h with ⟨v, rfl, _⟩ | ⟨⟨v, rest, rfl⟩, _⟩ <;> simp

/-- the bounds -/
theorem updated_bounds {l : List Pt} (hv : ValidTtf l) (u : List Pt) : ∃ lo up, Updated.lower ⟨l, u⟩ = some lo ∧ Updated.upper ⟨l, u⟩ = some up ∧ (∀ t, lo ≤ fn l t ∧ fn l t ≤ up) ∧
    ∀ p ∈ u, lo ≤ p.v ∧ p.v ≤ up := by
  obtain ⟨m, m1, m2⟩ := min_some (l := l.map (·.v)) (by simp; exact valid_ne hv)
  obtain ⟨M, M1, M2⟩ := max_some (l := l.map (·.v)) (by simp; exact valid_ne hv)
  refine ⟨_, _, by simp only [Updated.lower, m1, Option.bind_eq_bind, Option.bind_some]; rfl, by simp only [Updated.upper, M1, Option.bind_eq_bind, Option.bind_some]; rfl, ?_, ?_⟩
  · intro t
    exact ⟨(min_le_left _ _).trans (fn_ge_lower hv (fun p hp => m2 _ (List.mem_map.2 ⟨p, hp, rfl⟩)) t), (fn_le_upper hv (fun p hp => M2 _ (List.mem_map.2 ⟨p, hp, rfl⟩)) t).trans (le_max_left _ _)⟩
  · intro p hp
    have hne : u.map (·.v) ≠ [] := by intro h; rw [List.map_eq_nil_iff] at h; rw [h] at hp; simp at hp
    obtain ⟨n, n1, n2⟩ := min_some hne
    obtain ⟨N, N1, N2⟩ := max_some hne
    rw [n1, N1]
    simp only [Option.getD_some]
    exact ⟨(min_le_right _ _).trans (n2 _ (List.mem_map.2 ⟨p, hp, rfl⟩)), (N2 _ (List.mem_map.2 ⟨p, hp, rfl⟩)).trans (le_max_right _ _)⟩

/-- what is known of one arc -/
structure ArcOK (bs : Search) (G : LiveGraph) (now : Rat) (usual : Rat → Rat) (x : Option (Nat × Nat)) (e : Nat) (F : Rat → Rat) : Prop where
  rep : ∀ l s, x = some (l, s) → LiveTravelTime usual now ((s : Rat) / 1000) ((l : Rat) / 1000) F
  not : x = none → F = usual
  time : ∀ t, now ≤ t → G.time bs Tol.exact false e t = some (F t)
  nonneg : ∀ t, now ≤ t → 0 ≤ F t
  fifo : ∀ t t', now ≤ t → t ≤ t' → t + F t ≤ t' + F t'
  bounds : ∃ f lo up, G.ttf bs Tol.exact false e = some f ∧ f.lower = some lo ∧ f.upper = some up ∧ ∀ t, now ≤ t → lo ≤ F t ∧ F t ≤ up

theorem arc_ok {bs : Search} (hbs : SearchBy bs) {g : Graph} (now : Rat) {live : List (Option (Nat × Nat))} {usual : Nat → Rat → Rat}
    (hg : ∀ e, e < live.length → ∃ p, g.ttf e = some p ∧ ValidTtf p ∧ usual e = fn p)
    (hs : ∀ (e l s : Nat), live[e]? = some (some (l, s)) → now < (s : Rat) / 1000) :
    ∃ k G, (∀ fuel, k ≤ fuel → LiveGraph.new bs Tol.exact false fuel g now live = some G) ∧ ∀ e x, live[e]? = some x → ∃ F, ArcOK bs G now (usual e) x e F := by
  obtain ⟨k, G, h1, h2, h3, h4⟩ := live_ok hbs false now (fun e he => let ⟨p, a, b, _⟩ := hg e he; ⟨p, a, b⟩)
  refine ⟨k, G, h1, ?_⟩
  intro e x he
  obtain ⟨p, p1, p2, p3⟩ := hg e (List.getElem?_eq_some_iff.1 he).1
  cases x with
  | none =>
    have hn : Updated.new bs Tol.exact false p [] = some ⟨p, []⟩ := rfl
    obtain ⟨lo, up, b1, b2, b3, _⟩ := updated_bounds p2 []
    refine ⟨usual e, ⟨fun l s h => (nomatch h), fun _ => rfl, ?_, ?_, ?_, ⟨⟨p, []⟩, lo, up, by rw [h3 e p he p1, hn], b1, b2, ?_⟩⟩⟩
    · intro t _
      simp only [LiveGraph.time, h3 e p he p1, hn, Option.bind_eq_bind, Option.bind_some]
      rw [p3]; exact evaluate_fn hbs p2 t
    · intro t _; rw [p3]; exact Ftd.fn_nonneg p2 t
    · intro t t' _ h; rw [p3]; exact fn_fifo p2 h
    · intro t _; rw [p3]; exact b3 t
  | some ls =>
    obtain ⟨l, s⟩ := ls
    have hs' := hs e l s he
    obtain ⟨w, w1, w2⟩ := h4 e p l s he p1
    obtain ⟨f, f1, f2, f3⟩ := updated_ok hbs false p2 w1 hs'
    have hL := withReport_spec (now := now) w1
    obtain ⟨lo, up, b1, b2, b3, b4⟩ := updated_bounds p2 (reportPts p now ((l : Rat) / 1000) ((s : Rat) / 1000) w)
    refine ⟨withReport p ((l : Rat) / 1000) ((s : Rat) / 1000) w, ⟨?_, fun h => (nomatch h), ?_, ?_, ?_, ⟨f, lo, up, by rw [w2, f1], by rw [f2]; exact b1, by rw [f2]; exact b2, ?_⟩⟩⟩
    · intro l' s' h
      injection h with h; injection h with h h'; subst h; subst h'
      rw [p3]; exact hL
    · intro t ht
      simp only [LiveGraph.time, w2, f1, Option.bind_eq_bind, Option.bind_some, f3 t ht]
    · intro t ht
      obtain ⟨τ, k1, _⟩ := live_between hL ht
      exact k1 0 (div_nonneg (Nat.cast_nonneg l) (by norm_num)) (Ftd.fn_nonneg p2 τ)
    · intro t t' ht h
      exact live_fifo hs'.le (fun _ _ h => fn_fifo p2 h) hL ht h
    · intro t ht
      obtain ⟨q, B, e1, _⟩ := report_chain w1 hs'
      have := b4 ⟨now, (l : Rat) / 1000⟩ (by rw [e1]; simp)
      obtain ⟨τ, k1, k2⟩ := live_between hL ht
      exact ⟨k1 lo this.1 (b3 τ).1, k2 up this.2 (b3 τ).2⟩

theorem livePath_ok {ev : Nat → Rat → Option Rat} {F : Nat → Rat → Rat} {now t0 : Rat} : ∀ (es : List Nat), (∀ e ∈ es, ∀ t, now ≤ t → ev e t = some (F e t) ∧ 0 ≤ F e t) → ∀ tt, now ≤ t0 + tt →
    es.foldlM (fun tt e => do let x ← ev e (t0 + tt); some (tt + x)) tt = some (arrival F es (t0 + tt) - t0) := by
  intro es
  induction es with
  | nil => intro _ tt _; simp only [List.foldlM_nil, arrival, Option.pure_def]; congr 1; ring
  | cons e es ih =>
    intro h tt ht
    obtain ⟨h1, h2⟩ := h e (by simp) _ ht
    simp only [List.foldlM_cons, h1, Option.bind_eq_bind, Option.bind_some, arrival]
    have := ih (fun e he => h e (by simp [he])) (tt + F e (t0 + tt)) (by linarith)
    rw [← add_assoc] at this
    exact this

theorem arrival_mono {F : Nat → Rat → Rat} {now : Rat} : ∀ (es : List Nat), (∀ e ∈ es, (∀ t, now ≤ t → 0 ≤ F e t) ∧ ∀ t t', now ≤ t → t ≤ t' → t + F e t ≤ t' + F e t') → ∀ t t', now ≤ t → t ≤ t' →
    arrival F es t ≤ arrival F es t' := by
  intro es
  induction es with
  | nil => intro _ t t' _ h; exact h
  | cons e es ih =>
    intro h t t' ht hle
    obtain ⟨h1, h2⟩ := h e (by simp)
    exact ih (fun e he => h e (by simp [he])) _ _ (by have := h1 t ht; linarith) (h2 t t' ht hle)

/-- the first point -/
theorem now_ok {bs : Search} {tl : Tol} {dbg : Bool} {fuel : Nat} {g : Graph} {now : Rat} {live : List (Option (Nat × Nat))} {G : LiveGraph} (h : LiveGraph.new bs tl dbg fuel g now live = some G) :
    G.now = if live.all Option.isNone then none else some now := by
  have key : ∀ (Q P : List (Option (Nat × Nat) × Nat)) (st st' : List Nat × List Pt), (st.2[0]?.map Pt.t = if P.all (fun x => x.1.isNone) then none else some now) →
      Q.foldlM (liveStep bs tl dbg fuel g now) st = some st' → st'.2[0]?.map Pt.t = if (P ++ Q).all (fun x => x.1.isNone) then none else some now := by
    intro Q
    induction Q with
    | nil => intro P st st' h1 h2; simp at h2; subst h2; rw [List.append_nil]; exact h1
    | cons x Q ih =>
      intro P st st' h1 h2
      rw [List.foldlM_cons] at h2
      cases hs : liveStep bs tl dbg fuel g now st x with
      | none => rw [hs] at h2; exact (nomatch h2)
      | some s =>
        rw [hs] at h2
        simp only [Option.bind_eq_bind, Option.bind_some] at h2
        have := ih (P ++ [x]) s st' ?_ h2
        · rw [List.append_assoc] at this; exact this
        · rw [liveStep] at hs
          cases hp : livePoints bs tl dbg fuel g now x.2 x.1 with
          | none => rw [hp] at hs; exact (nomatch hs)
          | some pts =>
            rw [hp] at hs
            simp only [Option.bind_eq_bind, Option.bind_some, Option.some.injEq] at hs
            subst hs
            simp only
            obtain ⟨y, e⟩ := x
            have hpts : pts[0]?.map Pt.t = if y.isNone then none else some now := by
              cases y with
              | none => simp only [livePoints, Option.some.injEq] at hp; subst hp; rfl
              | some ls =>
                obtain ⟨l, s⟩ := ls
                simp only [livePoints, Option.bind_eq_bind, Option.bind_eq_some_iff] at hp
                obtain ⟨plf, _, sw, _, v, _, _, _, hp⟩ := hp
                injection hp with hp
                rw [← hp]
                by_cases hc : flt tl.eps ((s : Rat) / 1000) sw.t = true
                · simp [hc]
                · simp [hc]
            cases hst : st.2 with
            | nil =>
              rw [hst] at h1
              have hall : P.all (fun x => x.1.isNone) = true := by
                by_contra hc
                rw [if_neg hc] at h1; simp at h1
              rw [List.nil_append, hpts, List.all_append, hall]
              simp
            | cons a t =>
              rw [hst] at h1
              have hall : ¬ P.all (fun x => x.1.isNone) = true := by
                intro hc
                rw [if_pos hc] at h1; simp at h1
              rw [if_neg hall] at h1
              rw [List.all_append, if_neg (by simp only [Bool.and_eq_true]; exact fun h => hall h.1)]
              simpa using h1
  simp only [LiveGraph.new, Option.bind_eq_bind, Option.bind_eq_some_iff] at h
  obtain ⟨st, h1, h2⟩ := h
  injection h2 with h2
  subst h2
  have := key live.zipIdx [] ([0], []) st (by simp) h1
  rw [LiveGraph.now, this]
  congr 1
  rw [List.nil_append]
  have e : live = live.zipIdx.map Prod.fst := by simp
  conv_rhs => rw [e, List.all_map]
  rfl

end FlTd
end Verif
