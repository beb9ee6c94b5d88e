import Verif.Proof.FlPlf
/- `link` in exact arithmetic: appending points, the cursors. -/
set_option linter.unusedSimpArgs false
set_option linter.unusedVariables false
namespace Verif
namespace Fl
open Spec

/-- `(t, y)` is a point of the list or on a segment. -/
def On (l : List Pt) (t y : Rat) : Prop := (∃ p ∈ l, p.t = t ∧ p.v = y) ∨ Interp l t y

theorem On.interp {l : List Pt} (hc : Ch l) (h2 : 2 ≤ l.length) {t y : Rat} (h : On l t y) : Interp l t y := by
  rcases h with ⟨p, hp, rfl, rfl⟩ | h
  · obtain ⟨i, hi⟩ := List.mem_iff_getElem?.1 hp
    exact interp_at hc h2 hi
  · exact h

theorem interp_append {l : List Pt} {t y : Rat} (B : List Pt) (h : Interp l t y) : Interp (l ++ B) t y := by
  obtain ⟨A, p, q, C, e, h⟩ := h
  exact ⟨A, p, q, C ++ B, by simp [e], h⟩

theorem on_append {l : List Pt} {t y : Rat} (B : List Pt) (h : On l t y) : On (l ++ B) t y := by
  rcases h with ⟨p, hp, h⟩ | h
  · exact .inl ⟨p, List.mem_append_left _ hp, h⟩
  · exact .inr (interp_append B h)

/-- what appending a point does -/
structure App (res : List Pt) (p : Pt) (res' : List Pt) : Prop where
  ch : Ch res'
  last : res'.getLast? = some p
  len : res'.length ≤ res.length + 1
  head : ∀ h, res.head? = some h → res'.head? = some h
  first : res = [] → res' = [p]
  mem : ∀ q ∈ res', q ∈ res ∨ q = p
  on : ∀ t y, On res t y → On res' t y
  seg : ∀ z, res.getLast? = some z → ∀ t y, OnSeg z p t y → On res' t y

theorem app_push {res : List Pt} {p : Pt} (hc : Ch res) (hl : ∀ z, res.getLast? = some z → Nx z p) : App res p (res ++ [p]) := by
  refine ⟨?_, by simp, by simp, ?_, by intro e; simp [e], by intro q hq; simpa using hq, fun t y h => on_append _ h, ?_⟩
  · rw [Ch, List.isChain_append]
    refine ⟨hc, by simp, ?_⟩
    intro x hx y hy
    simp at hy; subst hy
    exact hl x hx
  · intro h hh
    cases res with
    | nil => simp at hh
    | cons a b => simpa using hh
  · intro z hz t y hs
    have e : res = res.dropLast ++ [z] := (List.dropLast_append_getLast? _ hz).symm
    exact .inr ⟨res.dropLast, z, p, [], by rw [e]; simp, hs⟩

/-- three points on a line: the middle one is not needed -/
theorem app_replace {A : List Pt} {w z p : Pt} (hc : Ch (A ++ [w, z])) (hn : Nx z p) (hcol : w.v + slope w p * (z.t - w.t) = z.v) :
    App (A ++ [w, z]) p (A ++ [w, p]) := by
  have hwz : Nx w z := ch_iff.1 hc A w z [] rfl
  have hwp : Nx w p := hwz.trans hn
  have hcw : Ch (A ++ [w]) := by
    have : A ++ [w, z] = (A ++ [w]) ++ [z] := by simp
    rw [this, Ch, List.isChain_append] at hc
    exact hc.1
  have hzp : OnSeg w p z.t z.v := (onSeg_iff hwp.1).2 ⟨hwz.1.le, hn.1.le, hcol.symm⟩
  have s1 : slope w z = slope w p := by
    have : z.t - w.t ≠ 0 := by linarith [hwz.1]
    rw [slope, ← hcol]; field_simp; ring
  have key1 : ∀ t y, OnSeg w z t y → OnSeg w p t y := by
    intro t y h
    rw [onSeg_iff hwz.1] at h
    exact (onSeg_iff hwp.1).2 ⟨h.1, h.2.1.trans hn.1.le, by rw [h.2.2, s1]⟩
  have key2 : ∀ t y, OnSeg z p t y → OnSeg w p t y := by
    intro t y h
    have s2 : slope z p = slope w p := by
      have h1 : p.t - z.t ≠ 0 := by linarith [hn.1]
      have h2 : p.t - w.t ≠ 0 := by linarith [hwp.1]
      have e : w.v + slope w p * (p.t - w.t) = p.v := by simp only [slope]; field_simp; ring
      rw [slope, div_eq_iff h1]
      linarith [e, hcol]
    rw [onSeg_iff hn.1] at h
    refine (onSeg_iff hwp.1).2 ⟨hwz.1.le.trans h.1, h.2.1, ?_⟩
    rw [h.2.2, s2, ← hcol]; ring
  have hin : ∀ t y, OnSeg w p t y → On (A ++ [w, p]) t y := fun t y h => .inr ⟨A, w, p, [], rfl, h⟩
  refine ⟨?_, by simp, by simp, ?_, by simp, ?_, ?_, ?_⟩
  · have : A ++ [w, p] = (A ++ [w]) ++ [p] := by simp
    rw [this, Ch, List.isChain_append]
    refine ⟨hcw, by simp, ?_⟩
    intro x hx y hy
    simp at hx hy; subst hx hy
    exact hwp
  · intro h hh
    cases A with
    | nil => simpa using hh
    | cons a b => simpa using hh
  · intro q hq
    simp at hq ⊢
    rcases hq with h | h | h <;> simp [h]
  · rintro t y (⟨q, hq, rfl, rfl⟩ | ⟨B, a, b, C, e, h⟩)
    · simp at hq
      rcases hq with h | h | h
      · exact .inl ⟨q, by simp [h], rfl, rfl⟩
      · exact .inl ⟨q, by simp [h], rfl, rfl⟩
      · subst h; exact hin _ _ hzp
    · rcases List.eq_nil_or_concat C with rfl | ⟨C', c, rfl⟩
      · have e2 : B ++ [a, b] = A ++ [w, z] := e.symm
        obtain ⟨_, e3⟩ := List.append_inj' e2 rfl
        simp at e3
        obtain ⟨rfl, rfl⟩ := e3
        exact hin _ _ (key1 _ _ h)
      · have e2 : (A ++ [w]) ++ [z] = (B ++ a :: b :: C') ++ [c] := by simp [e]
        obtain ⟨e3, _⟩ := List.append_inj' e2 rfl
        have : A ++ [w, p] = (B ++ a :: b :: C') ++ [p] := by rw [← e3]; simp
        exact .inr ⟨B, a, b, C' ++ [p], by rw [this]; simp, h⟩
  · intro z' hz' t y h
    simp at hz'; subst hz'
    exact hin _ _ (key2 _ _ h)

theorem append_spec {co : Bool} {res : List Pt} {p : Pt} (hc : Ch res) (hpos : 0 ≤ p.v) (hl : ∀ z, res.getLast? = some z → Nx z p) :
    ∃ res', appendPoint co 0 res p = some res' ∧ App res p res' := by
  have ha : assert (decide (0 ≤ p.v)) = some () := by simp [assert, hpos]
  rcases List.eq_nil_or_concat res with rfl | ⟨B, z, rfl⟩
  · refine ⟨[p], by simp only [appendPoint, ha, Option.bind_eq_bind, Option.bind_some, List.getLast?_nil]; rfl, ?_⟩
    have := app_push (res := []) (p := p) hc hl
    simpa using this
  · have hz : Nx z p := hl z (by simp)
    have hne : decide (z.t = p.t) = false := by simpa using ne_of_lt hz.1
    have hlast : (B.concat z).getLast? = some z := by simp
    have push : ∃ res', (do
        let _ ← assert (match (B.concat z).getLast? with
          | none => true
          | some l => flt 0 l.t p.t)
        pure (B.concat z ++ [p]) : Option (List Pt)) = some res' ∧ App (B.concat z) p res' := by
      refine ⟨B.concat z ++ [p], ?_, app_push hc hl⟩
      simp [hlast, assert, hz.1]
    rcases List.eq_nil_or_concat B with rfl | ⟨A, w, rfl⟩
    · simp only [appendPoint, ha, Option.bind_eq_bind, Option.bind_some, hlast, feq_zero, hne]
      cases co <;> simpa [assert, hz.1] using push
    · have hcw : Ch (A ++ [w, z]) := by simpa using hc
      have hwz : Nx w z := ch_iff.1 hcw A w z [] rfl
      have hwp := hwz.trans hz
      have hd : ((A.concat w).concat z).dropLast.getLast? = some w := by simp
      simp only [appendPoint, ha, Option.bind_eq_bind, Option.bind_some, hlast, feq_zero, hne, hd]
      cases co with
      | false => simpa [assert, hz.1] using push
      | true =>
        simp only [interpolate_ok hwp.1, Option.bind_some, Option.pure_def]
        by_cases hcol : w.v + slope w p * (z.t - w.t) = z.v
        · have := app_replace hcw hz hcol
          refine ⟨A ++ [w, p], ?_, by simpa using this⟩
          simp [hcol, assert, hwp.1]
        · simp only [hcol]
          simpa [assert, hz.1] using push

theorem append_same {co : Bool} {res : List Pt} {p : Pt} (hpos : 0 ≤ p.v) (hl : res.getLast? = some p) : appendPoint co 0 res p = some res := by
  have ha : assert (decide (0 ≤ p.v)) = some () := by simp [assert, hpos]
  simp [appendPoint, ha, hl]

/-! ### The cursor of the second function -/

/-- The cursor is between the points `p` and `q`. -/
structure GCur (g : List Pt) (c : Cursor) (p q : Pt) : Prop where
  ipps : c.ipps = g
  prev : c.prev = some p
  cur : c.cur = some q
  idx : c.idx < g.length - 1
  off : ∃ k : Int, c.offset = k * day

theorem onSeg_shift {p q : Pt} {o t y : Rat} : OnSeg (shifted p o) (shifted q o) t y ↔ OnSeg p q (t - o) y := by
  simp only [OnSeg, shifted]
  constructor
  · rintro ⟨a, b, c⟩
    refine ⟨by linarith, by linarith, ?_⟩
    have e1 : q.t + o - (p.t + o) = q.t - p.t := by ring
    have e2 : t - (p.t + o) = t - o - p.t := by ring
    rw [e1, e2] at c; exact c
  · rintro ⟨a, b, c⟩
    refine ⟨by linarith, by linarith, ?_⟩
    have e1 : q.t + o - (p.t + o) = q.t - p.t := by ring
    have e2 : t - (p.t + o) = t - o - p.t := by ring
    rw [e1, e2]; exact c

theorem nx_shift {p q : Pt} {o : Rat} : Nx (shifted p o) (shifted q o) ↔ Nx p q := by
  simp only [Nx, shifted]
  constructor <;> rintro ⟨a, b⟩ <;> constructor <;> linarith

/-- the points around a cursor are two consecutive points of some day -/
theorem gcur_seg {g : List Pt} (h : Ok g) {c : Cursor} {p q : Pt} (hc : GCur g c p q) :
    ∃ (j : Nat) (k : Int) (a b : Pt), g[j]? = some a ∧ g[j + 1]? = some b ∧ p = shifted a (k * day) ∧ q = shifted b (k * day) := by
  obtain ⟨e1, e2, e3, h4, k, e5⟩ := hc
  have h2 := h.two
  have hl1 : ¬ g.length = 1 := by omega
  have hl2 : ¬ g.length < 2 := by omega
  rw [Cursor.prev, e1, if_neg hl1, e5] at e2
  rw [Cursor.cur, e1, e5] at e3
  by_cases hi : c.idx = 0
  · rw [if_pos hi, if_neg hl2] at e2
    obtain ⟨a, ha⟩ := h.get (i := g.length - 2) (by omega)
    obtain ⟨v, h0, hz⟩ := h.ends
    rw [ha] at e2
    rw [hi, h0] at e3
    simp at e2 e3
    refine ⟨g.length - 2, k - 1, a, ⟨day, v⟩, ha, by rw [← hz]; congr 1; omega, ?_, ?_⟩
    · rw [← e2]; congr 1; push_cast; ring
    · rw [← e3]; simp only [shifted, Pt.mk.injEq, and_true]; push_cast; ring
  · rw [if_neg hi] at e2
    obtain ⟨j, hj⟩ : ∃ j, c.idx = j + 1 := ⟨c.idx - 1, by omega⟩
    rw [hj] at e2 e3
    obtain ⟨a, ha⟩ := h.get (i := j) (by omega)
    obtain ⟨b, hb⟩ := h.get (i := j + 1) (by omega)
    simp only [Nat.add_sub_cancel, ha, hb, Option.map_some, Option.some.injEq] at e2 e3
    exact ⟨j, k, a, b, ha, hb, e2.symm, e3.symm⟩

theorem gcur_nx {g : List Pt} (h : Ok g) {c : Cursor} {p q : Pt} (hc : GCur g c p q) : Nx p q ∧ 0 ≤ p.v ∧ 0 ≤ q.v := by
  obtain ⟨j, k, a, b, h1, h2, rfl, rfl⟩ := gcur_seg h hc
  refine ⟨nx_shift.2 (ch_lt h.ch (by omega) h1 h2), ?_, ?_⟩
  · exact h.pos a (List.mem_of_getElem? h1)
  · exact h.pos b (List.mem_of_getElem? h2)

theorem gcur_tt {g : List Pt} (h : Ok g) {c : Cursor} {p q : Pt} (hc : GCur g c p q) {t y : Rat} (hs : OnSeg p q t y) : TravelTime g t y := by
  obtain ⟨j, k, a, b, h1, h2, rfl, rfl⟩ := gcur_seg h hc
  rw [onSeg_shift] at hs
  obtain ⟨A, B, e, _⟩ := split_of_get h1 h2
  have b1 := h.bounds h1
  have b2 := h.bounds h2
  exact h.tt_of k (b1.1.trans hs.1) (hs.2.1.trans b2.2.1) ⟨A, a, b, B, e, hs⟩

theorem gcur_of {g : List Pt} (h : Ok g) {c : Cursor} (e1 : c.ipps = g) (hi : c.idx < g.length - 1) (ho : ∃ k : Int, c.offset = k * day) : ∃ p q, GCur g c p q := by
  have h2 := h.two
  obtain ⟨b, hb⟩ := h.get (i := c.idx) (by omega)
  have hcur : c.cur = some (shifted b c.offset) := by rw [Cursor.cur, e1, hb]; rfl
  have hl1 : ¬ g.length = 1 := by omega
  have hl2 : ¬ g.length < 2 := by omega
  by_cases hi0 : c.idx = 0
  · obtain ⟨a, ha⟩ := h.get (i := g.length - 2) (by omega)
    exact ⟨_, _, e1, by rw [Cursor.prev, e1, if_neg hl1, if_pos hi0, if_neg hl2, ha]; rfl, hcur, hi, ho⟩
  · obtain ⟨a, ha⟩ := h.get (i := c.idx - 1) (by omega)
    exact ⟨_, _, e1, by rw [Cursor.prev, e1, if_neg hl1, if_neg hi0, ha]; rfl, hcur, hi, ho⟩

theorem advance_of {g : List Pt} (h : Ok g) {c : Cursor} (e1 : c.ipps = g) (hi : c.idx < g.length - 1) :
    c.advance = if c.idx + 1 = g.length - 1 then ⟨g, 0, c.offset + day⟩ else ⟨g, c.idx + 1, c.offset⟩ := by
  have h2 := h.two
  have hl1 : ¬ g.length = 1 := by omega
  have hm : (c.idx + 1) % g.length = c.idx + 1 := Nat.mod_eq_of_lt (by omega)
  simp only [Cursor.advance, e1, hm, hl1, or_false]

theorem gcur_advance {g : List Pt} (h : Ok g) {c : Cursor} {p q : Pt} (hc : GCur g c p q) : ∃ q', GCur g c.advance q q' := by
  have h2 := h.two
  have ha := advance_of h hc.ipps hc.idx
  have hi := hc.idx
  obtain ⟨k, hk⟩ := hc.off
  have hl1 : ¬ g.length = 1 := by omega
  have hl2 : ¬ g.length < 2 := by omega
  have hcur := hc.cur
  rw [Cursor.cur, hc.ipps] at hcur
  have hok : c.advance.ipps = g ∧ c.advance.idx < g.length - 1 ∧ ∃ k : Int, c.advance.offset = k * day := by
    rw [ha]
    split
    · exact ⟨rfl, by show 0 < _; omega, k + 1, by show c.offset + day = _; rw [hk]; push_cast; ring⟩
    · exact ⟨rfl, by show c.idx + 1 < _; omega, k, hk⟩
  obtain ⟨p', q', h'⟩ := gcur_of h hok.1 hok.2.1 hok.2.2
  have : p' = q := by
    have hp := h'.prev
    rw [Cursor.prev, h'.ipps, if_neg hl1, ha] at hp
    by_cases hl : c.idx + 1 = g.length - 1
    · have e : g.length - 2 = c.idx := by omega
      simp only [if_pos hl, if_true, if_neg hl2, e] at hp
      rw [show c.offset + day - day = c.offset by ring, hcur] at hp
      simpa using hp.symm
    · simp only [if_neg hl, Nat.add_sub_cancel] at hp
      rw [if_neg (by omega), hcur] at hp
      simpa using hp.symm
  subst this
  exact ⟨q', h'⟩

/-- the cursor moves on inside of a day -/
theorem iter_inside {g : List Pt} (h : Ok g) (o : Rat) (i : Nat) : ∀ j, i + j < g.length - 1 → Cursor.advance^[j] ⟨g, i, o⟩ = ⟨g, i + j, o⟩
  | 0, _ => rfl
  | j + 1, hj => by
    rw [Function.iterate_succ_apply', iter_inside h o i j (by omega), advance_of h rfl (by show i + j < _; omega)]
    rw [if_neg (by show ¬ i + j + 1 = _; omega)]
    rfl

/-- the next day comes after `length - 1` steps -/
theorem iter_day {g : List Pt} (h : Ok g) (o : Rat) {i : Nat} (hi : i < g.length - 1) : Cursor.advance^[g.length - 1] ⟨g, i, o⟩ = ⟨g, i, o + day⟩ := by
  have e : g.length - 1 = i + (1 + (g.length - 2 - i)) := by omega
  rw [e, Function.iterate_add_apply, Function.iterate_add_apply, iter_inside h o i (g.length - 2 - i) (by omega)]
  rw [Function.iterate_one, advance_of h rfl (by show i + (g.length - 2 - i) < _; omega), if_pos (by show i + (g.length - 2 - i) + 1 = _; omega)]
  rw [iter_inside h (o + day) 0 i (by omega)]
  simp

/-- where the cursor starts -/
theorem start_spec {bs : Search} (hbs : SearchBy bs) {g : List Pt} (h : Ok g) (t : Rat) : ∃ c p q, Cursor.startingAt bs 0 g t = c ∧ GCur g c p q ∧ p.t < t ∧ t ≤ q.t := by
  have h2 := h.two
  have hl1 : ¬ g.length = 1 := by omega
  obtain ⟨k, e, hr1, hr2⟩ := splitDay_spec t
  obtain ⟨v, h0, hz⟩ := h.ends
  obtain ⟨i, hi, hlt, hge⟩ : ∃ i, place (bs (fun p => cmp 0 p.t (t - k * day)) g) = i ∧ (∀ (j : Nat) (x : Pt), j < i → g[j]? = some x → x.t < t - k * day) ∧ ∀ (j : Nat) (x : Pt), i ≤ j → g[j]? = some x → t - k * day ≤ x.t := by
    rcases search_time hbs h.ch (t - k * day) with ⟨i, x, e1, e2, e3⟩ | ⟨i, e1, e2, e3, e4⟩
    · refine ⟨i, by rw [e1]; rfl, ?_, ?_⟩
      · intro j y hj hy
        rw [← e3]; exact (ch_lt h.ch hj hy e2).1
      · intro j y hj hy
        rcases Nat.eq_or_lt_of_le hj with rfl | hj
        · rw [e2] at hy; simp at hy; subst hy; exact e3.ge
        · rw [← e3]; exact (ch_lt h.ch hj e2 hy).1.le
    · exact ⟨i, by rw [e1]; rfl, e3, fun j x hj hx => (e4 j x hj hx).le⟩
  have hil : i ≤ g.length - 1 := by
    by_contra hc
    have := hlt (g.length - 1) _ (by omega) hz
    simp only at this; linarith
  simp only [Cursor.startingAt, e, if_neg hl1, hi]
  by_cases hlast : i = g.length - 1
  · rw [if_pos hlast]
    obtain ⟨p, q, hc⟩ := gcur_of h (c := ⟨g, 0, day + k * day⟩) rfl (by show 0 < _; omega) ⟨k + 1, by show day + k * day = _; push_cast; ring⟩
    refine ⟨_, p, q, rfl, hc, ?_, ?_⟩
    · obtain ⟨a, ha⟩ := h.get (i := g.length - 2) (by omega)
      have hp := hc.prev
      rw [Cursor.prev] at hp
      simp only [if_neg hl1, if_true, if_neg (show ¬ g.length < 2 by omega), ha, Option.map_some, Option.some.injEq] at hp
      rw [← hp]
      have := hlt _ a (by omega) ha
      simp only [shifted]; linarith
    · have hq := hc.cur
      simp only [Cursor.cur, h0, Option.map_some, Option.some.injEq] at hq
      rw [← hq]
      simp only [shifted]; linarith
  · rw [if_neg hlast]
    obtain ⟨p, q, hc⟩ := gcur_of h (c := ⟨g, i, k * day⟩) rfl (by show i < _; omega) ⟨k, rfl⟩
    refine ⟨_, p, q, rfl, hc, ?_, ?_⟩
    · have hp := hc.prev
      rw [Cursor.prev] at hp
      by_cases hi0 : i = 0
      · obtain ⟨a, ha⟩ := h.get (i := g.length - 2) (by omega)
        simp only [if_neg hl1, if_pos hi0, if_neg (show ¬ g.length < 2 by omega), ha, Option.map_some, Option.some.injEq] at hp
        rw [← hp]
        have := (h.bounds ha).2.2.2 (by omega)
        simp only [shifted]; linarith
      · obtain ⟨a, ha⟩ := h.get (i := i - 1) (by omega)
        simp only [if_neg hl1, if_neg hi0, ha, Option.map_some, Option.some.injEq] at hp
        rw [← hp]
        have := hlt _ a (by omega) ha
        simp only [shifted]; linarith
    · obtain ⟨b, hb⟩ := h.get (i := i) (by omega)
      have hq := hc.cur
      simp only [Cursor.cur, hb, Option.map_some, Option.some.injEq] at hq
      rw [← hq]
      have := hge _ b (le_refl _) hb
      simp only [shifted]; linarith

end Fl
end Verif
