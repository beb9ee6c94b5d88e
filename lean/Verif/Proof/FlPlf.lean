import Verif.Model.FlPlf
import Mathlib.Tactic.Linarith
import Mathlib.Tactic.FieldSimp
import Mathlib.Tactic.Ring
import Mathlib.Algebra.Order.Field.Rat
import Mathlib.Data.List.Chain
/- Basic facts about travel time functions in exact arithmetic. -/
set_option linter.unusedSimpArgs false
set_option linter.unusedVariables false
namespace Verif
namespace Fl
open Spec

@[simp] theorem feq_zero (x y : Rat) : feq 0 x y = decide (x = y) := by
  simp only [feq]
  by_cases h : x = y
  · simp [h]
  · simp only [h, decide_false, Bool.and_eq_false_iff, decide_eq_false_iff_not]
    by_contra hc
    push Not at hc
    apply h; linarith [hc.1, hc.2]

@[simp] theorem flt_zero (x y : Rat) : flt 0 x y = decide (x < y) := by
  simp only [flt, decide_eq_decide]
  constructor <;> intro h <;> linarith

theorem cmp_lt {x y : Rat} : cmp 0 x y = .lt ↔ x < y := by
  simp only [cmp, feq_zero, decide_eq_true_eq]
  split
  · next h => simp [h]
  · split <;> simp_all
theorem cmp_eq {x y : Rat} : cmp 0 x y = .eq ↔ x = y := by
  simp only [cmp, feq_zero, decide_eq_true_eq]
  split
  · next h => simp [h]
  · split <;> simp_all
theorem cmp_gt {x y : Rat} : cmp 0 x y = .gt ↔ y < x := by
  simp only [cmp, feq_zero, decide_eq_true_eq]
  split
  · next h => simp [h]
  · split
    · next h h' => simp; exact h'.le
    · next h h' => simp; exact lt_of_le_of_ne (not_lt.1 h') (fun e => h e.symm)

theorem div_ok {x y : Rat} (h : y ≠ 0) : div 0 x y = some (x / y) := by
  simp [div, h]

theorem day_pos : (0 : Rat) < day := by unfold day; norm_num

/-- the time of day -/
theorem splitDay_spec (t : Rat) : ∃ k : Int, splitDay t = ((k : Rat), t - k * day) ∧ 0 ≤ t - k * day ∧ t - k * day < day := by
  refine ⟨(t / day).floor, rfl, ?_, ?_⟩
  · have h := Rat.floor_le (t / day)
    have := (le_div_iff₀ day_pos).1 h
    linarith
  · have h := Rat.lt_floor_add_one (t / day)
    have h2 := (div_lt_iff₀ day_pos).1 h
    push_cast at h2
    linarith

/-- the slope of a segment -/
def slope (p q : Pt) : Rat := (q.v - p.v) / (q.t - p.t)

theorem onSeg_iff {p q : Pt} (h : p.t < q.t) {t y : Rat} : OnSeg p q t y ↔ p.t ≤ t ∧ t ≤ q.t ∧ y = p.v + slope p q * (t - p.t) := by
  have h' : q.t - p.t ≠ 0 := by linarith
  have h'' : q.t - p.t > 0 := by linarith
  simp only [OnSeg, slope]
  constructor
  · rintro ⟨a, b, c⟩
    refine ⟨a, b, ?_⟩
    field_simp
    linarith
  · rintro ⟨a, b, c⟩
    refine ⟨a, b, ?_⟩
    rw [c]
    field_simp
    ring

theorem interpolate_ok {p q : Pt} (h : p.t < q.t) {t : Rat} : interpolate 0 p q t = some (p.v + slope p q * (t - p.t)) := by
  have h' : q.t - p.t ≠ 0 := by linarith
  simp only [interpolate, div_ok h', Option.bind_eq_bind, Option.bind_some, Option.pure_def, slope]
  congr 1
  field_simp

theorem slope_left {p q : Pt} (h : p.t < q.t) {y : Rat} : OnSeg p q p.t y ↔ y = p.v := by
  rw [onSeg_iff h]
  constructor
  · rintro ⟨_, _, h⟩; rw [h]; ring
  · intro h'; exact ⟨le_refl _, h.le, by rw [h']; ring⟩

theorem slope_right {p q : Pt} (h : p.t < q.t) {y : Rat} : OnSeg p q q.t y ↔ y = q.v := by
  have e : p.v + slope p q * (q.t - p.t) = q.v := by
    have h' : q.t - p.t ≠ 0 := by linarith
    simp only [slope]; field_simp; ring
  rw [onSeg_iff h, e]
  constructor
  · rintro ⟨_, _, h⟩; exact h
  · intro h'; exact ⟨h.le, le_refl _, h'⟩

/-- consecutive points: later, and who leaves later does not arrive earlier -/
def Nx (p q : Pt) : Prop := p.t < q.t ∧ p.t + p.v ≤ q.t + q.v

theorem Nx.trans {p q r : Pt} (h : Nx p q) (h' : Nx q r) : Nx p r := ⟨h.1.trans h'.1, h.2.trans h'.2⟩

theorem slope_ge {p q : Pt} (h : Nx p q) : -1 ≤ slope p q := by
  have h' : q.t - p.t > 0 := by linarith [h.1]
  rw [slope, le_div_iff₀ h']
  linarith [h.2]

/-- arrival times grow along a segment -/
theorem seg_fifo {p q : Pt} (h : Nx p q) {t y t' y' : Rat} (h1 : OnSeg p q t y) (h2 : OnSeg p q t' y') (hle : t ≤ t') : t + y ≤ t' + y' := by
  rw [onSeg_iff h.1] at h1 h2
  rw [h1.2.2, h2.2.2]
  have := slope_ge h
  nlinarith

theorem seg_exists {p q : Pt} (h : p.t < q.t) {t : Rat} (h1 : p.t ≤ t) (h2 : t ≤ q.t) : ∃ y, OnSeg p q t y :=
  ⟨_, (onSeg_iff h).2 ⟨h1, h2, rfl⟩⟩

theorem seg_unique {p q : Pt} (h : p.t < q.t) {t y y' : Rat} (h1 : OnSeg p q t y) (h2 : OnSeg p q t y') : y = y' := by
  rw [onSeg_iff h] at h1 h2
  rw [h1.2.2, h2.2.2]

theorem seg_nonneg {p q : Pt} (h : p.t < q.t) (hp : 0 ≤ p.v) (hq : 0 ≤ q.v) {t y : Rat} (h1 : OnSeg p q t y) : 0 ≤ y := by
  obtain ⟨a, b, c⟩ := h1
  have e : y * (q.t - p.t) = p.v * (q.t - t) + q.v * (t - p.t) := by linarith
  have h3 : 0 ≤ p.v * (q.t - t) := mul_nonneg hp (by linarith)
  have h4 : 0 ≤ q.v * (t - p.t) := mul_nonneg hq (by linarith)
  by_contra hc
  have : y * (q.t - p.t) < 0 := mul_neg_of_neg_of_pos (by linarith) (by linarith)
  linarith

abbrev Ch (l : List Pt) : Prop := List.IsChain Nx l

theorem ch_iff {l : List Pt} : Ch l ↔ ∀ A p q B, l = A ++ p :: q :: B → Nx p q := by
  rw [Ch, List.isChain_iff_forall_rel_of_append_cons_cons]
  constructor
  · intro h A p q B e; exact h e
  · intro h p q A B e; exact h A p q B e

theorem interp_cons {p q : Pt} {B : List Pt} {t y : Rat} : Interp (p :: q :: B) t y ↔ OnSeg p q t y ∨ Interp (q :: B) t y := by
  constructor
  · rintro ⟨A, a, b, C, e, h⟩
    cases A with
    | nil => simp at e; obtain ⟨rfl, rfl, _⟩ := e; exact .inl h
    | cons x A =>
      simp at e
      exact .inr ⟨A, a, b, C, e.2, h⟩
  · rintro (h | ⟨A, a, b, C, e, h⟩)
    · exact ⟨[], p, q, B, rfl, h⟩
    · exact ⟨p :: A, a, b, C, by simp [e], h⟩

theorem interp_short {p : Pt} {t y : Rat} : ¬ Interp [p] t y := by
  rintro ⟨A, a, b, C, e, h⟩
  have := congrArg List.length e
  simp at this
  omega

theorem interp_ge {p : Pt} : ∀ {l : List Pt}, Ch (p :: l) → ∀ {t y : Rat}, Interp (p :: l) t y → p.t ≤ t
  | [], _, _, _, h => (interp_short h).elim
  | q :: B, hc, t, y, h => by
    rw [Ch, List.isChain_cons_cons] at hc
    rcases interp_cons.1 h with h | h
    · exact h.1
    · exact hc.1.1.le.trans (interp_ge hc.2 h)

theorem interp_first {p : Pt} : ∀ {l : List Pt}, Ch (p :: l) → ∀ {y : Rat}, Interp (p :: l) p.t y → y = p.v
  | [], _, _, h => (interp_short h).elim
  | q :: B, hc, y, h => by
    rw [Ch, List.isChain_cons_cons] at hc
    rcases interp_cons.1 h with h | h
    · exact (slope_left hc.1.1).1 h
    · exact absurd (interp_ge hc.2 h) (not_le.2 hc.1.1)

/-- a function has one value -/
theorem interp_unique : ∀ {l : List Pt}, Ch l → ∀ {t y y' : Rat}, Interp l t y → Interp l t y' → y = y'
  | [], _, _, _, _, ⟨A, a, b, C, e, h⟩, _ => by simp at e
  | [p], _, _, _, _, h, _ => (interp_short h).elim
  | p :: q :: B, hc, t, y, y', h, h' => by
    rw [Ch, List.isChain_cons_cons] at hc
    have key : ∀ {y y'}, OnSeg p q t y → Interp (q :: B) t y' → y = y' := by
      intro y y' h1 h2
      have e : t = q.t := le_antisymm h1.2.1 (interp_ge hc.2 h2)
      subst e
      rw [(slope_right hc.1.1).1 h1, interp_first hc.2 h2]
    rcases interp_cons.1 h with h | h <;> rcases interp_cons.1 h' with h' | h'
    · exact seg_unique hc.1.1 h h'
    · exact key h h'
    · exact (key h' h).symm
    · exact interp_unique hc.2 h h'

theorem interp_exists {p : Pt} : ∀ {l : List Pt} {z : Pt}, Ch (p :: l) → (p :: l).getLast? = some z → l ≠ [] → ∀ {t : Rat}, p.t ≤ t → t ≤ z.t → ∃ y, Interp (p :: l) t y
  | [], _, _, _, h, _, _, _ => (h rfl).elim
  | q :: B, z, hc, hz, _, t, h1, h2 => by
    rw [Ch, List.isChain_cons_cons] at hc
    by_cases h : t ≤ q.t
    · obtain ⟨y, hy⟩ := seg_exists hc.1.1 h1 h
      exact ⟨y, interp_cons.2 (.inl hy)⟩
    · cases B with
      | nil =>
        simp at hz; subst hz
        exact (h h2).elim
      | cons r B =>
        have hz' : (q :: r :: B).getLast? = some z := by simpa using hz
        obtain ⟨y, hy⟩ := interp_exists hc.2 hz' (by simp) (not_le.1 h).le h2
        exact ⟨y, interp_cons.2 (.inr hy)⟩

theorem split_of_get {l : List Pt} {i : Nat} {p q : Pt} (h1 : l[i]? = some p) (h2 : l[i + 1]? = some q) : ∃ A B, l = A ++ p :: q :: B ∧ A.length = i := by
  obtain ⟨hi, e1⟩ := List.getElem?_eq_some_iff.1 h1
  obtain ⟨hj, e2⟩ := List.getElem?_eq_some_iff.1 h2
  refine ⟨l.take i, l.drop (i + 2), ?_, by simp; omega⟩
  subst e1 e2
  rw [List.getElem_cons_drop, List.getElem_cons_drop, List.take_append_drop]

theorem get_of_split {A B : List Pt} {p q : Pt} : (A ++ p :: q :: B)[A.length]? = some p ∧ (A ++ p :: q :: B)[A.length + 1]? = some q := by
  simp

theorem ch_lt : ∀ {l : List Pt}, Ch l → ∀ {i j : Nat} {p q : Pt}, i < j → l[i]? = some p → l[j]? = some q → Nx p q := by
  intro l hc i j p q hij hi hj
  obtain ⟨k, rfl⟩ := Nat.exists_eq_add_of_lt hij
  induction k generalizing q with
  | zero =>
    obtain ⟨A, B, e, _⟩ := split_of_get hi hj
    exact ch_iff.1 hc A p q B e
  | succ k ih =>
    have hl : i + k + 1 < l.length := by have := (List.getElem?_eq_some_iff.1 hj).1; omega
    have h1 : l[i + k + 1]? = some l[i + k + 1] := List.getElem?_eq_getElem hl
    obtain ⟨A, B, e, _⟩ := split_of_get h1 (q := q) (by rw [← hj]; congr 1)
    exact (ih (by omega) h1).trans (ch_iff.1 hc A _ q B e)

/-! ### Valid functions with several points -/

/-- several points, see `ValidTtf` -/
structure Ok (l : List Pt) : Prop where
  two : 2 ≤ l.length
  ch : Ch l
  pos : ∀ p ∈ l, 0 ≤ p.v
  ends : ∃ v, l[0]? = some ⟨0, v⟩ ∧ l[l.length - 1]? = some ⟨day, v⟩

theorem valid_cases {l : List Pt} (h : ValidTtf l) : (∃ v, l = [⟨0, v⟩] ∧ 0 ≤ v) ∨ Ok l := by
  rcases h with h | ⟨⟨v, rest, e⟩, h1, h2⟩
  · exact .inl h
  · refine .inr ⟨by subst e; simp, ch_iff.2 h2, h1, v, by subst e; simp, by subst e; simp⟩

theorem Ok.valid {l : List Pt} (h : Ok l) : ValidTtf l := by
  obtain ⟨v, h0, h1⟩ := h.ends
  have h2 := h.two
  refine .inr ⟨⟨v, (l.drop 1).dropLast, ?_⟩, h.pos, ch_iff.1 h.ch⟩
  have e1 : l = ⟨0, v⟩ :: l.drop 1 := by
    cases l with
    | nil => simp at h2
    | cons a l => simp at h0; subst h0; simp
  have hl : (l.drop 1).getLast? = some ⟨day, v⟩ := by
    rw [List.getLast?_eq_getElem?, List.getElem?_drop, List.length_drop, ← h1]
    congr 1; omega
  have e2 : l.drop 1 = (l.drop 1).dropLast ++ [⟨day, v⟩] := (List.dropLast_append_getLast? _ hl).symm
  calc l = ⟨0, v⟩ :: l.drop 1 := e1
    _ = ⟨0, v⟩ :: ((l.drop 1).dropLast ++ [⟨day, v⟩]) := by rw [← e2]
    _ = _ := by simp

theorem Ok.get {l : List Pt} (h : Ok l) {i : Nat} (hi : i < l.length) : ∃ p, l[i]? = some p := ⟨_, List.getElem?_eq_getElem hi⟩

theorem Ok.bounds {l : List Pt} (h : Ok l) {i : Nat} {p : Pt} (hp : l[i]? = some p) : 0 ≤ p.t ∧ p.t ≤ day ∧ (0 < i → 0 < p.t) ∧ (i < l.length - 1 → p.t < day) := by
  obtain ⟨v, h0, h1⟩ := h.ends
  have hl := (List.getElem?_eq_some_iff.1 hp).1
  have a : 0 < i → 0 < p.t := fun hi => (ch_lt h.ch hi h0 hp).1
  have b : i < l.length - 1 → p.t < day := fun hi => (ch_lt h.ch hi hp h1).1
  refine ⟨?_, ?_, a, b⟩
  · by_cases hi : 0 < i
    · exact (a hi).le
    · have : i = 0 := by omega
      subst this; rw [h0] at hp; simp at hp; subst hp; exact le_refl _
  · by_cases hi : i < l.length - 1
    · exact (b hi).le
    · have : i = l.length - 1 := by omega
      subst this; rw [h1] at hp; simp at hp; subst hp; exact le_refl _

theorem Ok.exists {l : List Pt} (h : Ok l) {t : Rat} (h1 : 0 ≤ t) (h2 : t ≤ day) : ∃ y, Interp l t y := by
  obtain ⟨v, h0, hz⟩ := h.ends
  have h3 := h.two
  cases l with
  | nil => simp at h3
  | cons p l =>
    simp at h0
    refine interp_exists h.ch (z := ⟨day, v⟩) ?_ (by intro e; subst e; simp at h3) (by rw [h0]; exact h1) h2
    rw [List.getLast?_eq_getElem?]; exact hz

theorem Ok.zero {l : List Pt} (h : Ok l) {v : Rat} (h0 : l[0]? = some ⟨0, v⟩) {y : Rat} : Interp l 0 y ↔ y = v := by
  have h3 := h.two
  cases l with
  | nil => simp at h3
  | cons p l =>
    simp at h0
    subst h0
    constructor
    · intro hy
      exact interp_first h.ch hy
    · intro e
      obtain ⟨y', hy'⟩ := h.exists (le_refl _) day_pos.le
      have := interp_first h.ch hy'
      simp only at this
      subst this; rw [e]; exact hy'

theorem interp_at {l : List Pt} (hc : Ch l) (h2 : 2 ≤ l.length) {i : Nat} {p : Pt} (hp : l[i]? = some p) : Interp l p.t p.v := by
  have hl := (List.getElem?_eq_some_iff.1 hp).1
  by_cases hi : i + 1 < l.length
  · have h3 : l[i + 1]? = some l[i + 1] := List.getElem?_eq_getElem hi
    obtain ⟨A, B, e, _⟩ := split_of_get hp h3
    exact ⟨A, p, _, B, e, (slope_left (ch_iff.1 hc A p _ B e).1).2 rfl⟩
  · obtain ⟨j, rfl⟩ : ∃ j, i = j + 1 := ⟨i - 1, by omega⟩
    have h3 : l[j]? = some l[j] := List.getElem?_eq_getElem (by omega)
    obtain ⟨A, B, e, _⟩ := split_of_get h3 hp
    exact ⟨A, _, p, B, e, (slope_right (ch_iff.1 hc A _ p B e).1).2 rfl⟩

theorem Ok.end {l : List Pt} (h : Ok l) {v : Rat} (h0 : l[0]? = some ⟨0, v⟩) : Interp l day v := by
  obtain ⟨v', e, hz⟩ := h.ends
  rw [h0] at e; simp at e; subst e
  exact interp_at h.ch h.two hz

/-- the day of a time is unique -/
theorem day_unique {t : Rat} {k k' : Int} (h1 : 0 ≤ t - k * day) (h2 : t - k * day < day) (h3 : 0 ≤ t - k' * day) (h4 : t - k' * day < day) : k = k' := by
  have d := day_pos
  have a : (k : Rat) < k' + 1 := by
    by_contra hc
    have := mul_le_mul_of_nonneg_right (not_lt.1 hc) d.le
    linarith
  have b : (k' : Rat) < k + 1 := by
    by_contra hc
    have := mul_le_mul_of_nonneg_right (not_lt.1 hc) d.le
    linarith
  have a' : k < k' + 1 := by exact_mod_cast a
  have b' : k' < k + 1 := by exact_mod_cast b
  omega

theorem Ok.tt {l : List Pt} (h : Ok l) {t y : Rat} : TravelTime l t y ↔ ∃ k : Int, 0 ≤ t - k * day ∧ t - k * day < day ∧ Interp l (t - k * day) y := by
  constructor
  · rintro (⟨p, e, _⟩ | h')
    · have := h.two; rw [e] at this; simp at this
    · exact h'
  · exact .inr

theorem Ok.tt_unique {l : List Pt} (h : Ok l) {t y y' : Rat} (h1 : TravelTime l t y) (h2 : TravelTime l t y') : y = y' := by
  obtain ⟨k, a, b, c⟩ := h.tt.1 h1
  obtain ⟨k', a', b', c'⟩ := h.tt.1 h2
  have := day_unique a b a' b'
  subst this
  exact interp_unique h.ch c c'

/-- a time of the last second of a day may be given as the end of the day -/
theorem Ok.tt_of {l : List Pt} (h : Ok l) {t y : Rat} (k : Int) (h1 : 0 ≤ t - k * day) (h2 : t - k * day ≤ day) (h3 : Interp l (t - k * day) y) :
    TravelTime l t y := by
  by_cases hlt : t - k * day < day
  · exact h.tt.2 ⟨k, h1, hlt, h3⟩
  · have e : t - k * day = day := le_antisymm h2 (not_lt.1 hlt)
    obtain ⟨v, h0, hz⟩ := h.ends
    have hv := interp_unique h.ch (h.end h0) (e ▸ h3)
    refine h.tt.2 ⟨k + 1, ?_, ?_, ?_⟩
    · push_cast; linarith
    · push_cast; linarith [day_pos]
    · have : t - ((k + 1 : Int) : Rat) * day = 0 := by push_cast; linarith
      rw [this, h.zero h0]; exact hv.symm

theorem Ok.tt_exists {l : List Pt} (h : Ok l) (t : Rat) : ∃ y, TravelTime l t y := by
  obtain ⟨k, _, h1, h2⟩ := splitDay_spec t
  obtain ⟨y, hy⟩ := h.exists h1 h2.le
  exact ⟨y, h.tt.2 ⟨k, h1, h2, hy⟩⟩

theorem Ok.tt_shift {l : List Pt} (h : Ok l) {t y : Rat} (j : Int) (h1 : TravelTime l t y) : TravelTime l (t + j * day) y := by
  obtain ⟨k, a, b, c⟩ := h.tt.1 h1
  have e : t + j * day - ((k + j : Int) : Rat) * day = t - k * day := by push_cast; ring
  exact h.tt.2 ⟨k + j, by rw [e]; exact a, by rw [e]; exact b, by rw [e]; exact c⟩

/-! ### Binary search -/

/-- what `binary_search_by` promises on a list where the smaller points come first and the greater ones last -/
def SearchBy (bs : Search) : Prop :=
  ∀ (c : Pt → Ordering) (l : List Pt), (∀ (i j : Nat) (x y : Pt), i < j → l[i]? = some x → l[j]? = some y → (c y = .lt → c x = .lt) ∧ (c x = .gt → c y = .gt)) →
    (∀ i, bs c l = .ok i → ∃ x, l[i]? = some x ∧ c x = .eq) ∧
    (∀ i, bs c l = .error i → i ≤ l.length ∧ (∀ (j : Nat) (x : Pt), j < i → l[j]? = some x → c x = .lt) ∧ ∀ (j : Nat) (x : Pt), i ≤ j → l[j]? = some x → c x = .gt)

/-- searching a time -/
theorem search_time {bs : Search} (hbs : SearchBy bs) {l : List Pt} (hc : Ch l) (t : Rat) :
    (∃ i p, bs (fun p => cmp 0 p.t t) l = .ok i ∧ l[i]? = some p ∧ p.t = t) ∨
    (∃ i, bs (fun p => cmp 0 p.t t) l = .error i ∧ i ≤ l.length ∧ (∀ (j : Nat) (x : Pt), j < i → l[j]? = some x → x.t < t) ∧
      ∀ (j : Nat) (x : Pt), i ≤ j → l[j]? = some x → t < x.t) := by
  have h := hbs (fun p => cmp 0 p.t t) l (by
    intro i j x y hij hx hy
    have := (ch_lt hc hij hx hy).1
    simp only [cmp_lt, cmp_gt]
    constructor <;> intro h <;> linarith)
  cases e : bs (fun p => cmp 0 p.t t) l with
  | ok i =>
    obtain ⟨x, h1, h2⟩ := h.1 i e
    exact .inl ⟨i, x, rfl, h1, cmp_eq.1 h2⟩
  | error i =>
    obtain ⟨h1, h2, h3⟩ := h.2 i e
    exact .inr ⟨i, rfl, h1, fun j x hj hx => cmp_lt.1 (h2 j x hj hx), fun j x hj hx => cmp_gt.1 (h3 j x hj hx)⟩

/-- `eval` is right -/
theorem Ok.eval {bs : Search} (hbs : SearchBy bs) {l : List Pt} (h : Ok l) {t : Rat} (h1 : 0 ≤ t) (h2 : t ≤ day) : ∃ y, eval bs 0 l t = some y ∧ Interp l t y := by
  obtain ⟨v, h0, hz⟩ := h.ends
  have hlen := h.two
  match l, h, h0, hz, hlen with
  | p :: q :: B, h, h0, hz, hlen =>
    have hlast : (p :: q :: B).getLast? = some ⟨day, v⟩ := by rw [List.getLast?_eq_getElem?]; exact hz
    simp at h0
    have a1 : assert (!flt 0 (⟨day, v⟩ : Pt).t t) = some () := by simp [assert, h2]
    have a2 : assert (!flt 0 t p.t) = some () := by simp [assert, h0, h1]
    simp only [Fl.eval, hlast, a1, a2, Option.bind_eq_bind, Option.bind_some]
    rcases search_time hbs h.ch t with ⟨i, x, e1, e2, e3⟩ | ⟨i, e1, e2, e3, e4⟩
    · rw [e1]
      exact ⟨x.v, by simp [e2], by rw [← e3]; exact interp_at h.ch h.two e2⟩
    · rw [e1]
      have hi0 : i ≠ 0 := by
        intro hi
        have := e4 0 p (by omega) rfl
        rw [h0] at this; simp at this; linarith
      have hil : i < (p :: q :: B).length := by
        by_contra hc
        have := e3 ((p :: q :: B).length - 1) _ (by simp at hc ⊢; omega) hz
        simp at this; linarith
      obtain ⟨j, rfl⟩ : ∃ j, i = j + 1 := ⟨i - 1, by omega⟩
      obtain ⟨x, hx⟩ := h.get (i := j) (by omega)
      obtain ⟨y, hy⟩ := h.get (i := j + 1) hil
      obtain ⟨A, C, e, _⟩ := split_of_get hx hy
      have hnx := ch_iff.1 h.ch A x y C e
      simp only [if_neg hi0, Nat.add_sub_cancel, hx, hy, Option.bind_some, interpolate_ok hnx.1]
      refine ⟨_, rfl, A, x, y, C, e, (onSeg_iff hnx.1).2 ⟨(e3 j x (by omega) hx).le, (e4 (j + 1) y (le_refl _) hy).le, rfl⟩⟩

theorem Ok.evaluate {bs : Search} (hbs : SearchBy bs) {l : List Pt} (h : Ok l) (t : Rat) : ∃ y, evaluate bs 0 l t = some y ∧ TravelTime l t y := by
  obtain ⟨k, e, h1, h2⟩ := splitDay_spec t
  obtain ⟨y, h3, h4⟩ := h.eval hbs h1 h2.le
  exact ⟨y, by simp only [Fl.evaluate, e]; exact h3, h.tt.2 ⟨k, h1, h2, h4⟩⟩

end Fl
end Verif
