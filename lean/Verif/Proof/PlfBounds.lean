import Verif.Proof.Plf
import Verif.Proof.Graph
set_option linter.unusedSimpArgs false
set_option linter.unusedVariables false
/- Bounds of travel time functions in ranges, and live traffic. -/
namespace Verif.Plf
open Spec

section
variable {bs : List Nat → Nat → Lookup} {f : Fn}

theorem evaluate_between {t lo up x0 v0 x1 v1 : Nat} (h : ¬ f.dt.length ≤ 2)
    (e : locate bs f.dt t = some (.between lo up)) (h0 : f.dt[lo]? = some x0) (h1 : f.tt[lo]? = some v0) (h2 : f.dt[up]? = some x1)
    (h3 : f.tt[up]? = some v1) : evaluate bs f t = interpolate x0 v0 x1 v1 t := by
  rw [evaluate, if_neg h]
  simp only [e, Option.bind_eq_bind, Option.bind_some, h0, h1, h2, h3]

theorem value_zero_period (hv : ValidPlf f.dt f.tt) {v : Nat} (h : PlfValue f.dt f.tt PERIOD v) : PlfValue f.dt f.tt 0 v := by
  have hpos := dt_pos hv
  obtain ⟨c, hc⟩ := getElem?_ofLt (l := f.tt) (i := 0) (by rw [← hv.len]; exact hpos)
  by_cases h1 : f.dt.length = 1
  · rcases h with ⟨_, h2⟩ | ⟨i, x, y, a, b, hx, hy, _⟩
    · exact Or.inl ⟨h1, h2⟩
    · have := (List.getElem?_eq_some_iff.1 hy).1; omega
  · have := value_unique hv h (value_on hv (last_dt hv h1) (by rw [last_tt hv, hc]))
    rw [this]
    exact value_on hv hv.zero hc

theorem val_of_value (hb : BinarySearch bs) (hv : ValidPlf f.dt f.tt) {t v : Nat} (ht : t ≤ PERIOD) (h : PlfValue f.dt f.tt t v) : valAt f t = v := by
  have h2 := (valAt_spec hb hv t).2
  rcases Nat.lt_or_ge t PERIOD with hlt | hge
  · rw [Nat.mod_eq_of_lt hlt] at h2
    exact value_unique hv h2 h
  · have : t = PERIOD := by omega
    subst this
    rw [Nat.mod_self] at h2
    exact value_unique hv h2 (value_zero_period hv h)

theorem value_of_val (hb : BinarySearch bs) (hv : ValidPlf f.dt f.tt) {t : Nat} (ht : t ≤ PERIOD) : PlfValue f.dt f.tt t (valAt f t) := by
  obtain ⟨v, _, h2⟩ := evaluate_spec hb hv ht
  rw [val_of_value hb hv ht h2]; exact h2

theorem valAt_congr {a b : Nat} (h : a % PERIOD = b % PERIOD) : valAt f a = valAt f b := by
  unfold valAt
  generalize a % PERIOD = r at h
  subst h
  rfl

theorem valAt_mod (t : Nat) : valAt f (t % PERIOD) = valAt f t := valAt_congr (Nat.mod_mod _ _)

theorem valAt_period (t : Nat) : valAt f (t + PERIOD) = valAt f t := valAt_congr (Nat.add_mod_right _ _)

theorem valAt_small (hb : BinarySearch bs) (hv : ValidPlf f.dt f.tt) (t : Nat) : valAt f t < INFINITY :=
  value_small hv (valAt_spec hb hv t).2

theorem firstOf_spec (hb : BinarySearch bs) (hv : ValidPlf f.dt f.tt) (h1 : f.dt.length ≠ 1) {a : Nat} (ha : a ≤ PERIOD) :
    ∃ i v, firstOf bs f a = some (i, v) ∧ i < f.dt.length ∧ (∀ k x : Nat, f.dt[k]? = some x → (a ≤ x ↔ i ≤ k)) ∧
      ((v = INFINITY ∧ f.dt[i]? = some a) ∨ v = valAt f a) := by
  obtain ⟨loc, h3, h4⟩ := locate_spec hb hv h1 ha
  cases loc with
  | on i =>
    refine ⟨i, INFINITY, by simp only [firstOf, h3, Option.bind_eq_bind, Option.bind_some], (List.getElem?_eq_some_iff.1 h4).1, ?_, Or.inl ⟨rfl, h4⟩⟩
    intro k x hk
    rcases Nat.lt_trichotomy i k with h | h | h
    · have := dt_lt hv h4 hk h; omega
    · subst h; rw [h4] at hk; injection hk with hk; omega
    · have := dt_lt hv hk h4 h; omega
  | between lo up =>
    obtain ⟨rfl, x, y, hx, hy, h5, h6⟩ := h4
    obtain ⟨v, hev, hval⟩ := evaluate_spec hb hv ha
    refine ⟨lo + 1, v, by simp only [firstOf, h3, Option.bind_eq_bind, Option.bind_some, hev, Option.pure_def], (List.getElem?_eq_some_iff.1 hy).1, ?_,
      Or.inr (val_of_value hb hv ha hval).symm⟩
    intro k z hk
    rcases Nat.lt_trichotomy (lo + 1) k with h | h | h
    · have := dt_lt hv hy hk h; omega
    · subst h; rw [hy] at hk; injection hk with hk; omega
    · rcases Nat.lt_or_ge k lo with h' | h'
      · have := dt_lt hv hk hx h'; omega
      · have : k = lo := by omega
        subst this; rw [hx] at hk; injection hk with hk; omega

theorem lastOf_spec (hb : BinarySearch bs) (hv : ValidPlf f.dt f.tt) (h1 : f.dt.length ≠ 1) {b : Nat} (hbp : b ≤ PERIOD) :
    ∃ j v, lastOf bs f b = some (j, v) ∧ j < f.dt.length ∧ (∀ k x : Nat, f.dt[k]? = some x → (x ≤ b ↔ k ≤ j)) ∧
      ((v = INFINITY ∧ f.dt[j]? = some b) ∨ v = valAt f b) ∧ (b = PERIOD → v = INFINITY) := by
  obtain ⟨loc, h3, h4⟩ := locate_spec hb hv h1 hbp
  cases loc with
  | on j =>
    refine ⟨j, INFINITY, by simp only [lastOf, h3, Option.bind_eq_bind, Option.bind_some], (List.getElem?_eq_some_iff.1 h4).1, ?_, Or.inl ⟨rfl, h4⟩,
      fun _ => rfl⟩
    intro k x hk
    rcases Nat.lt_trichotomy j k with h | h | h
    · have := dt_lt hv h4 hk h; omega
    · subst h; rw [h4] at hk; injection hk with hk; omega
    · have := dt_lt hv hk h4 h; omega
  | between lo up =>
    obtain ⟨rfl, x, y, hx, hy, h5, h6⟩ := h4
    obtain ⟨v, hev, hval⟩ := evaluate_spec hb hv hbp
    refine ⟨lo, v, by simp only [lastOf, h3, Option.bind_eq_bind, Option.bind_some, hev, Option.pure_def], (List.getElem?_eq_some_iff.1 hx).1, ?_,
      Or.inr (val_of_value hb hv hbp hval).symm, ?_⟩
    · intro k z hk
      rcases Nat.lt_trichotomy (lo + 1) k with h | h | h
      · have := dt_lt hv hy hk h; omega
      · subst h; rw [hy] at hk; injection hk with hk; omega
      · rcases Nat.lt_or_ge k lo with h' | h'
        · have := dt_lt hv hk hx h'; omega
        · have : k = lo := by omega
          subst this; rw [hx] at hk; injection hk with hk; omega
    · intro hbP
      exfalso
      have hl := last_dt hv h1
      have hup := (List.getElem?_eq_some_iff.1 hy).1
      rcases Nat.lt_or_ge (lo + 1) (f.dt.length - 1) with h | h
      · have := dt_lt hv hy hl h; omega
      · have : lo + 1 = f.dt.length - 1 := by omega
        rw [this, hl] at hy; injection hy with hy; omega

theorem mem_slice {l s : List Nat} {i j : Nat} (h : slice l i j = some s) (w : Nat) : w ∈ s ↔ ∃ k, i ≤ k ∧ k < j ∧ l[k]? = some w := by
  unfold slice at h
  split at h
  · rename_i hc
    injection h with h; subst h
    rw [List.mem_iff_getElem?]
    constructor
    · rintro ⟨k, hk⟩
      have hlt : k < j - i := by
        have := (List.getElem?_eq_some_iff.1 hk).1
        simp at this; omega
      rw [List.getElem?_take_of_lt hlt, List.getElem?_drop] at hk
      exact ⟨i + k, by omega, by omega, hk⟩
    · rintro ⟨k, h1, h2, h3⟩
      refine ⟨k - i, ?_⟩
      rw [List.getElem?_take_of_lt (by omega), List.getElem?_drop, show i + (k - i) = k by omega]
      exact h3
  · cases h

theorem dt_le_period (hv : ValidPlf f.dt f.tt) {k x : Nat} (h : f.dt[k]? = some x) : x ≤ PERIOD := by
  by_cases h1 : f.dt.length = 1
  · have := (List.getElem?_eq_some_iff.1 h).1
    have : k = 0 := by omega
    subst this
    rw [hv.zero] at h; injection h with h; omega
  · have hl := last_dt hv h1
    have hk := (List.getElem?_eq_some_iff.1 h).1
    rcases Nat.lt_or_ge k (f.dt.length - 1) with h' | h'
    · exact Nat.le_of_lt (dt_lt hv h hl h')
    · have : k = f.dt.length - 1 := by omega
      subst this; rw [hl] at h; injection h with h; omega

theorem included_spec (hb : BinarySearch bs) (hv : ValidPlf f.dt f.tt) (h1 : f.dt.length ≠ 1) {a b : Nat} (hab : a < b) (hbp : b ≤ PERIOD) :
    ∃ s, included bs f a b = some s ∧ (∀ w ∈ s, w = INFINITY ∨ ∃ t, a ≤ t ∧ t ≤ b ∧ valAt f t = w) ∧
      (∀ t, a ≤ t → t ≤ b → (∃ w ∈ s, w ≤ valAt f t) ∧ (∃ w ∈ s, valAt f t ≤ w)) ∧ (b = PERIOD → INFINITY ∈ s) := by
  obtain ⟨i, v, e1, hi, hik, hvv⟩ := firstOf_spec hb hv h1 (by omega : a ≤ PERIOD)
  obtain ⟨j, w, e2, hj, hjk, hwv, hwP⟩ := lastOf_spec hb hv h1 hbp
  have hij : i ≤ j + 1 := by
    rcases Nat.eq_zero_or_pos i with h | h
    · omega
    · obtain ⟨x, hx⟩ := getElem?_ofLt (l := f.dt) (i := i - 1) (by omega)
      have h2 := (hik _ _ hx)
      have h3 := (hjk _ _ hx)
      omega
  have e3 := slice_eq (l := f.tt) hij (by rw [← hv.len]; omega : j + 1 ≤ f.tt.length)
  generalize (f.tt.drop i).take (j + 1 - i) = s at e3
  have hms := mem_slice e3
  refine ⟨s ++ [v, w], by simp only [included, e1, e2, e3, Option.bind_eq_bind, Option.bind_some, Option.pure_def], ?_, ?_, ?_⟩
  · intro z hz
    rcases List.mem_append.1 hz with hz | hz
    · right
      obtain ⟨k, h2, h3, h4⟩ := (hms z).1 hz
      obtain ⟨x, hx⟩ := getElem?_ofLt (l := f.dt) (i := k) (by omega)
      have hxa := (hik _ _ hx).2 h2
      have hxb := (hjk _ _ hx).2 (by omega)
      exact ⟨x, hxa, hxb, val_of_value hb hv (by omega) (value_on hv hx h4)⟩
    · simp at hz
      rcases hz with rfl | rfl
      · rcases hvv with ⟨h, _⟩ | h
        · exact Or.inl h
        · exact Or.inr ⟨a, Nat.le_refl _, by omega, h.symm⟩
      · rcases hwv with ⟨h, _⟩ | h
        · exact Or.inl h
        · exact Or.inr ⟨b, by omega, Nat.le_refl _, h.symm⟩
  · -- break points within the range, and its ends
    have hbp' : ∀ (k p : Nat), f.dt[k]? = some p → a ≤ p → p ≤ b → valAt f p ∈ s := by
      intro k p hk h2 h3
      have h4 := (hik _ _ hk).1 h2
      have h5 := (hjk _ _ hk).1 h3
      obtain ⟨c, hc⟩ := getElem?_ofLt (l := f.tt) (i := k) (by rw [← hv.len]; exact (List.getElem?_eq_some_iff.1 hk).1)
      rw [val_of_value hb hv (by omega) (value_on hv hk hc)]
      exact (hms c).2 ⟨k, h4, by omega, hc⟩
    have hA : valAt f a ∈ s ++ [v, w] := by
      rcases hvv with ⟨_, h⟩ | h
      · exact List.mem_append_left _ (hbp' i a h (Nat.le_refl _) (by omega))
      · rw [← h]; simp
    have hB : valAt f b ∈ s ++ [v, w] := by
      rcases hwv with ⟨_, h⟩ | h
      · exact List.mem_append_left _ (hbp' j b h (by omega) (Nat.le_refl _))
      · rw [← h]; simp
    intro t hat htb
    rcases value_of_val hb hv (by omega : t ≤ PERIOD) with ⟨h2, _⟩ | ⟨k, x, y, c, d, hx, hy, hc, hd, h2, h3, h4⟩
    · exact absurd h2 h1
    · have hxy := dt_lt hv hx hy (by omega)
      have hf := hv.fifo k _ _ _ _ hx hy hc hd
      have hsm := hv.small _ _ _ hy hd
      have hpoint : ∀ p, x ≤ p → p ≤ y → a ≤ p → p ≤ b → (p = a ∨ p = b ∨ p = x ∨ p = y) → valAt f p ∈ s ++ [v, w] ∧ Interpolates x c y d p (valAt f p) := by
        intro p hxp hpy hap hpb hcase
        obtain ⟨u, _, hu⟩ := interpolate_spec hxy hf hxp hpy hsm
        have hval : valAt f p = u := val_of_value hb hv (by omega) (Or.inr ⟨k, x, y, c, d, hx, hy, hc, hd, hxp, hpy, hu⟩)
        refine ⟨?_, by rw [hval]; exact hu⟩
        rcases hcase with rfl | rfl | rfl | rfl
        · exact hA
        · exact hB
        · exact List.mem_append_left _ (hbp' k p hx hap hpb)
        · exact List.mem_append_left _ (hbp' (k + 1) p hy hap hpb)
      obtain ⟨m1, i1⟩ := hpoint (max a x) (by omega) (by omega) (by omega) (by omega) (by omega)
      obtain ⟨m2, i2⟩ := hpoint (min b y) (by omega) (by omega) (by omega) (by omega) (by omega)
      have h5 := interp_seg hxy hf (by omega : x ≤ max a x) (by omega : max a x ≤ t) (by omega : t ≤ min b y) (by omega : min b y ≤ y) i1 h4 i2
      constructor
      · rcases Nat.le_total (valAt f (max a x)) (valAt f (min b y)) with h | h
        · exact ⟨_, m1, by omega⟩
        · exact ⟨_, m2, by omega⟩
      · rcases Nat.le_total (valAt f (max a x)) (valAt f (min b y)) with h | h
        · exact ⟨_, m2, by omega⟩
        · exact ⟨_, m1, by omega⟩
  · intro hP
    rw [hwP hP]; simp

theorem lowerIncluded_spec (hb : BinarySearch bs) (hv : ValidPlf f.dt f.tt) (h1 : f.dt.length ≠ 1) {a b : Nat} (hbp : b ≤ PERIOD) :
    ∃ r, lowerIncluded bs f a b = some r ∧ (b ≤ a → r = INFINITY) ∧
      (a < b → (∀ t, a ≤ t → t ≤ b → r ≤ valAt f t) ∧ ∃ t, a ≤ t ∧ t ≤ b ∧ valAt f t = r) := by
  by_cases hab : b ≤ a
  · exact ⟨INFINITY, by rw [lowerIncluded, if_pos hab], fun _ => rfl, fun h => by omega⟩
  · obtain ⟨s, h2, h3, h4, _⟩ := included_spec hb hv h1 (by omega : a < b) hbp
    obtain ⟨w0, hw0, _⟩ := (h4 a (Nat.le_refl _) (by omega)).1
    obtain ⟨r, hr⟩ := Option.isSome_iff_exists.1 (List.isSome_min?_of_mem hw0)
    obtain ⟨hr1, hr2⟩ := List.min?_eq_some_iff.1 hr
    refine ⟨r, by rw [lowerIncluded, if_neg hab]; simp only [h2, Option.bind_eq_bind, Option.bind_some, hr], fun h => by omega, fun _ => ⟨?_, ?_⟩⟩
    · intro t ht1 ht2
      obtain ⟨w, hw, hle⟩ := (h4 t ht1 ht2).1
      have := hr2 w hw
      omega
    · rcases h3 r hr1 with h | h
      · exfalso
        obtain ⟨w, hw, hle⟩ := (h4 a (Nat.le_refl _) (by omega)).1
        have h5 := hr2 w hw
        have := valAt_small hb hv a
        omega
      · exact h

theorem lowerInRange_eq (h1 : f.tt.length ≠ 1) (a b : Nat) : lowerInRange bs f a b = (do
    let x ← lowerIncluded bs f (split a b PERIOD).1.1 (split a b PERIOD).1.2
    let y ← lowerIncluded bs f ((split a b PERIOD).2.1 % PERIOD) ((split a b PERIOD).2.2 % PERIOD)
    return min x y) := by
  unfold lowerInRange
  split
  · rename_i c hc
    rw [hc] at h1; simp at h1
  · rfl

theorem upperInRange_eq (h1 : f.tt.length ≠ 1) (a b : Nat) : upperInRange bs f a b = (do
    let x ← upperIncluded bs f (split a b PERIOD).1.1 (split a b PERIOD).1.2
    let y ← upperIncluded bs f ((split a b PERIOD).2.1 % PERIOD) ((split a b PERIOD).2.2 % PERIOD)
    return max x y) := by
  unfold upperInRange
  split
  · rename_i c hc
    rw [hc] at h1; simp at h1
  · rfl

theorem const_fn (hv : ValidPlf f.dt f.tt) (h1 : f.dt.length = 1) : ∃ c, f.tt = [c] := by
  have := hv.len
  rw [h1] at this
  exact List.length_eq_one_iff.1 this.symm

theorem const_val (hb : BinarySearch bs) (hv : ValidPlf f.dt f.tt) {c : Nat} (hc : f.tt = [c]) (t : Nat) : valAt f t = c := by
  have h1 : f.dt.length = 1 := by rw [hv.len, hc]; rfl
  have := val_of_value hb hv (mod_le t) (Or.inl ⟨h1, by rw [hc]; rfl⟩)
  rw [← valAt_mod]; exact this

theorem lowerInRange_spec (hb : BinarySearch bs) (hv : ValidPlf f.dt f.tt) {a b : Nat} (hab : a < b)
    (hr : b < 2 * PERIOD ∨ a = 0 ∨ a / PERIOD = b / PERIOD) :
    ∃ r, lowerInRange bs f a b = some r ∧ (∀ t, a ≤ t → t ≤ b → r ≤ valAt f t) ∧ ∃ t, a ≤ t ∧ t ≤ b ∧ valAt f t = r := by
  by_cases h1 : f.dt.length = 1
  · obtain ⟨c, hc⟩ := const_fn hv h1
    refine ⟨c, by simp [lowerInRange, hc], fun t _ _ => by rw [const_val hb hv hc], a, Nat.le_refl _, by omega, const_val hb hv hc a⟩
  · rw [lowerInRange_eq (by rw [← hv.len]; exact h1)]
    have hP : 0 < PERIOD := by simp [PERIOD]
    by_cases c1 : PERIOD < a
    · -- the range lies in a later period
      have hq : a / PERIOD = b / PERIOD := by
        rcases hr with h | h | h
        · have e1 : a / PERIOD = 1 := by
            rw [Nat.div_eq_iff hP]; omega
          have e2 : b / PERIOD = 1 := by
            rw [Nat.div_eq_iff hP]; omega
          rw [e1, e2]
        · omega
        · exact h
      have ea := Nat.div_add_mod a PERIOD
      have eb := Nat.div_add_mod b PERIOD
      rw [← hq] at eb
      obtain ⟨r1, e1, hi1, _⟩ := lowerIncluded_spec hb hv h1 (a := PERIOD) (Nat.le_refl PERIOD)
      obtain ⟨r2, e2, _, hi2⟩ := lowerIncluded_spec hb hv h1 (a := a % PERIOD) (mod_le b)
      have hlt : a % PERIOD < b % PERIOD := by omega
      obtain ⟨h3, t0, h4, h5, h6⟩ := hi2 hlt
      have hs : split a b PERIOD = ((PERIOD, PERIOD), (a, b)) := by rw [split, if_pos c1]
      have hr1 := hi1 (Nat.le_refl _)
      have hr2 : r2 < INFINITY := by rw [← h6]; exact valAt_small hb hv t0
      have hmin : min r1 r2 = r2 := by omega
      refine ⟨r2, by simp only [hs, e1, e2, Option.bind_eq_bind, Option.bind_some, Option.pure_def, hmin], ?_, ?_⟩
      · intro t ht1 ht2
        have et := Nat.div_add_mod t PERIOD
        have hqt : t / PERIOD = a / PERIOD := by
          have h7 : a / PERIOD ≤ t / PERIOD := Nat.div_le_div_right ht1
          have h8 : t / PERIOD ≤ b / PERIOD := Nat.div_le_div_right ht2
          omega
        rw [hqt] at et
        rw [← valAt_mod]
        exact h3 _ (by omega) (by omega)
      · refine ⟨PERIOD * (a / PERIOD) + t0, by omega, by omega, ?_⟩
        rw [← h6, ← valAt_mod, Nat.mul_add_mod, valAt_mod]
    · by_cases c2 : b ≤ PERIOD
      · obtain ⟨r1, e1, _, hi1⟩ := lowerIncluded_spec hb hv h1 (a := a) c2
        obtain ⟨r2, e2, hi2, _⟩ := lowerIncluded_spec hb hv h1 (a := PERIOD % PERIOD) (mod_le PERIOD)
        have hs : split a b PERIOD = ((a, b), (PERIOD, PERIOD)) := by rw [split, if_neg c1, if_pos c2]
        obtain ⟨h3, t0, h4, h5, h6⟩ := hi1 hab
        have hr2 := hi2 (Nat.le_refl _)
        have hr1 : r1 < INFINITY := by rw [← h6]; exact valAt_small hb hv t0
        have hmin : min r1 r2 = r1 := by omega
        exact ⟨r1, by simp only [hs, e1, e2, Option.bind_eq_bind, Option.bind_some, Option.pure_def, hmin], h3, t0, h4, h5, h6⟩
      · obtain ⟨r1, e1, hi1e, hi1⟩ := lowerIncluded_spec hb hv h1 (a := a) (Nat.le_refl PERIOD)
        obtain ⟨r2, e2, hi2e, hi2⟩ := lowerIncluded_spec hb hv h1 (a := PERIOD % PERIOD) (mod_le b)
        have hs : split a b PERIOD = ((a, PERIOD), (PERIOD, b)) := by rw [split, if_neg c1, if_neg c2]
        rw [Nat.mod_self] at e2 hi2 hi2e
        have ea := Nat.div_add_mod a PERIOD
        have eb := Nat.div_add_mod b PERIOD
        have hbq : 1 ≤ b / PERIOD := by
          rw [Nat.le_div_iff_mul_le hP]; omega
        have hbP : PERIOD ≤ PERIOD * (b / PERIOD) := by
          calc PERIOD = PERIOD * 1 := by rw [Nat.mul_one]
            _ ≤ _ := Nat.mul_le_mul_left _ hbq
        refine ⟨min r1 r2, by simp only [hs, Nat.mod_self, e1, e2, Option.bind_eq_bind, Option.bind_some, Option.pure_def], ?_, ?_⟩
        · intro t ht1 ht2
          by_cases htP : t ≤ PERIOD ∧ a < PERIOD
          · have := (hi1 htP.2).1 t ht1 htP.1
            omega
          · rcases hr with h | h | h
            · have hb1 : b % PERIOD = b - PERIOD := by
                have e3 : b / PERIOD = 1 := by rw [Nat.div_eq_iff hP]; omega
                rw [e3] at eb; omega
              have hval : valAt f t = valAt f (t - PERIOD) := by
                conv_lhs => rw [show t = (t - PERIOD) + PERIOD by omega]
                exact valAt_period _
              have := (hi2 (by omega)).1 (t - PERIOD) (by omega) (by omega)
              omega
            · subst h
              have := (hi1 hP).1 (t % PERIOD) (by omega) (mod_le t)
              rw [valAt_mod] at this
              omega
            · have h7 : a / PERIOD = 1 := by
                rcases Nat.lt_or_ge a PERIOD with h8 | h8
                · rw [Nat.div_eq_of_lt h8] at h; omega
                · rw [Nat.div_eq_iff hP]; omega
              rw [h7] at h
              rw [← h] at eb
              have hval : valAt f t = valAt f (t - PERIOD) := by
                conv_lhs => rw [show t = (t - PERIOD) + PERIOD by omega]
                exact valAt_period _
              have := (hi2 (by omega)).1 (t - PERIOD) (by omega) (by omega)
              omega
        · have hs1 : a < PERIOD → ∃ t, a ≤ t ∧ t ≤ b ∧ valAt f t = r1 := by
            intro h
            obtain ⟨_, t0, h4, h5, h6⟩ := hi1 h
            exact ⟨t0, h4, by omega, h6⟩
          have hs2 : 0 < b % PERIOD → ∃ t, a ≤ t ∧ t ≤ b ∧ valAt f t = r2 := by
            intro h
            obtain ⟨_, t0, h4, h5, h6⟩ := hi2 h
            refine ⟨t0 + PERIOD, by omega, by omega, ?_⟩
            rw [valAt_period]; exact h6
          rcases Nat.le_total r1 r2 with hle | hle
          · rw [Nat.min_eq_left hle]
            rcases Nat.lt_or_ge a PERIOD with h | h
            · exact hs1 h
            · have hr1 := hi1e h
              have hpos : 0 < b % PERIOD := by
                rcases hr with h7 | h7 | h7
                · have e3 : b / PERIOD = 1 := by rw [Nat.div_eq_iff hP]; omega
                  rw [e3] at eb; omega
                · omega
                · have e3 : a / PERIOD = 1 := by rw [Nat.div_eq_iff hP]; omega
                  rw [e3] at h7; rw [← h7] at eb; omega
              obtain ⟨t, h4, h5, h6⟩ := hs2 hpos
              have := valAt_small hb hv t
              omega
          · rw [Nat.min_eq_right hle]
            rcases Nat.eq_zero_or_pos (b % PERIOD) with h | h
            · have hr2 := hi2e (by omega)
              rcases Nat.lt_or_ge a PERIOD with h' | h'
              · obtain ⟨t, h4, h5, h6⟩ := hs1 h'
                have := valAt_small hb hv t
                omega
              · rcases hr with h7 | h7 | h7
                · have e3 : b / PERIOD = 1 := by rw [Nat.div_eq_iff hP]; omega
                  rw [e3] at eb; omega
                · omega
                · have e3 : a / PERIOD = 1 := by rw [Nat.div_eq_iff hP]; omega
                  rw [e3] at h7; rw [← h7] at eb; omega
            · exact hs2 h

theorem le_max? {s : List Nat} {r w : Nat} (h : s.max? = some r) (hw : w ∈ s) : w ≤ r := (List.max?_eq_some_iff.1 h).2 w hw

/-- `upper_bound_in_range` is never below `INFINITY`. -/
theorem upperInRange_infinity (hb : BinarySearch bs) (hv : ValidPlf f.dt f.tt) (h1 : f.dt.length ≠ 1) {a b r : Nat}
    (h : upperInRange bs f a b = some r) : INFINITY ≤ r := by
  rw [upperInRange_eq (by rw [← hv.len]; exact h1)] at h
  have hempty : ∀ x, upperIncluded bs f x x = some INFINITY := fun x => by rw [upperIncluded, if_pos (Nat.le_refl _)]
  have hend : ∀ a, ∃ r, upperIncluded bs f a PERIOD = some r ∧ INFINITY ≤ r := by
    intro a
    by_cases hab : PERIOD ≤ a
    · exact ⟨INFINITY, by rw [upperIncluded, if_pos hab], Nat.le_refl _⟩
    · obtain ⟨s, h2, h3, h4, h5⟩ := included_spec hb hv h1 (by omega : a < PERIOD) (Nat.le_refl _)
      have hm := h5 rfl
      obtain ⟨r, hr⟩ := Option.isSome_iff_exists.1 (List.isSome_max?_of_mem hm)
      exact ⟨r, by rw [upperIncluded, if_neg hab]; simp only [h2, Option.bind_eq_bind, Option.bind_some, hr], le_max? hr hm⟩
  by_cases c1 : PERIOD < a
  · have hs : split a b PERIOD = ((PERIOD, PERIOD), (a, b)) := by rw [split, if_pos c1]
    simp only [hs, hempty, Option.bind_eq_bind, Option.bind_some] at h
    cases hy : upperIncluded bs f (a % PERIOD) (b % PERIOD) with
    | none => rw [hy] at h; cases h
    | some y => rw [hy] at h; simp at h; omega
  · by_cases c2 : b ≤ PERIOD
    · have hs : split a b PERIOD = ((a, b), (PERIOD, PERIOD)) := by rw [split, if_neg c1, if_pos c2]
      simp only [hs, hempty] at h
      cases hy : upperIncluded bs f a b with
      | none => rw [hy] at h; cases h
      | some y => rw [hy] at h; simp at h; omega
    · have hs : split a b PERIOD = ((a, PERIOD), (PERIOD, b)) := by rw [split, if_neg c1, if_neg c2]
      obtain ⟨x, e1, hx⟩ := hend a
      simp only [hs, e1, Option.bind_eq_bind, Option.bind_some] at h
      cases hy : upperIncluded bs f (PERIOD % PERIOD) (b % PERIOD) with
      | none => rw [hy] at h; cases h
      | some y => rw [hy] at h; simp at h; omega

/-! ### Live traffic -/

/-- the value of `LiveTDGraph::eval` -/
noncomputable def liveAt (f : Fn) (soon l t : Nat) : Nat :=
  if t < soon then l
  else if valAt f soon < l then max (l + soon - t) (valAt f t) else min (satAdd l t - soon) (valAt f t)

theorem evalLive_spec (hb : BinarySearch bs) (hv : ValidPlf f.dt f.tt) {soon l : Nat} (hls : l + soon < U32) (t : Nat) :
    evalLive bs f soon (some l) t = some (liveAt f soon l t) := by
  have h1 := (valAt_spec hb hv t).1
  have h2 := (valAt_spec hb hv soon).1
  unfold liveAt
  simp only [evalLive, h1, Option.bind_eq_bind, Option.bind_some, Option.pure_def]
  by_cases c1 : t < soon
  · rw [if_pos c1, if_pos c1]
  · rw [if_neg c1, if_neg c1]
    simp only [h2, Option.bind_some]
    by_cases c2 : valAt f soon < l
    · rw [if_pos c2, if_pos c2, add32_of_lt hls]
      rfl
    · rw [if_neg c2, if_neg c2, sub32, if_pos (by simp only [satAdd]; omega)]
      rfl

theorem liveAt_fifo (hb : BinarySearch bs) (hv : ValidPlf f.dt f.tt) {soon l : Nat} (hls : l + soon < U32) : Fifo (liveAt f soon l) := by
  intro t t' htt
  have h1 := valAt_fifo hb hv t t' htt
  unfold liveAt
  by_cases c1 : t' < soon
  · rw [if_pos c1, if_pos (by omega : t < soon)]; omega
  · rw [if_neg c1]
    have h2 := valAt_fifo hb hv soon t' (by omega)
    by_cases c2 : t < soon
    · rw [if_pos c2]
      by_cases c3 : valAt f soon < l
      · rw [if_pos c3]; omega
      · rw [if_neg c3]; simp only [satAdd]; omega
    · rw [if_neg c2]
      by_cases c3 : valAt f soon < l
      · rw [if_pos c3, if_pos c3]; omega
      · rw [if_neg c3, if_neg c3]; simp only [satAdd]; omega

/-- the value of `PessimisticLiveTDGraph::eval` -/
noncomputable def pessAt (f : Fn) (live : Option (Nat × Nat)) (t : Nat) : Nat :=
  match live with
  | none => valAt f t
  | some (l, soon) => if soon ≤ t then valAt f t else max (valAt f t) (min l (satAdd (valAt f soon) (soon - t)))

theorem evalPess_spec (hb : BinarySearch bs) (hv : ValidPlf f.dt f.tt) (live : Option (Nat × Nat)) (t : Nat) :
    evalPess bs f live t = some (pessAt f live t) := by
  have h1 := (valAt_spec hb hv t).1
  cases live with
  | none => simp only [evalPess, h1, Option.bind_eq_bind, Option.bind_some, Option.pure_def, pessAt]
  | some p =>
    obtain ⟨l, soon⟩ := p
    have h2 := (valAt_spec hb hv soon).1
    simp only [evalPess, h1, Option.bind_eq_bind, Option.bind_some, Option.pure_def, pessAt]
    by_cases c1 : soon ≤ t
    · rw [if_pos c1, if_pos c1]; simp
    · rw [if_neg c1, if_neg c1]; simp only [h2, Option.bind_some]

/-- times are below 2^31, so nothing saturates -/
theorem satAdd_val (hb : BinarySearch bs) (hv : ValidPlf f.dt f.tt) {soon t : Nat} (hs : soon ≤ INFINITY) :
    satAdd (valAt f soon) (soon - t) = valAt f soon + (soon - t) := by
  have := valAt_small hb hv soon
  simp only [satAdd, U32, INFINITY] at *
  omega

theorem pessAt_fifo (hb : BinarySearch bs) (hv : ValidPlf f.dt f.tt) {live : Option (Nat × Nat)}
    (hs : ∀ l soon, live = some (l, soon) → soon ≤ INFINITY) : Fifo (pessAt f live) := by
  intro t t' htt
  have h1 := valAt_fifo hb hv t t' htt
  cases live with
  | none => exact h1
  | some p =>
    obtain ⟨l, soon⟩ := p
    have hso := hs l soon rfl
    simp only [pessAt]
    by_cases c1 : soon ≤ t'
    · rw [if_pos c1]
      have h2 := valAt_fifo hb hv soon t' c1
      by_cases c2 : soon ≤ t
      · rw [if_pos c2]; exact h1
      · rw [if_neg c2, satAdd_val hb hv hso]; omega
    · rw [if_neg c1, if_neg (by omega : ¬ soon ≤ t), satAdd_val hb hv hso, satAdd_val hb hv hso]; omega

end

end Verif.Plf
