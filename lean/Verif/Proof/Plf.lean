import Verif.Model.Plf
import Mathlib.Tactic.Linarith
set_option linter.unusedSimpArgs false
set_option linter.unusedVariables false
/- Piecewise linear functions: evaluation, FIFO, bounds. -/
namespace Verif.Plf
open Spec

/-! ### One segment -/

theorem interp_seg {x a y b l vl t v r vr : Nat} (hxy : x < y) (hf : x + a ≤ y + b) (hxl : x ≤ l) (hlt : l ≤ t) (htr : t ≤ r) (hry : r ≤ y)
    (h1 : Interpolates x a y b l vl) (h2 : Interpolates x a y b t v) (h3 : Interpolates x a y b r vr) : min vl vr ≤ v ∧ v ≤ max vl vr := by
  obtain ⟨D, rfl⟩ : ∃ D, y = x + D := ⟨y - x, by omega⟩
  obtain ⟨l, rfl⟩ : ∃ l', l = x + l' := ⟨l - x, by omega⟩
  obtain ⟨t, rfl⟩ : ∃ t', t = x + l + t' := ⟨t - (x + l), by omega⟩
  obtain ⟨r, rfl⟩ : ∃ r', r = x + l + t + r' := ⟨r - (x + l + t), by omega⟩
  obtain ⟨Δ, hΔ⟩ : ∃ Δ, x + D + b = x + a + Δ := ⟨x + D + b - (x + a), by omega⟩
  unfold Interpolates at h1 h2 h3
  rw [show x + D + b - (x + a) = Δ by omega, show x + D - x = D by omega] at h1 h2 h3
  rw [show x + l - x = l by omega] at h1
  rw [show x + l + t - x = l + t by omega] at h2
  rw [show x + l + t + r - x = l + t + r by omega] at h3
  have key : ∀ p q : Nat, p * D < (q + 1) * D → p ≤ q := by
    intro p q h
    have := Nat.lt_of_mul_lt_mul_right h
    omega
  by_cases hab : D ≤ Δ
  · have h4 : vl ≤ v := by
      have := key (x + l + vl + t) (x + l + t + v) (by
        have : t * D ≤ t * Δ := Nat.mul_le_mul_left _ hab
        nlinarith)
      omega
    have h5 : v ≤ vr := by
      have := key (x + l + t + v + r) (x + l + t + r + vr) (by
        have : r * D ≤ r * Δ := Nat.mul_le_mul_left _ hab
        nlinarith)
      omega
    omega
  · have h4 : v ≤ vl := by
      have := key (x + l + t + v) (x + l + vl + t) (by
        have : t * Δ ≤ t * D := Nat.mul_le_mul_left _ (by omega)
        nlinarith)
      omega
    have h5 : vr ≤ v := by
      have := key (x + l + t + r + vr) (x + l + t + v + r) (by
        have : r * Δ ≤ r * D := Nat.mul_le_mul_left _ (by omega)
        nlinarith)
      omega
    omega

theorem interp_start {x a y b v : Nat} (hxy : x < y) (h : Interpolates x a y b x v) : v = a := by
  obtain ⟨h1, h2⟩ := h
  rw [Nat.sub_self, Nat.zero_mul, Nat.add_zero] at h1 h2
  have h3 := Nat.le_of_mul_le_mul_right h1 (by omega : 0 < y - x)
  have h4 := Nat.lt_of_mul_lt_mul_right h2
  omega

theorem interp_start' {x a y b : Nat} (hxy : x < y) : Interpolates x a y b x a := by
  unfold Interpolates
  rw [Nat.sub_self, Nat.zero_mul, Nat.add_zero]
  exact ⟨Nat.le_refl _, Nat.mul_lt_mul_of_pos_right (by omega) (by omega)⟩

theorem interp_end' {x a y b : Nat} (hxy : x < y) (hf : x + a ≤ y + b) : Interpolates x a y b y b := by
  unfold Interpolates
  have e : (x + a) * (y - x) + (y - x) * (y + b - (x + a)) = (y + b) * (y - x) := by
    rw [Nat.mul_comm (y - x), ← Nat.add_mul]
    congr 1; omega
  rw [e]
  exact ⟨Nat.le_refl _, Nat.mul_lt_mul_of_pos_right (by omega) (by omega)⟩

theorem interp_mono {x a y b t v t' v' : Nat} (htt : t ≤ t') (h : Interpolates x a y b t v) (h' : Interpolates x a y b t' v') :
    t + v ≤ t' + v' := by
  have h1 : (t - x) * (y + b - (x + a)) ≤ (t' - x) * (y + b - (x + a)) := Nat.mul_le_mul_right _ (by omega)
  have h2 : (t + v) * (y - x) < (t' + v' + 1) * (y - x) := by
    have := h.1
    have := h'.2
    omega
  have := Nat.lt_of_mul_lt_mul_right h2
  omega

theorem interp_end {x a y b v : Nat} (hxy : x < y) (hf : x + a ≤ y + b) (h : Interpolates x a y b y v) : v = b := by
  have h1 := interp_mono (Nat.le_refl y) h (interp_end' hxy hf)
  have h2 := interp_mono (Nat.le_refl y) (interp_end' hxy hf) h
  omega

/-- the value is between the values at the ends -/
theorem interp_between {x a y b t v : Nat} (hxy : x < y) (hf : x + a ≤ y + b) (hx : x ≤ t) (hy : t ≤ y) (h : Interpolates x a y b t v) :
    min a b ≤ v ∧ v ≤ max a b :=
  interp_seg hxy hf (Nat.le_refl x) hx hy (Nat.le_refl y) (interp_start' hxy) h (interp_end' hxy hf)

theorem interpolate_spec {x a y b t : Nat} (hxy : x < y) (hf : x + a ≤ y + b) (hx : x ≤ t) (hy : t ≤ y) (hs : y + b < 2147483647) :
    ∃ v, interpolate x a y b t = some v ∧ Interpolates x a y b t v := by
  have e1 : add32 x a = some (x + a) := add32_of_lt (by simp only [U32]; omega)
  have e2 : add32 y b = some (y + b) := add32_of_lt (by simp only [U32]; omega)
  have e3 : sub32 y x = some (y - x) := by rw [sub32, if_pos (by omega)]
  have e4 : sub32 (y + b) (x + a) = some (y + b - (x + a)) := by rw [sub32, if_pos hf]
  have e5 : sub32 t x = some (t - x) := by rw [sub32, if_pos hx]
  have hD : y - x ≠ 0 := by omega
  obtain ⟨q, hq⟩ : ∃ q, (t - x) * (y + b - (x + a)) / (y - x) = q := ⟨_, rfl⟩
  have hq1 : q * (y - x) ≤ (t - x) * (y + b - (x + a)) := by rw [← hq]; exact Nat.div_mul_le_self _ _
  have hq2 : (t - x) * (y + b - (x + a)) < (q + 1) * (y - x) := by
    rw [← hq, Nat.mul_comm (_ + 1)]
    exact Nat.lt_mul_div_succ _ (Nat.pos_of_ne_zero hD)
  have hqle : q ≤ y + b - (x + a) := by
    have h1 : (t - x) * (y + b - (x + a)) ≤ (y - x) * (y + b - (x + a)) := Nat.mul_le_mul_right _ (by omega)
    have h2 : q * (y - x) ≤ (y + b - (x + a)) * (y - x) := by rw [Nat.mul_comm (y + b - (x + a))]; omega
    exact Nat.le_of_mul_le_mul_right h2 (by omega)
  -- the arrival is not before the departure
  have hge : t ≤ x + a + q := by
    obtain ⟨D, rfl⟩ : ∃ D, y = x + D := ⟨y - x, by omega⟩
    obtain ⟨l, rfl⟩ : ∃ l', t = x + l' := ⟨t - x, by omega⟩
    obtain ⟨Δ, hΔ⟩ : ∃ Δ, x + D + b = x + a + Δ := ⟨x + D + b - (x + a), by omega⟩
    rw [show x + D + b - (x + a) = Δ by omega, show x + D - x = D by omega, show x + l - x = l by omega] at hq2
    rcases Nat.le_total D Δ with hab | hab
    · have h1 : l * D ≤ l * Δ := Nat.mul_le_mul_left _ hab
      have h2 : l * D < (q + 1) * D := by omega
      have := Nat.lt_of_mul_lt_mul_right h2
      omega
    · obtain ⟨ε, hε⟩ : ∃ ε, D = Δ + ε := ⟨D - Δ, by omega⟩
      have h1 : l * ε ≤ D * ε := Nat.mul_le_mul_right _ (by omega)
      have h2 : l * D < (q + 1 + ε) * D := by
        have e6 : l * D = l * Δ + l * ε := by rw [hε, Nat.mul_add]
        have e7 : (q + 1 + ε) * D = (q + 1) * D + D * ε := by rw [Nat.add_mul, Nat.mul_comm ε]
        omega
      have := Nat.lt_of_mul_lt_mul_right h2
      omega
  refine ⟨x + a + q - t, ?_, ?_⟩
  · simp only [interpolate, e1, e2, e3, e4, e5, Option.bind_eq_bind, Option.bind_some, hD, if_false, hq]
    rw [Nat.mod_eq_of_lt (by simp only [U32]; omega), sub32, if_pos hge]
  · unfold Interpolates
    rw [show t + (x + a + q - t) = x + a + q by omega]
    constructor
    · rw [Nat.add_mul (x + a) q]; omega
    · rw [show x + a + q + 1 = (x + a) + (q + 1) by omega, Nat.add_mul (x + a) (q + 1)]; omega

/-! ### Valid functions -/

section
variable {bs : List Nat → Nat → Lookup} {f : Fn}

theorem getElem?_ofLt {l : List Nat} {i : Nat} (h : i < l.length) : ∃ x, l[i]? = some x := ⟨l[i], List.getElem?_eq_getElem h⟩

theorem dt_lt (hv : ValidPlf f.dt f.tt) {i j x y : Nat} (hi : f.dt[i]? = some x) (hj : f.dt[j]? = some y) (h : i < j) : x < y := by
  obtain ⟨hi', rfl⟩ := List.getElem?_eq_some_iff.1 hi
  obtain ⟨hj', rfl⟩ := List.getElem?_eq_some_iff.1 hj
  exact List.pairwise_iff_getElem.1 hv.mono i j hi' hj' h

theorem dt_inj (hv : ValidPlf f.dt f.tt) {i j x : Nat} (hi : f.dt[i]? = some x) (hj : f.dt[j]? = some x) : i = j := by
  rcases Nat.lt_trichotomy i j with h | h | h
  · exact absurd (dt_lt hv hi hj h) (by omega)
  · exact h
  · exact absurd (dt_lt hv hj hi h) (by omega)

theorem last_dt (hv : ValidPlf f.dt f.tt) (h1 : f.dt.length ≠ 1) : f.dt[f.dt.length - 1]? = some PERIOD := by
  rw [← List.getLast?_eq_getElem?]
  rcases hv.period with h | h
  · exact absurd h h1
  · exact h

theorem dt_pos (hv : ValidPlf f.dt f.tt) : 0 < f.dt.length := (List.getElem?_eq_some_iff.1 hv.zero).1

theorem last_tt (hv : ValidPlf f.dt f.tt) : f.tt[f.dt.length - 1]? = f.tt[0]? := by
  rw [hv.len, ← List.getLast?_eq_getElem?]; exact hv.last

theorem chain (hv : ValidPlf f.dt f.tt) {i x a : Nat} : ∀ (d : Nat) {y b : Nat}, f.dt[i]? = some x → f.tt[i]? = some a →
    f.dt[i + d]? = some y → f.tt[i + d]? = some b → x + a ≤ y + b
  | 0, y, b, h1, h2, h3, h4 => by
    rw [Nat.add_zero] at h3 h4
    rw [h1] at h3; rw [h2] at h4
    injection h3 with h3; injection h4 with h4
    omega
  | d + 1, y, b, h1, h2, h3, h4 => by
    have hlt := (List.getElem?_eq_some_iff.1 h3).1
    have hlt' := (List.getElem?_eq_some_iff.1 h4).1
    obtain ⟨y', hy'⟩ := getElem?_ofLt (l := f.dt) (i := i + d) (by omega)
    obtain ⟨b', hb'⟩ := getElem?_ofLt (l := f.tt) (i := i + d) (by omega)
    have := chain hv d h1 h2 hy' hb'
    have := hv.fifo (i + d) y' y b' b hy' h3 hb' h4
    omega

theorem locate_spec (hb : BinarySearch bs) (hv : ValidPlf f.dt f.tt) (h1 : f.dt.length ≠ 1) {t : Nat} (ht : t ≤ PERIOD) :
    ∃ loc, locate bs f.dt t = some loc ∧ match loc with
      | .on i => f.dt[i]? = some t
      | .between lo up => up = lo + 1 ∧ ∃ x y, f.dt[lo]? = some x ∧ f.dt[up]? = some y ∧ x < t ∧ t < y := by
  by_cases h0 : t = 0
  · subst h0
    exact ⟨.on 0, by simp [locate], hv.zero⟩
  · by_cases hp : t = PERIOD
    · subst hp
      have := dt_pos hv
      exact ⟨.on (f.dt.length - 1), by rw [locate, if_neg h0, if_pos rfl, if_neg (by omega)], last_dt hv h1⟩
    · have hval := hb f.dt t (hv.mono.imp (fun h => Nat.le_of_lt h))
      have e : locate bs f.dt t = locOf (bs f.dt t) := by rw [locate, if_neg h0, if_neg hp]
      rw [e]
      cases hbs : bs f.dt t with
      | ok i =>
        rw [hbs] at hval
        exact ⟨.on i, rfl, hval⟩
      | err u =>
        rw [hbs] at hval
        obtain ⟨h2, h3, h4, h5⟩ := hval
        have hu : u ≠ 0 := by
          intro hu
          have := h5 0 0 hv.zero (by omega)
          omega
        have hul : u < f.dt.length := by
          rcases Nat.lt_or_ge u f.dt.length with h | h
          · exact h
          · have := h4 (f.dt.length - 1) PERIOD (last_dt hv h1) (by omega)
            omega
        obtain ⟨x, hx⟩ := getElem?_ofLt (l := f.dt) (i := u - 1) (by omega)
        obtain ⟨y, hy⟩ := getElem?_ofLt (l := f.dt) (i := u) hul
        exact ⟨.between (u - 1) u, by simp [locOf, hu], by omega, x, y, hx, hy, h4 _ _ hx (by omega), h5 _ _ hy (by omega)⟩

/-- the value at a break point -/
theorem value_on (hv : ValidPlf f.dt f.tt) {i t v : Nat} (h1 : f.dt[i]? = some t) (h2 : f.tt[i]? = some v) : PlfValue f.dt f.tt t v := by
  have hi := (List.getElem?_eq_some_iff.1 h1).1
  by_cases hl : f.dt.length = 1
  · left
    have : i = 0 := by omega
    subst this
    exact ⟨hl, h2⟩
  · right
    by_cases hn : i + 1 < f.dt.length
    · obtain ⟨y, hy⟩ := getElem?_ofLt hn
      obtain ⟨b, hb⟩ := getElem?_ofLt (l := f.tt) (i := i + 1) (by rw [← hv.len]; exact hn)
      have hxy := dt_lt hv h1 hy (by omega)
      exact ⟨i, t, y, v, b, h1, hy, h2, hb, Nat.le_refl _, by omega, interp_start' hxy⟩
    · obtain ⟨k, rfl⟩ : ∃ k, i = k + 1 := ⟨i - 1, by omega⟩
      obtain ⟨x, hx⟩ := getElem?_ofLt (l := f.dt) (i := k) (by omega)
      obtain ⟨a, ha⟩ := getElem?_ofLt (l := f.tt) (i := k) (by rw [← hv.len]; omega)
      have hxy := dt_lt hv hx h1 (by omega)
      exact ⟨k, x, t, a, v, hx, h1, ha, h2, by omega, Nat.le_refl _, interp_end' hxy (hv.fifo k _ _ _ _ hx h1 ha h2)⟩

theorem evaluate_spec (hb : BinarySearch bs) (hv : ValidPlf f.dt f.tt) {t : Nat} (ht : t ≤ PERIOD) :
    ∃ v, evaluate bs f t = some v ∧ PlfValue f.dt f.tt t v := by
  have hpos := dt_pos hv
  obtain ⟨c, hc⟩ := getElem?_ofLt (l := f.tt) (i := 0) (by rw [← hv.len]; exact hpos)
  by_cases h2 : f.dt.length ≤ 2
  · refine ⟨c, by rw [evaluate, if_pos h2, hc], ?_⟩
    by_cases h1 : f.dt.length = 1
    · exact Or.inl ⟨h1, hc⟩
    · right
      have e : f.dt.length = 2 := by omega
      have hl := last_dt hv h1
      have hlt := last_tt hv
      rw [e] at hl hlt
      have hc1 : f.tt[1]? = some c := by rw [← hc]; exact hlt
      refine ⟨0, 0, PERIOD, c, c, hv.zero, hl, hc, hc1, by omega, ht, ?_⟩
      unfold Interpolates
      simp only [Nat.sub_zero, Nat.zero_add]
      rw [show PERIOD + c - c = PERIOD by omega, ← Nat.add_mul]
      constructor
      · rw [Nat.add_comm]
      · exact Nat.mul_lt_mul_of_pos_right (by omega) (by simp [PERIOD])
  · obtain ⟨loc, h3, h4⟩ := locate_spec hb hv (by omega) ht
    cases loc with
    | on i =>
      have hi := (List.getElem?_eq_some_iff.1 h4).1
      obtain ⟨v, hv'⟩ := getElem?_ofLt (l := f.tt) (i := i) (by rw [← hv.len]; exact hi)
      refine ⟨v, ?_, value_on hv h4 hv'⟩
      rw [evaluate, if_neg h2]
      simp only [h3, Option.bind_eq_bind, Option.bind_some, hv']
    | between lo up =>
      obtain ⟨rfl, x, y, hx, hy, h5, h6⟩ := h4
      have hlo := (List.getElem?_eq_some_iff.1 hx).1
      have hup := (List.getElem?_eq_some_iff.1 hy).1
      obtain ⟨a, ha⟩ := getElem?_ofLt (l := f.tt) (i := lo) (by rw [← hv.len]; exact hlo)
      obtain ⟨b, hb'⟩ := getElem?_ofLt (l := f.tt) (i := lo + 1) (by rw [← hv.len]; exact hup)
      obtain ⟨v, h7, h8⟩ := interpolate_spec (by omega) (hv.fifo lo _ _ _ _ hx hy ha hb') (by omega : x ≤ t) (by omega : t ≤ y) (hv.small _ _ _ hy hb')
      refine ⟨v, ?_, Or.inr ⟨lo, x, y, a, b, hx, hy, ha, hb', by omega, by omega, h8⟩⟩
      rw [evaluate, if_neg h2]
      simp only [h3, Option.bind_eq_bind, Option.bind_some, hx, hy, ha, hb', h7]

/-- leaving later within the period never means arriving earlier -/
theorem value_fifo (hv : ValidPlf f.dt f.tt) {t t' v v' : Nat} (h : PlfValue f.dt f.tt t v) (h' : PlfValue f.dt f.tt t' v') (htt : t ≤ t') :
    t + v ≤ t' + v' := by
  rcases h with ⟨h1, h2⟩ | ⟨i, x, y, a, b, hx, hy, ha, hb, h1, h2, h3⟩
  · rcases h' with ⟨h3, h4⟩ | ⟨j, x', y', a', b', hx', hy', ha', hb', h1', h2', h3'⟩
    · rw [h2] at h4; injection h4 with h4; omega
    · have := (List.getElem?_eq_some_iff.1 hy').1; omega
  · rcases h' with ⟨h3, h4⟩ | ⟨j, x', y', a', b', hx', hy', ha', hb', h1', h2', h3'⟩
    · have := (List.getElem?_eq_some_iff.1 hy).1; omega
    · have hxy := dt_lt hv hx hy (by omega)
      have hxy' := dt_lt hv hx' hy' (by omega)
      have hf := hv.fifo i _ _ _ _ hx hy ha hb
      have hf' := hv.fifo j _ _ _ _ hx' hy' ha' hb'
      rcases Nat.lt_trichotomy i j with hij | hij | hij
      · have e1 := interp_mono h2 h3 (interp_end' hxy hf)
        have e2 := interp_mono h1' (interp_start' (b := b') (a := a') hxy') h3'
        obtain ⟨d, rfl⟩ : ∃ d, j = i + 1 + d := ⟨j - (i + 1), by omega⟩
        have := chain hv d hy hb hx' ha'
        omega
      · subst hij
        rw [hx] at hx'; rw [hy] at hy'; rw [ha] at ha'; rw [hb] at hb'
        injection hx' with hx'; injection hy' with hy'; injection ha' with ha'; injection hb' with hb'
        subst hx' hy' ha' hb'
        exact interp_mono htt h3 h3'
      · have hyx : y' ≤ x := by
          rcases Nat.lt_or_ge (j + 1) i with h | h
          · exact Nat.le_of_lt (dt_lt hv hy' hx h)
          · have : j + 1 = i := by omega
            rw [this, hx] at hy'; injection hy' with hy'; omega
        have e1 : t = x := by omega
        have e2 : t' = y' := by omega
        have e3 : y' = x := by omega
        subst e1 e2
        rw [e3] at hy'
        have e4 := dt_inj hv hy' hx
        rw [e4, ha] at hb'
        injection hb' with hb'
        have e5 := interp_start hxy h3
        have e6 := interp_end hxy' hf' h3'
        omega

theorem value_unique (hv : ValidPlf f.dt f.tt) {t v v' : Nat} (h : PlfValue f.dt f.tt t v) (h' : PlfValue f.dt f.tt t v') : v = v' := by
  have h1 := value_fifo hv h h' (Nat.le_refl _)
  have h2 := value_fifo hv h' h (Nat.le_refl _)
  omega

/-- every value is between two break point values -/
theorem value_between (hv : ValidPlf f.dt f.tt) {t v : Nat} (h : PlfValue f.dt f.tt t v) :
    (∃ a ∈ f.tt, a ≤ v) ∧ (∃ b ∈ f.tt, v ≤ b) := by
  rcases h with ⟨h1, h2⟩ | ⟨i, x, y, a, b, hx, hy, ha, hb, h1, h2, h3⟩
  · exact ⟨⟨v, List.mem_of_getElem? h2, Nat.le_refl _⟩, ⟨v, List.mem_of_getElem? h2, Nat.le_refl _⟩⟩
  · have hxy := dt_lt hv hx hy (by omega)
    have hf := hv.fifo i _ _ _ _ hx hy ha hb
    obtain ⟨h4, h5⟩ := interp_between hxy hf h1 h2 h3
    have ma := List.mem_of_getElem? ha
    have mb := List.mem_of_getElem? hb
    constructor
    · rcases Nat.le_total a b with h | h
      · exact ⟨a, ma, by omega⟩
      · exact ⟨b, mb, by omega⟩
    · rcases Nat.le_total a b with h | h
      · exact ⟨b, mb, by omega⟩
      · exact ⟨a, ma, by omega⟩

theorem tt_small (hv : ValidPlf f.dt f.tt) {a : Nat} (h : a ∈ f.tt) : a < INFINITY := by
  obtain ⟨i, hi⟩ := List.getElem?_of_mem h
  have := (List.getElem?_eq_some_iff.1 hi).1
  obtain ⟨x, hx⟩ := getElem?_ofLt (l := f.dt) (i := i) (by rw [hv.len]; exact this)
  have := hv.small i x a hx hi
  simp only [INFINITY]; omega

theorem value_small (hv : ValidPlf f.dt f.tt) {t v : Nat} (h : PlfValue f.dt f.tt t v) : v < INFINITY := by
  obtain ⟨b, hb, hle⟩ := (value_between hv h).2
  have := tt_small hv hb
  omega

/-- the values at the start and the end of the period are the same -/
theorem value_wrap (hv : ValidPlf f.dt f.tt) : ∃ c, PlfValue f.dt f.tt 0 c ∧ ∀ t v, t ≤ PERIOD → PlfValue f.dt f.tt t v → t + v ≤ PERIOD + c := by
  have hpos := dt_pos hv
  obtain ⟨c, hc⟩ := getElem?_ofLt (l := f.tt) (i := 0) (by rw [← hv.len]; exact hpos)
  refine ⟨c, value_on hv hv.zero hc, ?_⟩
  intro t v ht h
  by_cases h1 : f.dt.length = 1
  · rcases h with ⟨_, h2⟩ | ⟨i, x, y, a, b, hx, hy, _⟩
    · rw [hc] at h2; injection h2 with h2; omega
    · have := (List.getElem?_eq_some_iff.1 hy).1; omega
  · exact value_fifo hv h (value_on hv (last_dt hv h1) (by rw [last_tt hv, hc])) ht

/-! ### The function of all points in time -/

/-- the value at any point in time -/
noncomputable def valAt (f : Fn) (t : Nat) : Nat := @dite _ (∃ v, PlfValue f.dt f.tt (t % PERIOD) v) (Classical.propDecidable _) (fun h => h.choose) (fun _ => 0)

theorem mod_le (t : Nat) : t % PERIOD ≤ PERIOD := Nat.le_of_lt (Nat.mod_lt _ (by simp [PERIOD]))

theorem valAt_spec (hb : BinarySearch bs) (hv : ValidPlf f.dt f.tt) (t : Nat) :
    eval bs f t = some (valAt f t) ∧ PlfValue f.dt f.tt (t % PERIOD) (valAt f t) := by
  obtain ⟨v, h1, h2⟩ := evaluate_spec hb hv (mod_le t)
  have h3 : PlfValue f.dt f.tt (t % PERIOD) (valAt f t) := by
    have hex : ∃ v, PlfValue f.dt f.tt (t % PERIOD) v := ⟨v, h2⟩
    rw [valAt, dif_pos hex]
    exact hex.choose_spec
  refine ⟨?_, h3⟩
  rw [eval, h1, value_unique hv h2 h3]

theorem valAt_fifo (hb : BinarySearch bs) (hv : ValidPlf f.dt f.tt) : Fifo (valAt f) := by
  intro t t' htt
  have h := (valAt_spec hb hv t).2
  have h' := (valAt_spec hb hv t').2
  generalize valAt f t = v at h ⊢
  generalize valAt f t' = v' at h' ⊢
  have hP : 0 < PERIOD := by simp [PERIOD]
  have e := Nat.div_add_mod t PERIOD
  have e' := Nat.div_add_mod t' PERIOD
  have hq : t / PERIOD ≤ t' / PERIOD := Nat.div_le_div_right htt
  have hr := mod_le t
  generalize t / PERIOD = q at *
  generalize t' / PERIOD = q' at *
  generalize t % PERIOD = r at *
  generalize t' % PERIOD = r' at *
  rcases Nat.lt_or_ge q q' with hlt | hge
  · obtain ⟨c, hc, hmax⟩ := value_wrap hv
    have h1 := hmax r v hr h
    have h2 := value_fifo hv hc h' (Nat.zero_le _)
    have h3 : PERIOD * (q + 1) ≤ PERIOD * q' := Nat.mul_le_mul_left _ hlt
    rw [Nat.mul_add] at h3
    omega
  · have : q = q' := by omega
    subst this
    have := value_fifo hv h h' (by omega)
    omega

end

end Verif.Plf
