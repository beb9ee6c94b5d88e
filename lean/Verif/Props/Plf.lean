import Verif.Proof.PlfBounds
import Verif.Proof.BitVec
/-
C44 (travel time functions), C45 (bounds in ranges), C46 (live traffic). `bs` is any function that keeps the documentation of
`binary_search`.
-/
namespace Verif
open Spec

/-- C44: evaluation at any point in time succeeds. It yields the value of the function (linear interpolation, rounded down), is
periodic, and lies between the global bounds. -/
theorem C44_eval {bs : List Nat → Nat → Lookup} (hb : BinarySearch bs) {f : Plf.Fn} (hv : ValidPlf f.dt f.tt) (t : Nat) :
    ∃ v lo hi, Plf.eval bs f t = some v ∧ PlfValue f.dt f.tt (t % PERIOD) v
      ∧ Plf.eval bs f (t + PERIOD) = some v
      ∧ Plf.lowerBound f = some lo ∧ Plf.upperBound f = some hi ∧ lo ≤ v ∧ v ≤ hi ∧ lo ∈ f.tt ∧ hi ∈ f.tt := by
  obtain ⟨h1, h2⟩ := Plf.valAt_spec hb hv t
  obtain ⟨⟨a, ha, hale⟩, ⟨b, hb', hble⟩⟩ := Plf.value_between hv h2
  obtain ⟨lo, hlo⟩ := Option.isSome_iff_exists.1 (List.isSome_min?_of_mem ha)
  obtain ⟨hi, hhi⟩ := Option.isSome_iff_exists.1 (List.isSome_max?_of_mem ha)
  obtain ⟨hlo1, hlo2⟩ := List.min?_eq_some_iff.1 hlo
  obtain ⟨hhi1, hhi2⟩ := List.max?_eq_some_iff.1 hhi
  refine ⟨Plf.valAt f t, lo, hi, h1, h2, ?_, hlo, hhi, ?_, ?_, hlo1, hhi1⟩
  · rw [(Plf.valAt_spec hb hv (t + PERIOD)).1, Plf.valAt_period]
  · have := hlo2 a ha; omega
  · have := hhi2 b hb'; omega

/-- C44: at a break point the value is that of the break point. -/
theorem C44_breakpoint {bs : List Nat → Nat → Lookup} (hb : BinarySearch bs) {f : Plf.Fn} (hv : ValidPlf f.dt f.tt) {i x a : Nat}
    (hx : f.dt[i]? = some x) (ha : f.tt[i]? = some a) : Plf.eval bs f x = some a := by
  rw [(Plf.valAt_spec hb hv x).1, Plf.val_of_value hb hv (Plf.dt_le_period hv hx) (Plf.value_on hv hx ha)]

/-- C44: the value at a point in time is unique, so `PlfValue` defines a function. -/
theorem C44_value_unique {f : Plf.Fn} (hv : ValidPlf f.dt f.tt) {t v v' : Nat} (h : PlfValue f.dt f.tt t v) (h' : PlfValue f.dt f.tt t v') :
    v = v' := Plf.value_unique hv h h'

/-- C44: leaving later never means arriving earlier, also across periods. -/
theorem C44_fifo {bs : List Nat → Nat → Lookup} (hb : BinarySearch bs) {f : Plf.Fn} (hv : ValidPlf f.dt f.tt) {t t' v v' : Nat}
    (htt : t ≤ t') (h : Plf.eval bs f t = some v) (h' : Plf.eval bs f t' = some v') : t + v ≤ t' + v' := by
  rw [(Plf.valAt_spec hb hv t).1] at h
  rw [(Plf.valAt_spec hb hv t').1] at h'
  injection h with h
  injection h' with h'
  have := Plf.valAt_fifo hb hv t t' htt
  omega

/-- Break points as in the input files, the first one at 0: increasing departures within the period, arrivals that do not decrease,
also from the last break point to the first one of the next day. -/
structure RawPlf (f : Plf.Fn) : Prop where
  len : f.dt.length = f.tt.length
  zero : f.dt[0]? = some 0
  mono : f.dt.Pairwise (· < ·)
  within : ∀ x ∈ f.dt, x < PERIOD
  fifo : ∀ (i x y a b : Nat), f.dt[i]? = some x → f.dt[i + 1]? = some y → f.tt[i]? = some a → f.tt[i + 1]? = some b → x + a ≤ y + b
  wrap : ∀ (x a c : Nat), f.dt.getLast? = some x → f.tt.getLast? = some a → f.tt[0]? = some c → x + a ≤ PERIOD + c
  small : ∀ a ∈ f.tt, PERIOD + a < 2147483647

/-- C44: the graph's constructor makes such input valid, with the same values at the break points. -/
theorem C44_normalize {f : Plf.Fn} (h : RawPlf f) : ∃ g, Plf.normalize f = some g ∧ ValidPlf g.dt g.tt ∧
    ∀ (i x a : Nat), f.dt[i]? = some x → f.tt[i]? = some a → g.dt[i]? = some x ∧ g.tt[i]? = some a := by
  have hpos : 0 < f.dt.length := (List.getElem?_eq_some_iff.1 h.zero).1
  obtain ⟨c, hc⟩ : ∃ c, f.tt[0]? = some c := ⟨f.tt[0]'(by rw [← h.len]; exact hpos), List.getElem?_eq_getElem _⟩
  by_cases h1 : 1 < f.dt.length
  · obtain ⟨l, hl⟩ : ∃ l, f.dt.getLast? = some l := by
      rw [List.getLast?_eq_getElem?]; exact ⟨_, List.getElem?_eq_getElem (by omega)⟩
    obtain ⟨al, hal⟩ : ∃ l, f.tt.getLast? = some l := by
      rw [List.getLast?_eq_getElem?]; exact ⟨_, List.getElem?_eq_getElem (by rw [← h.len]; omega)⟩
    have hlP := h.within l (List.mem_of_getLast? hl)
    have hlne : l ≠ PERIOD := by omega
    have hgd : ∀ i x : Nat, f.dt[i]? = some x → (f.dt ++ [PERIOD])[i]? = some x := by
      intro i x hx
      rw [List.getElem?_append_left (List.getElem?_eq_some_iff.1 hx).1]; exact hx
    have hgt : ∀ i a : Nat, f.tt[i]? = some a → (f.tt ++ [c])[i]? = some a := by
      intro i a ha
      rw [List.getElem?_append_left (List.getElem?_eq_some_iff.1 ha).1]; exact ha
    refine ⟨⟨f.dt ++ [PERIOD], f.tt ++ [c]⟩, ?_, ?_, fun i x a hx ha => ⟨hgd i x hx, hgt i a ha⟩⟩
    · simp only [Plf.normalize, h.zero, hc, Option.bind_eq_bind, Option.bind_some, h1, if_true, Option.pure_def]
      simp [hl, hlne]
    · refine ⟨by simp [h.len], hgd 0 0 h.zero, ?_, Or.inr (by simp), ?_, ?_, ?_⟩
      · rw [List.getLast?_concat, hgt 0 c hc]
      · rw [List.pairwise_append]
        refine ⟨h.mono, by simp, ?_⟩
        intro a ha b hb
        simp at hb; subst hb
        exact h.within a ha
      · intro i x y a b hx hy ha hb
        have hi := (List.getElem?_eq_some_iff.1 hy).1
        simp at hi
        have hxo : f.dt[i]? = some x := by
          rwa [List.getElem?_append_left (by omega)] at hx
        have hao : f.tt[i]? = some a := by
          rwa [List.getElem?_append_left (by rw [← h.len]; omega)] at ha
        by_cases h2 : i + 1 < f.dt.length
        · rw [List.getElem?_append_left h2] at hy
          rw [List.getElem?_append_left (by rw [← h.len]; exact h2)] at hb
          exact h.fifo i x y a b hxo hy hao hb
        · have e : i + 1 = f.dt.length := by omega
          rw [e, List.getElem?_concat_length] at hy
          rw [e, h.len, List.getElem?_concat_length] at hb
          injection hy with hy
          injection hb with hb
          have := h.wrap x a c (by rw [List.getLast?_eq_getElem?, ← e]; exact hxo) (by rw [List.getLast?_eq_getElem?, ← h.len, ← e]; exact hao) hc
          omega
      · intro i x a hx ha
        have hxP : x ≤ PERIOD := by
          rcases List.mem_append.1 (List.mem_of_getElem? hx) with h3 | h3
          · exact Nat.le_of_lt (h.within x h3)
          · simp at h3; omega
        have hal' : a ∈ f.tt := by
          rcases List.mem_append.1 (List.mem_of_getElem? ha) with h3 | h3
          · exact h3
          · simp at h3; subst h3; exact List.mem_of_getElem? hc
        have := h.small a hal'
        omega
  · have e : f.dt.length = 1 := by omega
    obtain ⟨x0, hx0⟩ := List.length_eq_one_iff.1 e
    obtain ⟨a0, ha0⟩ := List.length_eq_one_iff.1 (h.len ▸ e)
    have hx00 : x0 = 0 := by have := h.zero; rw [hx0] at this; simpa using this
    have hcc : c = a0 := by rw [ha0] at hc; simpa using hc.symm
    have hsm := h.small a0 (by rw [ha0]; simp)
    refine ⟨⟨[0], [c]⟩, ?_, ⟨rfl, rfl, rfl, Or.inl rfl, by simp, ?_, ?_⟩, ?_⟩
    · simp [Plf.normalize, hx0, hc]
    · intro i x y a b hx hy; simp at hy
    · intro i x a hx ha
      cases i with
      | zero => simp at hx ha; simp only [PERIOD] at hsm; omega
      | succ i => simp at hx
    · intro i x a hx ha
      rw [ha0] at ha
      rw [hx0] at hx
      cases i with
      | zero => simp at hx ha; simp [← hx, ← ha, hx00, hcc]
      | succ i => simp at hx

/-- C44 for input whose first break point is not at 0 is false: the constructor puts the first travel time at 0 and at the end of the
period. The function with break points 6:00 (2 h) and 20:00 (10 h) keeps FIFO on every day, but the result does not: who leaves at
20:00 arrives 4 h after who leaves at the end of the day, and evaluation after 20:00 fails (it wraps around in release builds). -/
theorem C44_normalize_moves_points :
    ∃ f g : Plf.Fn, f.dt = [21600000, 72000000] ∧ f.tt = [7200000, 36000000]
      ∧ 72000000 + 36000000 ≤ PERIOD + 21600000 + 7200000
      ∧ Plf.normalize f = some g ∧ ¬ ValidPlf g.dt g.tt
      ∧ ∀ bs, BinarySearch bs → Plf.eval bs g 80000000 = none := by
  refine ⟨⟨[21600000, 72000000], [7200000, 36000000]⟩, ⟨[0, 21600000, 72000000, 86400000], [7200000, 7200000, 36000000, 7200000]⟩, rfl, rfl,
    by simp [PERIOD], by decide +kernel, ?_, ?_⟩
  · intro h
    have := h.fifo 2 72000000 86400000 36000000 7200000 rfl rfl rfl rfl
    omega
  · intro bs hb
    have hv := hb [0, 21600000, 72000000, 86400000] 80000000 (by simp)
    have hbs : bs [0, 21600000, 72000000, 86400000] 80000000 = .err 3 := by
      cases h : bs [0, 21600000, 72000000, 86400000] 80000000 with
      | ok i =>
        rw [h] at hv
        have := List.mem_of_getElem? hv
        simp at this
      | err i =>
        rw [h] at hv
        obtain ⟨h1, h2, h3, h4⟩ := hv
        have : i = 3 := by
          rcases Nat.lt_trichotomy i 3 with h5 | h5 | h5
          · have := h4 2 72000000 rfl (by omega); omega
          · exact h5
          · have := h3 3 86400000 rfl h5; omega
        rw [this]
    have e : Plf.locate bs [0, 21600000, 72000000, 86400000] 80000000 = some (.between 2 3) := by
      simp [Plf.locate, PERIOD, hbs, Plf.locOf]
    have a7 : Plf.interpolate 72000000 36000000 86400000 7200000 80000000 = none := by decide +kernel
    have a8 : 80000000 % PERIOD = 80000000 := by decide +kernel
    rw [Plf.eval, a8, Plf.evaluate_between (by decide) e rfl rfl rfl rfl, a7]

/-- C45: the lower bound in a range is the minimum of the function over the range, both ends included. The range is not empty and ends
within the next period (or begins at 0, or lies within one period). -/
theorem C45_lower_bound_in_range {bs : List Nat → Nat → Lookup} (hb : BinarySearch bs) {f : Plf.Fn} (hv : ValidPlf f.dt f.tt) {a b : Nat}
    (hab : a < b) (hr : b < 2 * PERIOD ∨ a = 0 ∨ a / PERIOD = b / PERIOD) :
    ∃ r, Plf.lowerInRange bs f a b = some r
      ∧ (∀ t v, a ≤ t → t ≤ b → Plf.eval bs f t = some v → r ≤ v)
      ∧ ∃ t, a ≤ t ∧ t ≤ b ∧ Plf.eval bs f t = some r := by
  obtain ⟨r, h1, h2, t, h3, h4, h5⟩ := Plf.lowerInRange_spec hb hv hab hr
  refine ⟨r, h1, ?_, t, h3, h4, by rw [(Plf.valAt_spec hb hv t).1, h5]⟩
  intro t v ha hb' hev
  rw [(Plf.valAt_spec hb hv t).1] at hev
  injection hev with hev
  rw [← hev]; exact h2 t ha hb'

/-- C45 for upper bounds is false: on every function with more than one break point, `upper_bound_in_range` never returns less than
`INFINITY`, which no value of the function reaches. -/
theorem C45_upper_bound_never_attained {bs : List Nat → Nat → Lookup} (hb : BinarySearch bs) {f : Plf.Fn} (hv : ValidPlf f.dt f.tt)
    (h1 : f.dt.length ≠ 1) {a b r : Nat} (h : Plf.upperInRange bs f a b = some r) :
    INFINITY ≤ r ∧ ∀ t v, Plf.eval bs f t = some v → v < r := by
  have h2 := Plf.upperInRange_infinity hb hv h1 h
  refine ⟨h2, ?_⟩
  intro t v hev
  rw [(Plf.valAt_spec hb hv t).1] at hev
  injection hev with hev
  have := Plf.valAt_small hb hv t
  omega

/-- a travel time function with a rush hour: 1 h, and 2 h at noon -/
def rushHour : Plf.Fn := ⟨[0, 36000000, 43200000, 54000000, 86400000], [3600000, 3600000, 7200000, 3600000, 3600000]⟩

theorem rushHour_valid : ValidPlf rushHour.dt rushHour.tt := by
  refine ⟨rfl, rfl, rfl, Or.inr rfl, by simp [rushHour], ?_, ?_⟩
  · intro i x y a b hx hy ha hb
    have : i < 4 := by have := (List.getElem?_eq_some_iff.1 hy).1; simp [rushHour] at this; omega
    rcases (by omega : i = 0 ∨ i = 1 ∨ i = 2 ∨ i = 3) with rfl | rfl | rfl | rfl <;> simp [rushHour] at hx hy ha hb <;> omega
  · intro i x a hx ha
    have : i < 5 := by have := (List.getElem?_eq_some_iff.1 hx).1; simp [rushHour] at this; omega
    rcases (by omega : i = 0 ∨ i = 1 ∨ i = 2 ∨ i = 3 ∨ i = 4) with rfl | rfl | rfl | rfl | rfl <;> simp [rushHour] at hx ha <;> omega

example : Plf.eval Bits.stdSearch rushHour 40000000 = some 5600000 := by decide +kernel

example : Plf.eval Bits.stdSearch rushHour (40000000 + 3 * PERIOD) = some 5600000 := by decide +kernel

example : Plf.lowerInRange Bits.stdSearch rushHour 40000000 50000000 = some 4933333 := by decide +kernel

/-- C45 needs the condition on the end: a range from shortly before the rush hour of one day to the end of the next day gives a
bound that the function falls below. -/
theorem C45_needs_short_range : ∃ r v, Plf.lowerInRange Bits.stdSearch rushHour (43200000 + PERIOD) (2 * PERIOD) = some r
    ∧ Plf.eval Bits.stdSearch rushHour (2 * PERIOD) = some v ∧ v < r :=
  ⟨INFINITY, 3600000, by decide +kernel, by decide +kernel, by decide⟩

/-- C46: live traffic (`LiveTDGraph`) keeps FIFO. Live value plus switch time fit a `u32`. -/
theorem C46_live_fifo {bs : List Nat → Nat → Lookup} (hb : BinarySearch bs) {f : Plf.Fn} (hv : ValidPlf f.dt f.tt) (soon : Nat) (live : Option Nat)
    (hls : ∀ l, live = some l → l + soon < 4294967296) (t t' : Nat) (htt : t ≤ t') :
    ∃ v v', Plf.evalLive bs f soon live t = some v ∧ Plf.evalLive bs f soon live t' = some v' ∧ t + v ≤ t' + v' := by
  cases live with
  | none =>
    refine ⟨_, _, ?_, ?_, Plf.valAt_fifo hb hv t t' htt⟩
    · simp only [Plf.evalLive, (Plf.valAt_spec hb hv t).1, Option.bind_eq_bind, Option.bind_some, Option.pure_def]
    · simp only [Plf.evalLive, (Plf.valAt_spec hb hv t').1, Option.bind_eq_bind, Option.bind_some, Option.pure_def]
  | some l =>
    have h := hls l rfl
    exact ⟨_, _, Plf.evalLive_spec hb hv h t, Plf.evalLive_spec hb hv h t', Plf.liveAt_fifo hb hv h t t' htt⟩

/-- C46: what live traffic means before the switch, and that far in the future only the prediction counts. -/
theorem C46_live_value {bs : List Nat → Nat → Lookup} (hb : BinarySearch bs) {f : Plf.Fn} (hv : ValidPlf f.dt f.tt) {soon l : Nat}
    (hls : l + soon < 4294967296) (t : Nat) :
    (t < soon → Plf.evalLive bs f soon (some l) t = some l)
    ∧ (soon + INFINITY ≤ t → t + l < 4294967296 → l ≤ INFINITY → Plf.evalLive bs f soon (some l) t = Plf.eval bs f t) := by
  rw [Plf.evalLive_spec hb hv hls, (Plf.valAt_spec hb hv t).1]
  have hsm := Plf.valAt_small hb hv t
  constructor
  · intro h; rw [Plf.liveAt, if_pos h]
  · intro h h2 h3
    rw [Plf.liveAt, if_neg (by omega)]
    by_cases c : Plf.valAt f soon < l
    · rw [if_pos c]; congr 1; omega
    · rw [if_neg c]; congr 1; simp only [satAdd, U32]; omega

/-- C46: pessimistic live traffic keeps FIFO and never lies below the prediction; after the switch it is the prediction. -/
theorem C46_pessimistic_fifo {bs : List Nat → Nat → Lookup} (hb : BinarySearch bs) {f : Plf.Fn} (hv : ValidPlf f.dt f.tt)
    (live : Option (Nat × Nat)) (hs : ∀ l soon, live = some (l, soon) → soon ≤ INFINITY) (t t' : Nat) (htt : t ≤ t') :
    ∃ v v' p, Plf.evalPess bs f live t = some v ∧ Plf.evalPess bs f live t' = some v' ∧ t + v ≤ t' + v'
      ∧ Plf.eval bs f t = some p ∧ p ≤ v ∧ (∀ l soon, live = some (l, soon) → soon ≤ t → v = p) := by
  refine ⟨_, _, _, Plf.evalPess_spec hb hv live t, Plf.evalPess_spec hb hv live t', Plf.pessAt_fifo hb hv hs t t' htt,
    (Plf.valAt_spec hb hv t).1, ?_, ?_⟩
  · cases live with
    | none => exact Nat.le_refl _
    | some p =>
      obtain ⟨l, soon⟩ := p
      simp only [Plf.pessAt]
      split
      · exact Nat.le_refl _
      · omega
  · rintro l soon rfl h
    simp only [Plf.pessAt, h, if_true]

/-- C46: the upper bound for departures from `now` on is never exceeded. -/
theorem C46_pessimistic_upper_bound {bs : List Nat → Nat → Lookup} (hb : BinarySearch bs) {f : Plf.Fn} (hv : ValidPlf f.dt f.tt)
    (live : Option (Nat × Nat)) (hs : ∀ l soon, live = some (l, soon) → soon ≤ INFINITY) (now t : Nat) (hnow : now ≤ t) :
    ∃ u v, Plf.upperPess bs f live now = some u ∧ Plf.evalPess bs f live t = some v ∧ v ≤ u := by
  obtain ⟨p, lo, hi, h1, _, _, _, h4, _, h6, _, _⟩ := C44_eval hb hv t
  rw [(Plf.valAt_spec hb hv t).1] at h1
  injection h1 with h1
  refine ⟨max hi (min ((live.map Prod.fst).getD 0) (Plf.pessAt f live now)), Plf.pessAt f live t, by simp only [Plf.upperPess, h4, Plf.evalPess_spec hb hv live now, Option.bind_eq_bind, Option.bind_some, Option.pure_def],
    Plf.evalPess_spec hb hv live t, ?_⟩
  cases live with
  | none => simp only [Plf.pessAt]; omega
  | some q =>
    obtain ⟨l, soon⟩ := q
    have hso := hs l soon rfl
    simp only [Plf.pessAt, Option.map_some, Option.getD_some]
    by_cases c : soon ≤ t
    · rw [if_pos c]; omega
    · rw [if_neg c, if_neg (by omega : ¬ soon ≤ now), Plf.satAdd_val hb hv hso, Plf.satAdd_val hb hv hso]; omega

/-- C46: the lower bound for departures from `now` to `until_` is a lower bound if the live value is given up after `until_`, or if there is no
live value, or if the live value is not below the result. -/
theorem C46_live_lower_bound_partial {bs : List Nat → Nat → Lookup} (hb : BinarySearch bs) {f : Plf.Fn} (hv : ValidPlf f.dt f.tt)
    (live : Option (Nat × Nat)) (now until_ r : Nat) (hnu : now < until_) (hu : until_ < 2 * PERIOD)
    (hs : ∀ l soon, live = some (l, soon) → soon ≤ INFINITY ∧ soon ≠ until_ ∧ (soon < until_ → r ≤ l))
    (h : Plf.liveLower bs f live now until_ = some r) (t : Nat) (h1 : now ≤ t) (h2 : t ≤ until_) :
    ∃ v, Plf.evalPess bs f live t = some v ∧ r ≤ v := by
  refine ⟨_, Plf.evalPess_spec hb hv live t, ?_⟩
  cases live with
  | none =>
    obtain ⟨r', h3, h4, _⟩ := Plf.lowerInRange_spec hb hv hnu (Or.inl hu)
    simp only [Plf.liveLower, h3] at h
    injection h with h
    rw [← h]; exact h4 t h1 h2
  | some q =>
    obtain ⟨l, soon⟩ := q
    obtain ⟨h3, h4, h5⟩ := hs l soon rfl
    simp only [Plf.liveLower] at h
    by_cases c : soon ≤ until_
    · rw [if_pos c] at h
      obtain ⟨r', h6, h7, _⟩ := Plf.lowerInRange_spec hb hv (by omega : soon < until_) (Or.inl hu)
      rw [h6] at h
      injection h with h
      subst h
      have h8 := h5 (by omega)
      simp only [Plf.pessAt]
      by_cases c2 : soon ≤ t
      · rw [if_pos c2]; exact h7 t c2 h2
      · rw [if_neg c2, Plf.satAdd_val hb hv h3]
        have := h7 soon (Nat.le_refl _) c
        omega
    · rw [if_neg c] at h
      simp only [(Plf.valAt_spec hb hv soon).1, Option.bind_eq_bind, Option.bind_some, Option.pure_def] at h
      injection h with h
      rw [Plf.satAdd_val hb hv h3] at h
      simp only [Plf.pessAt]
      rw [if_neg (by omega), Plf.satAdd_val hb hv h3]
      omega

/-- C46 for the lower bound in general is false: at 10:00 the predicted time is 1 h, live traffic says 1.5 h until noon, when 2 h are
predicted. The bound for departures between 10:00 and 12:30 is more than the travel time at 10:00. -/
theorem C46_live_lower_bound_wrong : ∃ r v, Plf.liveLower Bits.stdSearch rushHour (some (5400000, 43200000)) 36000000 45000000 = some r
    ∧ Plf.evalPess Bits.stdSearch rushHour (some (5400000, 43200000)) 36000000 = some v ∧ v < r :=
  ⟨6600000, 5400000, by decide +kernel, by decide +kernel, by decide⟩

/-- C46: nor is it a bound if live traffic ends exactly at the end of the range: the result is `INFINITY`. -/
theorem C46_live_lower_bound_at_end : ∃ v, Plf.liveLower Bits.stdSearch rushHour (some (5400000, 43200000)) 36000000 43200000 = some INFINITY
    ∧ Plf.evalPess Bits.stdSearch rushHour (some (5400000, 43200000)) 36000000 = some v ∧ v < INFINITY :=
  ⟨5400000, by decide +kernel, by decide +kernel, by decide⟩

example : Plf.evalPess Bits.stdSearch rushHour (some (5400000, 43200000)) 36000000 = some 5400000 ∧
    Plf.upperPess Bits.stdSearch rushHour (some (INFINITY, 43200000)) 30000000 = some 20400000 := by decide +kernel

example : Plf.evalLive Bits.stdSearch rushHour 43200000 (some 5400000) 50000000 = some 4933333 := by decide +kernel

end Verif
