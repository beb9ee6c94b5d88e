import Verif.Proof.Average
import Verif.Props.TdDijkstra
/-
C70: averages of travel time functions over a window, and the server for time-dependent sampling.
-/
namespace Verif

open Spec Plf

/-- For a function with at least two break points and a window that does not wrap around midnight the average exists and lies
between any bounds of the values at the break points that bound the parts of the window (those within the window, the last one
before and the first one behind it).  Missing: constant functions with one break point, windows that wrap around midnight, and
bounds of the function within the window, see the theorems below. -/
theorem C70_average_partial {bs : List Nat → Nat → Lookup} (hbs : BinarySearch bs) {f : Fn} (hv : ValidPlf f.dt f.tt)
    (h1 : f.dt.length ≠ 1) {a b : Nat} (hab : a < b) (hb : b < PERIOD) :
    ∃ w, average bs f a b = some w ∧ ∀ lo hi : Nat,
      (∀ (i x u : Nat), f.dt[i]? = some x → f.tt[i]? = some u → (∀ y ∈ f.dt, x < y → a < y) → (∀ y ∈ f.dt, y < x → y < b) →
        lo ≤ u ∧ u ≤ hi) → lo ≤ w ∧ w ≤ hi := by
  obtain ⟨l, h2, h3, h4⟩ := segs_spec hbs hv h1 hab (Nat.le_of_lt hb)
  have hsmall : ∀ (i u : Nat), f.tt[i]? = some u → u ≤ 2147483647 := by
    intro i u hu
    have hi := (List.getElem?_eq_some_iff.1 hu).1
    obtain ⟨x, hx⟩ := getElem?_ofLt (l := f.dt) (i := i) (by rw [hv.len]; exact hi)
    have := hv.small i x u hx hu
    omega
  have hmod : (l.map (fun s => s.1 * s.2.2 + s.2.1 * s.2.2)).sum / 2 / (b - a) < U32 := by
    have := (sum_bounds 0 2147483647 l (fun s hs => by
      obtain ⟨⟨i, x, _, h5, _⟩, j, y, _, h6, _⟩ := h4 s hs
      exact ⟨⟨by omega, hsmall i _ h5⟩, by omega, hsmall j _ h6⟩)).2
    rw [h3] at this
    rw [Nat.div_div_eq_div_mul, Nat.div_lt_iff_lt_mul (by omega)]
    have e : 2 * 2147483647 * (b - a) = 2147483647 * (2 * (b - a)) := by omega
    simp only [U32]
    omega
  have hval : average bs f a b = some ((l.map (fun s => s.1 * s.2.2 + s.2.1 * s.2.2)).sum / 2 / (b - a)) := by
    have hs : sub32 b a = some (b - a) := by rw [sub32, if_pos (by omega)]
    have hsp : split a b PERIOD = ((a, b), (PERIOD, PERIOD)) := by rw [split, if_neg (by omega), if_pos (by omega)]
    simp only [average, if_neg (show ¬ b ≤ a by omega), hs, Option.bind_eq_bind, Option.bind_some, hsp, h2, segs_empty, List.append_nil,
      if_neg (show ¬ b - a = 0 by omega), Option.pure_def, Nat.mod_eq_of_lt hmod]
  refine ⟨_, hval, ?_⟩
  intro lo hi h
  obtain ⟨h5, h6⟩ := sum_bounds lo hi l (fun s hs => by
    obtain ⟨⟨i, x, hx, h5, h6, h7⟩, j, y, hy, h8, h9, h10⟩ := h4 s hs
    exact ⟨h i x _ hx h5 h6 h7, h j y _ hy h8 h9 h10⟩)
  rw [h3] at h5 h6
  rw [Nat.div_div_eq_div_mul]
  constructor
  · rw [Nat.le_div_iff_mul_le (by omega)]
    rw [show lo * (2 * (b - a)) = 2 * lo * (b - a) by rw [← Nat.mul_assoc, Nat.mul_comm lo 2]]
    exact h5
  · apply Nat.le_of_lt_succ
    rw [Nat.div_lt_iff_lt_mul (by omega)]
    rw [show Nat.succ hi * (2 * (b - a)) = 2 * hi * (b - a) + 2 * (b - a) by
      rw [Nat.succ_mul, ← Nat.mul_assoc, Nat.mul_comm hi 2]]
    omega

/-- Every window that wraps around midnight makes `average` panic, for every function: the part behind midnight is looked up
behind the end of the period. -/
theorem C70_wrapping_panics {bs : List Nat → Nat → Lookup} (hbs : BinarySearch bs) {f : Fn} (hv : ValidPlf f.dt f.tt)
    {a b : Nat} (ha : a < PERIOD) (hb0 : 0 < b) (hba : b ≤ a) : average bs f a b = none := by
  have hs : sub32 (b + PERIOD) a = some (b + PERIOD - a) := by rw [sub32, if_pos (by omega)]
  have hsp : split a (b + PERIOD) PERIOD = ((a, PERIOD), (PERIOD, b + PERIOD)) := by
    rw [split, if_neg (by omega), if_neg (by omega)]
  simp only [average, if_pos hba, hs, Option.bind_eq_bind, Option.bind_some, hsp, segs_beyond hbs hv (show PERIOD < b + PERIOD by omega)]
  cases segs bs f a PERIOD <;> rfl

/-- The server for time-dependent sampling cannot be created for any graph with at least one arc, whatever the hierarchy is: the
window from 22 to 5 o'clock panics. -/
theorem C70_sampling_server_panics {bs : List Nat → Nat → Lookup} (hbs : BinarySearch bs) {g : TD.Graph} (hg : g.Valid)
    (harc : g.head ≠ []) (c : CCH.Cch) : Sampling.serverNew bs g c = none := by
  obtain ⟨n, hn⟩ : ∃ n, g.head.length = n + 1 := ⟨g.head.length - 1, by have := List.length_pos_iff.2 harc; omega⟩
  have h0 : (do Plf.average bs (← g.ttf 0) (22 * (PERIOD / 24)) (5 * (PERIOD / 24))) = none := by
    cases h : g.ttf 0 with
    | none => rfl
    | some f =>
      obtain ⟨f', hf, hvf⟩ := hg.ttf 0 (by omega)
      rw [h] at hf
      injection hf with hf
      subst hf
      simp only [Option.bind_eq_bind, Option.bind_some]
      exact C70_wrapping_panics hbs hvf (by simp [PERIOD]) (by simp [PERIOD]) (by simp [PERIOD])
  have hm : Sampling.metric bs g (22, 5) = none := by
    rw [Sampling.metric, hn, List.range_succ_eq_map, List.mapM_cons, h0]
    rfl
  simp only [Sampling.serverNew, Sampling.windows, List.mapM_cons, hm]
  rfl

namespace AverageEx

/-- Ten minutes, rising to 100 minutes between 6 and 8 o'clock and falling until 10 o'clock. -/
def f : Fn := ⟨[0, 21600000, 28800000, 36000000, 86400000], [600000, 600000, 6000000, 600000, 600000]⟩

/-- one break point -/
def const : Fn := ⟨[0], [600000]⟩

theorem f_valid : ValidPlf f.dt f.tt where
  len := rfl
  zero := rfl
  last := by decide
  period := by decide
  mono := by decide
  fifo := by
    intro i x y a b
    rcases i with _ | _ | _ | _ | _ | _ | i <;> simp [f] <;> omega
  small := by
    intro i x a
    rcases i with _ | _ | _ | _ | _ | _ | i <;> simp [f] <;> omega

example : BinarySearch Bits.stdSearch ∧ ValidPlf f.dt f.tt ∧ f.dt.length ≠ 1 := ⟨Bits.stdSearch_spec.1, f_valid, by decide⟩

/-- with windows at break points -/
example : average Bits.stdSearch f 21600000 36000000 = some 3300000 := by decide +kernel

example : exTD.head ≠ [] := by decide

end AverageEx

/-- The average over a window can be larger than every value of the function within the window (values at the ends of a segment are
used for any part of it), and constant functions with one break point make it panic. -/
theorem C70_average_wrong :
    (average Bits.stdSearch AverageEx.f 21600000 21700000 = some 3300000 ∧
      ∀ t v : Nat, 21600000 ≤ t → t ≤ 21700000 → PlfValue AverageEx.f.dt AverageEx.f.tt t v → v ≤ 675000) ∧
    average Bits.stdSearch AverageEx.const 21600000 36000000 = none := by
  refine ⟨⟨by decide +kernel, ?_⟩, by decide +kernel⟩
  intro t v h1 h2 h
  rcases h with ⟨h, _⟩ | ⟨i, x, y, a, b, hx, hy, ha, hb, h3, h4, h5, h6⟩
  · simp [AverageEx.f] at h
  · rcases i with _ | _ | _ | _ | _ | i <;> simp [AverageEx.f] at hx hy ha hb <;> subst hx hy ha hb <;> omega

end Verif
