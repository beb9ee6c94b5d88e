import Verif.Proof.LiveUntil
set_option linter.unusedVariables false
/- C87: from when on arcs are not affected by live traffic. -/
namespace Verif
open Spec LiveUntil

/-- **C87.** For every arc of the hierarchy a time (in milliseconds) is computed. Whoever leaves at that time or later (and not before the current time)
and drives the arc in the way it is unpacked at the time of departure, enters each original edge only after the live report for this edge has ended.
All up to the tolerance `eps` of the comparisons. If the time is not zero, there is a reason for it: some source of the arc that starts before the end
of the last report, and holds until then or longer, contains an original edge whose report ends at that time or later. Nothing panics, and the loops end. This
holds for all orders of the nodes in which parts of arcs come first. -/
theorem C87_valid_from (d : TimedArrays) (n m : Nat) (hn : d.firstOut.length = n + 1) (hm : d.firstOut[n]? = some m) (h0 : d.firstOut[0]? = some 0)
    (hmono : ∀ (i j a b : Nat), i ≤ j → d.firstOut[i]? = some a → d.firstOut[j]? = some b → a ≤ b)
    (src : Bool → Nat → List (Rat × Via)) (hsrc : ∀ up e, e < m → d.sources up e = some (src up e) ∧ SortedSources (src up e))
    (ended : List Nat) (hended : ∀ a ∈ ended, a < U32) (hedges : ∀ up e t o, e < m → (t, Via.edge o) ∈ src up e → o < ended.length)
    (bs : Search) (hbs : SearchesBy bs) (eps : Rat) (heps : 0 ≤ eps) (tLive : Nat)
    (travel : Nat → Rat → Rat → Prop) (htravel : ∀ o t t', travel o t t' → t ≤ t')
    (offset : Nat → Nat) (ho : ∀ (x a : Nat), x < n → d.firstOut[x]? = some a → offset x ≤ a)
    (L : List Nat) (hL : L.Perm (List.range n))
    (hord : ∀ pre x post, L = pre ++ x :: post → ∀ up e, ArcOf d.firstOut x e → ∀ t a b, (t, Via.pair a b) ∈ src up e → ∀ c, c = a ∨ c = b →
      offset x ≤ c ∧ (∀ z, d.firstOut[x]? = some z → c < z) ∧ ∃ y ∈ pre, ArcOf d.firstOut y c) :
    ∃ steps, ∀ fuel, steps ≤ fuel → ∃ r, validFrom bs eps ended tLive fuel d offset L m = some r ∧ r.fw.length = m ∧ r.bw.length = m ∧
      ∀ (up : Bool) (e v : Nat), (if up then r.fw else r.bw)[e]? = some v →
        (∀ t t' log, (tLive : Rat) / 1000 + eps ≤ t → (v : Rat) / 1000 ≤ t → Drive src travel up e t t' log →
          ∀ x ∈ log, ∃ a, ended[x.1]? = some a ∧ (a : Rat) / 1000 ≤ x.2 + eps) ∧
        (0 < v → ∃ i k via a b, EntryHolds (src up e) i k via a b ∧ (∃ z ∈ ended, a < (z : Rat) / 1000 - eps) ∧ (v : Rat) < 1000 * b + 1 ∧
          ∃ o x, Within src via o ∧ ended[o]? = some x ∧ v ≤ x) := by
  obtain ⟨B, hB⟩ : ∃ B, ∀ up e, e < m → (src up e).length ≤ B := by
    refine ⟨((List.range m).map fun e => (src true e).length + (src false e).length).sum, ?_⟩
    intro up e he
    have key : ∀ (l : List Nat) x, x ∈ l → x ≤ l.sum := by
      intro l
      induction l with
      | nil => simp
      | cons y l ih =>
        intro x hx
        rcases List.mem_cons.1 hx with rfl | hx
        · simp
        · have := ih x hx
          simp only [List.sum_cons]; omega
    have := key _ _ (List.mem_map.2 ⟨e, List.mem_range.2 he, rfl⟩ : (src true e).length + (src false e).length ∈
      (List.range m).map fun e => (src true e).length + (src false e).length)
    cases up <;> omega
  refine ⟨B * (longestLive ended + 1) + 1, ?_⟩
  intro fuel hf
  have hin : Input src travel ended eps m bs d fuel := ⟨htravel, hended, heps, hbs, hsrc, hedges, by
    intro up e he
    have := Nat.mul_le_mul_right (longestLive ended + 1) (hB up e he)
    omega⟩
  have hmem : ∀ x, x ∈ L ↔ x < n := fun x => by rw [hL.mem_iff]; simp
  have hzero : ∀ {up : Bool} {e v : Nat}, ((⟨List.replicate m 0, List.replicate m 0⟩ : Times).dir up)[e]? = some v → v = 0 := by
    intro up e v h
    cases up <;> simp only [Times.dir, List.getElem?_replicate] at h <;> split at h <;> simp at h <;> exact h.symm
  have hi : LInv src travel ended ((tLive : Rat) / 1000 + eps) eps m (fun _ e => ∃ x ∈ ([] : List Nat), ArcOf d.firstOut x e)
      ⟨List.replicate m 0, List.replicate m 0⟩ := by
    refine ⟨?_, ?_, ?_, ?_⟩
    · intro up; cases up <;> simp [Times.dir]
    · intro up e v h; rw [hzero h]; decide
    · intro up e v h hpos; rw [hzero h] at hpos; omega
    · rintro up e v ⟨x, hx, _⟩; simp at hx
  obtain ⟨r, k1, k2⟩ := nodes_ok hin hn hm hmono offset ho L [] _ (fun x hx => (hmem x).1 hx) hi (by simpa using hord)
  refine ⟨r, k1, k2.len true, k2.len false, ?_⟩
  intro up e v hv
  have hv' : (r.dir up)[e]? = some v := by cases up <;> simpa [Times.dir] using hv
  have he : e < m := by rw [← k2.len up]; exact (List.getElem?_eq_some_iff.1 hv').1
  have hcov : ∀ k, k ≤ n → ∀ b, d.firstOut[k]? = some b → e < b → ∃ x, x < n ∧ ArcOf d.firstOut x e := by
    intro k
    induction k with
    | zero => intro _ b hb hlt; rw [h0] at hb; injection hb with hb; omega
    | succ k ih =>
      intro hk b hb hlt
      obtain ⟨a, ha⟩ : ∃ a, d.firstOut[k]? = some a := ⟨_, List.getElem?_eq_getElem (by omega)⟩
      by_cases c : e < a
      · exact ih (by omega) a ha c
      · exact ⟨k, by omega, a, b, ha, hb, by omega, hlt⟩
  obtain ⟨x, hx, hxe⟩ := hcov n (Nat.le_refl _) m hm he
  obtain ⟨_, _, q⟩ := k2.done up e v ⟨x, by simpa using (hmem x).2 hx, hxe⟩ hv'
  refine ⟨?_, ?_⟩
  · intro t t' log h1 h2 hd x hx
    obtain ⟨a, g1, g2⟩ := q t t' log h1 (by linarith) hd x hx
    exact ⟨a, g1, by linarith⟩
  · intro hpos
    obtain ⟨i, k, via, a, b, g1, g2, g3, o, z, g4, g5, g6⟩ := k2.why up e v hv' hpos
    refine ⟨i, k, via, a, b, g1, ?_, g3, o, z, g4, g5, g6⟩
    have hlong : longestLive ended ∈ ended ∨ longestLive ended = 0 := by
      have key : ∀ (l : List Nat) (b : Nat), l.foldl max b ∈ l ∨ l.foldl max b = b := by
        intro l
        induction l with
        | nil => intro b; exact .inr rfl
        | cons x l ih =>
          intro b
          rcases ih (max b x) with h | h
          · exact .inl (by simp only [List.foldl_cons, List.mem_cons]; exact .inr h)
          · simp only [List.foldl_cons, List.mem_cons]
            rcases Nat.le_total b x with c | c
            · rw [Nat.max_eq_right c] at h ⊢; exact .inl (.inl h)
            · rw [Nat.max_eq_left c] at h ⊢; exact .inr h
      exact key ended 0
    rcases hlong with h | h
    · exact ⟨_, h, g2⟩
    · have hz : z ≤ longestLive ended := longest_ge _ (List.mem_of_getElem? g5)
      omega

namespace LiveUntilExample

/-- A linear search -/
def bs : Search := fun cmp l =>
  match l.findIdx? (fun x => cmp x == .eq) with
  | some i => .ok i
  | none => .error (l.countP fun x => cmp x == .lt)

theorem bs_ok : SearchesBy bs := by
  intro cmp l hl
  refine ⟨?_, ?_⟩
  · intro i h
    simp only [bs] at h
    split at h
    · rename_i j hj
      injection h with h
      subst h
      obtain ⟨h1, h2, _⟩ := List.findIdx?_eq_some_iff_getElem.1 hj
      exact ⟨l[j], List.getElem?_eq_getElem h1, by simpa using h2⟩
    · simp at h
  · intro i h
    simp only [bs] at h
    split at h
    · simp at h
    · rename_i hnone
      injection h with h
      subst h
      have hne : ∀ x ∈ l, cmp x ≠ .eq := by
        intro x hx hc
        have := List.findIdx?_eq_none_iff.1 hnone x hx
        simp [hc] at this
      clear hnone
      induction l with
      | nil => simp
      | cons x l ih =>
        rw [List.pairwise_cons] at hl
        obtain ⟨i1, i2, i3⟩ := ih hl.2 (fun y hy => hne y (by simp [hy]))
        have hx := hne x (by simp)
        cases hc : cmp x with
        | eq => exact absurd hc hx
        | lt =>
          simp only [List.countP_cons, hc, List.length_cons]
          refine ⟨by simp; exact i1, ?_, ?_⟩
          · intro j y hj hy
            cases j with
            | zero => simp at hy; subst hy; exact hc
            | succ j => exact i2 j y (by simp at hj; omega) (by simpa using hy)
          · intro j y hj hy
            cases j with
            | zero => simp at hj
            | succ j => exact i3 j y (by simp at hj; omega) (by simpa using hy)
        | gt =>
          have hall : ∀ y ∈ l, cmp y = .gt := fun y hy => (hl.1 y hy).2 hc
          have hz : l.countP (fun x => cmp x == .lt) = 0 := by
            rw [List.countP_eq_zero]; intro y hy; simp [hall y hy]
          simp only [List.countP_cons, hc, hz, List.length_cons]
          refine ⟨by simp, by simp, ?_⟩
          intro j y _ hy
          rcases List.mem_cons.1 (List.mem_of_getElem? hy) with rfl | h
          · exact hc
          · exact hall y h

/-- Three nodes with the arcs `0: 0 → 1`, `1: 0 → 2`, `2: 1 → 2`. The last one stands for edge `1` in the morning (from midnight until 10:00) and for
the way over node `0` later. -/
def d : TimedArrays := ⟨[0, 2, 3, 3], [0, 1, 2, 4], [(0, .edge 0), (0, .edge 2), (0, .edge 1), (36000, .pair 0 1)], [0, 1, 2, 3],
  [(0, .edge 0), (0, .edge 2), (0, .edge 1)]⟩

/-- The report for edge `2` ends at 10:30, the one for edge `1` at 12:00, edge `0` has no report. At 9:00, the arc `2` upwards is affected until 10:30:
when edge `1` is, the arc no longer stands for it. -/
example : validFrom bs 0 [0, 43200000, 37800000] 32400000 10 d (fun _ => 0) [0, 1, 2] 3 =
    some ⟨[0, 37800000, 37800000], [0, 37800000, 43200000]⟩ := by decide +kernel

def src (up : Bool) (e : Nat) : List (Rat × Via) := (d.sources up e).getD []

/-- The hypotheses are met. -/
example := C87_valid_from d 3 3 rfl rfl rfl
  (by intro i j a b hij ha hb
      have hi := (List.getElem?_eq_some_iff.1 ha).1
      have hj := (List.getElem?_eq_some_iff.1 hb).1
      simp [d] at hi hj
      have hi : i = 0 ∨ i = 1 ∨ i = 2 ∨ i = 3 := by omega
      have hj : j = 0 ∨ j = 1 ∨ j = 2 ∨ j = 3 := by omega
      rcases hi with rfl | rfl | rfl | rfl <;> rcases hj with rfl | rfl | rfl | rfl <;> simp [d] at ha hb <;> omega)
  src (by
    intro up e he
    have : e = 0 ∨ e = 1 ∨ e = 2 := by omega
    rcases this with rfl | rfl | rfl <;> cases up <;> refine ⟨rfl, ?_, ?_, ?_⟩ <;> simp [src, d, TimedArrays.sources, slice, day] <;> norm_num)
  [0, 43200000, 37800000] (by decide) (by
    intro up e t o he
    have : e = 0 ∨ e = 1 ∨ e = 2 := by omega
    rcases this with rfl | rfl | rfl <;> cases up <;> simp [src, d, TimedArrays.sources, slice] <;> omega)
  bs bs_ok 0 (le_refl _) 32400000 (fun _ t t' => t' = t + 60) (by intro o t t' h; have h : t' = t + 60 := h; linarith)
  (fun _ => 0) (by omega) [0, 1, 2] (by decide)
  (by
    intro pre x post h up e he t a b hab c hc
    obtain ⟨a', b', q1, q2, q3, q4⟩ := he
    have hx : x = 0 ∨ x = 1 ∨ x = 2 := by
      have : x ∈ [0, 1, 2] := by rw [h]; simp
      simpa using this
    rcases hx with rfl | rfl | rfl
    · simp [d] at q1 q2
      subst q1; subst q2
      have : e = 0 ∨ e = 1 := by omega
      rcases this with rfl | rfl <;> cases up <;> revert hab <;> simp [src, d, TimedArrays.sources, slice]
    · simp [d] at q1 q2
      subst q1; subst q2
      have h2 : e = 2 := by omega
      have hpre : 0 ∈ pre := by
        cases pre with
        | nil => simp at h
        | cons p pre => simp at h; simp [h.1.symm]
      have hc2 : c < 2 := by
        subst h2
        cases up <;> revert hab <;> simp [src, d, TimedArrays.sources, slice] <;> omega
      refine ⟨Nat.zero_le _, ?_, 0, hpre, 0, 2, rfl, rfl, by omega, hc2⟩
      intro z hz
      simp [d] at hz
      omega
    · simp [d] at q1 q2
      omega)

end LiveUntilExample
end Verif
