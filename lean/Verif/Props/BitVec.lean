import Verif.Proof.RankSelect
/- Properties C06 - C09: bit vectors, rank maps and their inversion. -/
namespace Verif
open Spec Bits

/-- every index mentioned in the history is below `n` -/
def InRange (n : Nat) (ops : List SetOp) : Prop := ∀ op ∈ ops, ∀ i, op.index = some i → i < n

/-! ### C06 -/

theorem setAfter_lt {n : Nat} (ops : List SetOp) (h : InRange n ops) (hall : SetOp.insertAll ∉ ops) (j : Nat) (hj : n ≤ j) :
    setAfter ops j = false := by
  suffices ∀ s : IdxSet, s j = false → ops.foldl SetOp.apply s j = false from this _ rfl
  intro s hs
  induction ops generalizing s with
  | nil => exact hs
  | cons op ops ih =>
    refine ih (fun o ho => h o (by simp [ho])) (fun ho => hall (by simp [ho])) _ ?_
    cases op with
    | insert i =>
      have := h (.insert i) (by simp) i rfl
      have hne : ¬ j = i := by omega
      simp [SetOp.apply, hs, hne]
    | remove i => simp [SetOp.apply, hs]
    | removeWord i => simp [SetOp.apply, hs]
    | removeAll => simp [SetOp.apply]
    | insertAll => exact absurd (by simp) hall

/-- **C06.** After any history the bit vector answers like the set of indices the history describes; an index beyond the length is
refused, when changing and when reading. The number of ones is the number of elements, unless `set_all` has filled a last word that
is only partly used. -/
theorem C06_bit_vector_is_a_set (n : Nat) (ops : List SetOp) :
    (InRange n ops → ∃ b, (BitVec.new n).run ops = some b ∧ b.len = n ∧
      (∀ i, b.get i = if i < n then some (setAfter ops i) else none) ∧
      (SetOp.insertAll ∉ ops ∨ n % 64 = 0 → b.countOnes = (setAfter ops).below n)) ∧
    (¬ InRange n ops → (BitVec.new n).run ops = none) := by
  have hrun := (BitVec.new_ok n).run (fun _ => false) (fun j hj => by
    simp only [BitVec.new, bit, List.getD_eq_getElem?_getD, List.getElem?_replicate]; split <;> simp) ops
  constructor
  · intro hr
    obtain ⟨b, h1, h2, h3, h4⟩ := hrun.1 hr
    have hsz : b.size = n := h3
    have hl := h2.len
    have hbit : ∀ j < n, bit b.data j = setAfter ops j := fun j hj => h4 j (by omega)
    refine ⟨b, h1, hsz, ?_, ?_⟩
    · intro i
      rw [h2.get, hsz]
      by_cases hi : i < n
      · simp only [hi, if_true, hbit i hi]
      · simp [hi]
    · intro hc
      rw [b.countOnes_eq, below_eq, ← cnt_congr hbit]
      refine cnt_false (by omega) (fun j h5 h6 => ?_)
      rcases hc with hc | hc
      · rw [h4 j h6]; exact setAfter_lt ops hr hc j h5
      · omega
  · intro hr
    apply hrun.2
    simp only [InRange] at hr
    have : ∃ op ∈ ops, ¬ ∀ i, op.index = some i → i < n := by simpa using hr
    obtain ⟨op, ho, hi⟩ := this
    have : ∃ i, ¬ (op.index = some i → i < n) := by simpa using hi
    obtain ⟨i, hi⟩ := this
    refine ⟨op, ho, i, ?_, ?_⟩
    · by_cases h : op.index = some i
      · exact h
      · exact absurd (fun h' => absurd h' h) hi
    · by_cases h : i < n
      · exact absurd (fun _ => h) hi
      · exact Nat.le_of_not_lt h

/-- **C06, what `set_all` does.** With a partly used last word `count_ones` counts the unused bits, too: one bit, 64 ones. -/
theorem C06_set_all_counts_padding : ((BitVec.new 1).run [.insertAll]).map BitVec.countOnes = some 64 := by decide +kernel

example : InRange 100 [.insert 0, .insert 64, .insert 99, .remove 64, .removeWord 3] := by
  intro op h i hi
  simp at h
  rcases h with rfl | rfl | rfl | rfl | rfl <;> simp [SetOp.index] at hi <;> omega

example : ((BitVec.new 100).run [.insert 0, .insert 64, .insert 99, .remove 64, .removeWord 3]).map (fun b => (b.get 0, b.get 64, b.get 99, b.countOnes)) =
    some (some false, some false, some true, 1) := by decide +kernel

/-! ### C07 -/

/-- **C07.** A `FastClearBitVec` answers like the set of indices inserted since the last `clear`; iterating over the set bits yields
each of them exactly once. Only the words are bounds checked, so the indices up to the next multiple of 64 are available. -/
theorem C07_fast_clear_is_a_set (n : Nat) (ops : List SetOp)
    (hops : ∀ op ∈ ops, op = .removeAll ∨ ∃ i, op = .insert i ∧ i < (n + 63) / 64 * 64) :
    ∃ b, (FastClear.new n).run ops = some b ∧
      (∀ i, b.get i = if i < (n + 63) / 64 * 64 then some (setAfter ops i) else none) ∧
      (∃ l, b.setBits = some l ∧ l.Nodup ∧ ∀ i, i ∈ l ↔ setAfter ops i = true) := by
  have hl : (FastClear.new n).data.length = (n + 63) / 64 := by simp [FastClear.new]
  obtain ⟨b, h1, h2, h3, h4⟩ := (FastClear.new_ok n).run (fun _ => false) (fun j => by
    simp only [FastClear.new, bit, List.getD_eq_getElem?_getD, List.getElem?_replicate]; split <;> simp) ops
    (fun op ho => by rw [hl, Nat.mul_comm]; exact hops op ho)
  refine ⟨b, h1, ?_, ?_⟩
  · intro i
    rw [h2.get, h3, hl, Nat.mul_comm 64, h4]; rfl
  · obtain ⟨l, e1, e2, e3⟩ := h2.setBits
    exact ⟨l, e1, e2, fun i => by rw [e3, h4]; rfl⟩

/-- **C07, clearing.** After a `clear` nothing is left of the history before it. -/
theorem C07_clear_removes_everything (ops : List SetOp) (i : Nat) : setAfter (ops ++ [.removeAll]) i = false := by
  simp [setAfter, SetOp.apply]

/-- **C07, out of range.** -/
theorem C07_out_of_range (n i : Nat) (hi : (n + 63) / 64 * 64 ≤ i) (ops : List SetOp) : (FastClear.new n).run (.insert i :: ops) = none := by
  have : (FastClear.new n).data[i / 64]? = none := List.getElem?_eq_none (by simp [FastClear.new]; omega)
  simp [FastClear.run, FastClear.step, FastClear.set, this]

example : ((FastClear.new 130).run [.insert 5, .insert 129, .removeAll, .insert 64, .insert 70, .insert 1, .insert 64]).bind
    (fun b => b.setBits.map (fun l => (l, b.get 5, b.get 64))) = some ([64, 70, 1], some false, some true) := by decide +kernel

/-! ### C08 -/

/-- **C08.** The rank map of any bit vector: `get` and `at` return the number of smaller elements exactly for the elements;
`at_or_next_lower` returns the rank of the largest element that is not larger than the index. -/
theorem C08_rank_counts_smaller_elements (n : Nat) (ops : List SetOp) (h : InRange n ops) :
    ∃ b m, (BitVec.new n).run ops = some b ∧ RankMap.new b = some m ∧
      (∀ i, m.get i = some (if i < n ∧ setAfter ops i = true then some ((setAfter ops).below i) else none)) ∧
      (∀ i, m.at' i = if i < n ∧ setAfter ops i = true then some ((setAfter ops).below i) else none) ∧
      (SetOp.insertAll ∉ ops ∨ n % 64 = 0 → m.len = (setAfter ops).below n) ∧
      (∀ i j, j ≤ i → i < n → setAfter ops j = true → (∀ k, j < k → k ≤ i → setAfter ops k = false) →
        m.atOrNextLower i = some ((setAfter ops).below j)) ∧
      (∀ i, n ≤ i ∨ (∀ j, j ≤ i → setAfter ops j = false) → m.atOrNextLower i = none) := by
  have hrun := (BitVec.new_ok n).run (fun _ => false) (fun j hj => by
    simp only [BitVec.new, bit, List.getD_eq_getElem?_getD, List.getElem?_replicate]; split <;> simp) ops
  obtain ⟨b, h1, h2, h3, h4⟩ := hrun.1 h
  have hsz : b.size = n := h3
  have hl := h2.len
  have hbit : ∀ j < n, bit b.data j = setAfter ops j := fun j hj => h4 j (by omega)
  obtain ⟨m, e1, e2, e3⟩ := RankMap.new_spec h2
  have hcnt : ∀ i ≤ n, cnt (bit b.data) i = (setAfter ops).below i := fun i hi => by
    rw [below_eq]; exact cnt_congr (fun j hj => hbit j (by omega))
  refine ⟨b, m, h1, e1, ?_, ?_, ?_, ?_, ?_⟩
  · intro i
    rw [e2.get, e3, hsz]
    by_cases hi : i < n
    · rw [hbit i hi, hcnt i (by omega)]
    · simp [hi]
  · intro i
    rw [e2.at_eq, e3, hsz]
    by_cases hi : i < n
    · rw [hbit i hi, hcnt i (by omega)]
    · simp [hi]
  · intro hc
    rw [e2.len_words, e3, ← hcnt n (by omega)]
    refine cnt_false (by omega) (fun j h5 h6 => ?_)
    rcases hc with hc | hc
    · rw [h4 j h6]; exact setAfter_lt ops h hc j h5
    · omega
  · intro i j hji hi hj hno
    have hc : cnt (bit b.data) (i + 1) = (setAfter ops).below j + 1 := by
      rw [cnt_false (a := j + 1) (by omega) (fun k h5 h6 => by rw [hbit k (by omega)]; exact hno k (by omega) (by omega)), cnt_succ,
        hbit j (by omega), hj, hcnt j (by omega)]
      rfl
    rw [e2.lower, e3, hsz, hc]
    simp [hi]
  · intro i hi
    rw [e2.lower, e3, hsz]
    by_cases hin : i < n
    · rcases hi with hi | hi
      · omega
      · have : cnt (bit b.data) (i + 1) = 0 := by
          rw [cnt_false (a := 0) (by omega) (fun k _ h6 => by rw [hbit k (by omega)]; exact hi k (by omega))]; rfl
        simp [this]
    · simp [hin]

example : InRange 1000 [.insert 3, .insert 512, .insert 900] := by
  intro op h i hi
  simp at h
  rcases h with rfl | rfl | rfl <;> simp [SetOp.index] at hi <;> omega

example : (((BitVec.new 1000).run [.insert 3, .insert 512, .insert 900]).bind RankMap.new).map
    (fun m => ((m.get 512, m.get 513, m.at' 900), (m.atOrNextLower 899, m.atOrNextLower 2, m.len))) =
    some ((some (some 1), some none, some 2), (some 1, none, 3)) := by decide +kernel

/-! ### C09 -/

/-- inverting and applying a rank map -/
def Inverse (n : Nat) (ops : List SetOp) (bs : List Nat → Nat → Lookup) : Prop :=
  ∃ b m iv, (BitVec.new n).run ops = some b ∧ RankMap.new b = some m ∧ InvMap.new m = some iv ∧
    (∀ i k, i < n → iv.map.at' i = some k → iv.inverse bs k = some i) ∧
    (∀ k, k < (setAfter ops).below n → ∃ i, iv.inverse bs k = some i ∧ iv.map.at' i = some k)

theorem inverse_of {n : Nat} {ops : List SetOp} (h : InRange n ops) {bs : List Nat → Nat → Lookup} (hbs : BinarySearch bs)
    (hlast : LastMatch bs ∨ ∀ i, 512 * i < n → ∃ j, 512 * i ≤ j ∧ j < min n (512 * (i + 1)) ∧ setAfter ops j = true) : Inverse n ops bs := by
  have hrun := (BitVec.new_ok n).run (fun _ => false) (fun j hj => by
    simp only [BitVec.new, bit, List.getD_eq_getElem?_getD, List.getElem?_replicate]; split <;> simp) ops
  obtain ⟨b, h1, h2, h3, h4⟩ := hrun.1 h
  have hsz : b.size = n := h3
  have hl := h2.len
  have hbit : ∀ j < n, bit b.data j = setAfter ops j := fun j hj => h4 j (by omega)
  obtain ⟨m, e1, e2, e3⟩ := RankMap.new_spec h2
  have hcnt : ∀ i ≤ n, cnt (bit b.data) i = (setAfter ops).below i := fun i hi => by
    rw [below_eq]; exact cnt_congr (fun j hj => hbit j (by omega))
  obtain ⟨iv, f1, f2, v, f3, f4⟩ := InvMap.new_spec e2
  have hlast' : LastMatch bs ∨ ∀ i < m.numBlocks, m.pre i < m.pre (i + 1) := by
    rcases hlast with hlast | hlast
    · exact Or.inl hlast
    · right
      intro i hi
      rw [RankMap.numBlocks, e3, hsz] at hi
      obtain ⟨j, hj1, hj2, hj3⟩ := hlast i (by omega)
      have := cnt_mono (bit m.flags.data) hj1
      have hlt : cnt (bit m.flags.data) j < cnt (bit m.flags.data) (512 * (i + 1)) :=
        cnt_lt (by omega) (by rw [e3, hbit j (by omega)]; exact hj3)
      unfold RankMap.pre
      omega
  have hle : (setAfter ops).below n ≤ m.len := by
    rw [e2.len_words, e3, ← hcnt n (by omega)]
    exact cnt_mono _ (by omega)
  have hinv : ∀ k, k < (setAfter ops).below n → ∃ i, i < n ∧ iv.inverse bs k = some i ∧ setAfter ops i = true ∧ (setAfter ops).below i = k := by
    intro k hk
    obtain ⟨i, g1, g2, g3⟩ := InvMap.inverse_spec e2 f2 f3 f4 hbs hlast' (value := k) (by omega)
    rw [e3] at g2 g3
    obtain ⟨i', a1, a2, a3⟩ := cnt_surj (f := bit b.data) (n := n) (by rw [hcnt n (by omega)]; exact hk)
    have : i = i' := cnt_inj g2 a2 (by rw [g3, a3])
    subst this
    exact ⟨i, a1, g1, by rw [← hbit i a1]; exact g2, by rw [← hcnt i (by omega)]; exact g3⟩
  have hat : ∀ i, iv.map.at' i = if i < n ∧ setAfter ops i = true then some ((setAfter ops).below i) else none := by
    intro i
    rw [f2, e2.at_eq, e3, hsz]
    by_cases hi : i < n
    · rw [hbit i hi, hcnt i (by omega)]
    · simp [hi]
  refine ⟨b, m, iv, h1, e1, f1, ?_, ?_⟩
  · intro i k hi hk
    rw [hat] at hk
    split at hk
    · rename_i hc
      simp at hk
      have hlt : (setAfter ops).below i < (setAfter ops).below n := by
        rw [below_eq, below_eq]; exact cnt_lt hi hc.2
      obtain ⟨i', a1, a2, a3, a4⟩ := hinv k (by omega)
      have : i' = i := cnt_inj (f := setAfter ops) a3 hc.2 (by rw [← below_eq, ← below_eq, a4, hk])
      rw [← this]; exact a2
    · simp at hk
  · intro k hk
    obtain ⟨i, a1, a2, a3, a4⟩ := hinv k hk
    refine ⟨i, a2, ?_⟩
    rw [hat]; simp [a1, a3, a4]

/-- **C09.** With the binary search of the standard library since Rust 1.82, `inverse` inverts `at` and `at` inverts `inverse`, for
every bit vector. -/
theorem C09_rank_maps_invert (n : Nat) (ops : List SetOp) (h : InRange n ops) : Inverse n ops stdSearch :=
  inverse_of h stdSearch_spec.1 (Or.inl stdSearch_spec.2)

/-- **C09, as far as the documentation of `binary_search` goes.** `inverse` is right with every binary search, if every block of 512
indices contains an element. -/
theorem C09_documented_search (n : Nat) (ops : List SetOp) (h : InRange n ops) (bs : List Nat → Nat → Lookup) (hbs : BinarySearch bs)
    (hblocks : ∀ i, 512 * i < n → ∃ j, 512 * i ≤ j ∧ j < min n (512 * (i + 1)) ∧ setAfter ops j = true) : Inverse n ops bs :=
  inverse_of h hbs (Or.inr hblocks)

/-- the bit vector with the elements 0 and 1536 -/
def gapOps : List SetOp := [.insert 0, .insert 1536]

theorem gapOps_inRange : InRange 2048 gapOps := by
  intro op h i hi
  simp [gapOps] at h
  rcases h with rfl | rfl <;> simp [SetOp.index] at hi <;> omega

/-- **C09, without that.** The documentation of `binary_search` allows to return any match. With the search of Rust 1.52 to 1.81,
which honours the documentation, `inverse` panics when empty blocks precede the element. -/
theorem C09_any_match_is_not_enough : BinarySearch oldSearch ∧ InRange 2048 gapOps ∧
    ((((BitVec.new 2048).run gapOps).bind RankMap.new).bind InvMap.new).map (fun iv => (iv.map.at' 1536, iv.inverse oldSearch 1)) = some (some 1, none) :=
  ⟨oldSearch_spec, gapOps_inRange, by decide +kernel⟩

example : ((((BitVec.new 2048).run gapOps).bind RankMap.new).bind InvMap.new).map (fun iv => (iv.map.at' 1536, iv.inverse stdSearch 1)) =
    some (some 1, some 1536) := by decide +kernel

end Verif
