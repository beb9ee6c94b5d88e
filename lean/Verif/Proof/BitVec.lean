import Verif.Model.BitVec
import Verif.Proof.Graph
/- Bit vectors and rank maps: helper lemmas. -/
set_option linter.unusedSimpArgs false
set_option linter.unusedVariables false
namespace Verif
namespace Bits
open Spec

/-! ### counting -/

@[simp] theorem cnt_zero (f : Nat → Bool) : cnt f 0 = 0 := rfl

theorem cnt_succ (f : Nat → Bool) (n : Nat) : cnt f (n + 1) = cnt f n + (if f n then 1 else 0) := by
  simp [cnt, List.range_succ, List.countP_append, List.countP_cons]

theorem cnt_add (f : Nat → Bool) (a b : Nat) : cnt f (a + b) = cnt f a + cnt (fun i => f (a + i)) b := by
  induction b with
  | zero => simp
  | succ b ih => rw [← Nat.add_assoc, cnt_succ, cnt_succ, ih]; omega

theorem cnt_congr {f g : Nat → Bool} {n : Nat} (h : ∀ i < n, f i = g i) : cnt f n = cnt g n := by
  induction n with
  | zero => rfl
  | succ n ih => rw [cnt_succ, cnt_succ, ih (fun i hi => h i (by omega)), h n (by omega)]

theorem cnt_mono (f : Nat → Bool) {a b : Nat} (h : a ≤ b) : cnt f a ≤ cnt f b := by
  obtain ⟨c, rfl⟩ := Nat.exists_eq_add_of_le h
  rw [cnt_add]; omega

theorem cnt_le (f : Nat → Bool) (n : Nat) : cnt f n ≤ n := by
  induction n with
  | zero => simp
  | succ n ih => rw [cnt_succ]; split <;> omega

theorem cnt_false {f : Nat → Bool} {a b : Nat} (h : a ≤ b) (hf : ∀ i, a ≤ i → i < b → f i = false) : cnt f b = cnt f a := by
  obtain ⟨c, rfl⟩ := Nat.exists_eq_add_of_le h
  rw [cnt_add]
  have : cnt (fun i => f (a + i)) c = cnt (fun _ => false) c := cnt_congr (fun i hi => hf (a + i) (by omega) (by omega))
  rw [this]
  have : ∀ c, cnt (fun _ => false) c = 0 := by
    intro c; induction c with
    | zero => rfl
    | succ c ih => rw [cnt_succ, ih]; rfl
  rw [this]; rfl

theorem cnt_lt {f : Nat → Bool} {i n : Nat} (hi : i < n) (hf : f i = true) : cnt f i < cnt f n := by
  have h1 : cnt f (i + 1) ≤ cnt f n := cnt_mono f hi
  rw [cnt_succ, hf] at h1; simp at h1; omega

theorem below_eq (s : IdxSet) (n : Nat) : s.below n = cnt s n := by simp [IdxSet.below, cnt, List.countP_eq_length_filter]

/-- An element is determined by the number of smaller ones. -/
theorem cnt_inj {f : Nat → Bool} {i j : Nat} (hi : f i = true) (hj : f j = true) (h : cnt f i = cnt f j) : i = j := by
  rcases Nat.lt_trichotomy i j with hlt | rfl | hlt
  · have := cnt_lt hlt hi; omega
  · rfl
  · have := cnt_lt hlt hj; omega

/-- Every number below the count is the rank of an element. -/
theorem cnt_surj {f : Nat → Bool} {k n : Nat} (h : k < cnt f n) : ∃ i < n, f i = true ∧ cnt f i = k := by
  induction n with
  | zero => simp at h
  | succ n ih =>
    by_cases hk : k < cnt f n
    · obtain ⟨i, hi, h1, h2⟩ := ih hk; exact ⟨i, by omega, h1, h2⟩
    · rw [cnt_succ] at h
      split at h
      · rename_i hf; exact ⟨n, by omega, hf, by omega⟩
      · omega

/-! ### words -/

/-- bit `i` of a sequence of words -/
def bit (d : List Nat) (i : Nat) : Bool := (d.getD (i / 64) 0).testBit (i % 64)

theorem bit_get {d : List Nat} {i w : Nat} (h : d[i / 64]? = some w) : bit d i = w.testBit (i % 64) := by
  simp [bit, List.getD_eq_getElem?_getD, h]

theorem and_bit (w k : Nat) : (w &&& (1 <<< k) != 0) = w.testBit k := by
  rw [Nat.one_shiftLeft]
  cases h : w.testBit k with
  | true =>
    have : (w &&& 2 ^ k).testBit k = true := by rw [Nat.testBit_and, h, Nat.testBit_two_pow]; simp
    have : w &&& 2 ^ k ≠ 0 := by intro h0; rw [h0] at this; simp at this
    simp [this]
  | false =>
    have : w &&& 2 ^ k = 0 := by
      apply Nat.eq_of_testBit_eq
      intro i
      rw [Nat.testBit_and, Nat.testBit_two_pow]
      by_cases hi : k = i
      · subst hi; simp [h]
      · simp [hi]
    simp [this]

theorem testBit_set (w k j : Nat) : (w ||| (1 <<< k)).testBit j = (j == k || w.testBit j) := by
  rw [Nat.testBit_or, Nat.one_shiftLeft, Nat.testBit_two_pow]
  by_cases h : k = j
  · subst h; simp
  · have : ¬ j = k := fun h' => h h'.symm
    simp [h, this]

theorem testBit_not64 (w j : Nat) (hj : j < 64) : (not64 w).testBit j = !w.testBit j := by
  unfold not64
  rw [Nat.testBit_xor, show (18446744073709551615 : Nat) = 2 ^ 64 - 1 from rfl, Nat.testBit_two_pow_sub_one]
  simp [hj]

theorem testBit_unset (w k j : Nat) (hj : j < 64) : (w &&& not64 (1 <<< k)).testBit j = (j != k && w.testBit j) := by
  rw [Nat.testBit_and, testBit_not64 _ _ hj, Nat.one_shiftLeft, Nat.testBit_two_pow]
  by_cases h : k = j
  · subst h; simp
  · have : ¬ j = k := fun h' => h h'.symm
    simp [h, this, bne, Bool.and_comm]

theorem testBit_ge {w : Nat} (h : w < 2 ^ 64) {i : Nat} (hi : 64 ≤ i) : w.testBit i = false :=
  Nat.testBit_lt_two_pow (Nat.lt_of_lt_of_le h (Nat.pow_le_pow_right (by omega) hi))

theorem set_lt {w k : Nat} (h : w < 2 ^ 64) (hk : k < 64) : w ||| (1 <<< k) < 2 ^ 64 :=
  Nat.or_lt_two_pow h (by rw [Nat.one_shiftLeft]; exact Nat.pow_lt_pow_right (by omega) hk)

theorem unset_lt {w v : Nat} (h : w < 2 ^ 64) : w &&& v < 2 ^ 64 := Nat.lt_of_le_of_lt Nat.and_le_left h

theorem bit_set (d : List Nat) (i x j : Nat) (hi : i / 64 < d.length) :
    bit (d.set (i / 64) x) j = if j / 64 = i / 64 then x.testBit (j % 64) else bit d j := by
  unfold bit
  rw [List.getD_eq_getElem?_getD, List.getD_eq_getElem?_getD, List.getElem?_set]
  by_cases h : i / 64 = j / 64
  · have : j / 64 < d.length := by omega
    simp [h, this]
  · have : ¬ j / 64 = i / 64 := fun h' => h h'.symm
    simp [h, this]

theorem bit_beyond {d : List Nat} {i : Nat} (h : 64 * d.length ≤ i) : bit d i = false := by
  unfold bit
  rw [List.getD_eq_getElem?_getD, List.getElem?_eq_none (by omega)]
  simp

theorem sum_popcount (d : List Nat) : (d.map popcount).sum = cnt (bit d) (64 * d.length) := by
  induction d with
  | nil => simp
  | cons w ws ih =>
    rw [List.map_cons, List.sum_cons, ih, List.length_cons, show 64 * (ws.length + 1) = 64 + 64 * ws.length by omega, cnt_add]
    have h1 : popcount w = cnt (bit (w :: ws)) 64 :=
      cnt_congr (fun i hi => by simp [bit, Nat.div_eq_of_lt hi, Nat.mod_eq_of_lt hi])
    have h2 : cnt (bit ws) (64 * ws.length) = cnt (fun i => bit (w :: ws) (64 + i)) (64 * ws.length) := by
      refine cnt_congr (fun i hi => ?_)
      unfold bit
      rw [show (64 + i) / 64 = i / 64 + 1 by omega, show (64 + i) % 64 = i % 64 by omega]
      rfl
    rw [h1, h2]

/-! ### `BitVec` -/

/-- the words are 64 bits wide and their number is right -/
structure BitVec.OK (b : BitVec) : Prop where
  len : b.data.length = (b.size + 63) / 64
  word : ∀ (i w : Nat), b.data[i]? = some w → w < 2 ^ 64

theorem BitVec.new_ok (n : Nat) : (BitVec.new n).OK := ⟨by simp [BitVec.new], by
  intro i w h
  simp [BitVec.new, List.getElem?_replicate] at h
  omega⟩

theorem BitVec.OK.word_of {b : BitVec} (h : b.OK) {i : Nat} (hi : i < b.size) : ∃ w, b.data[i / 64]? = some w ∧ w < 2 ^ 64 := by
  have : i / 64 < b.data.length := by rw [h.len]; omega
  exact ⟨b.data[i / 64], List.getElem?_eq_getElem this, h.word _ _ (List.getElem?_eq_getElem this)⟩

theorem BitVec.OK.get {b : BitVec} (h : b.OK) (i : Nat) : b.get i = if i < b.size then some (bit b.data i) else none := by
  unfold BitVec.get
  by_cases hi : i < b.size
  · obtain ⟨w, h1, h2⟩ := h.word_of hi
    simp only [hi, if_true, h1, Option.bind_eq_bind, Option.bind_some, Option.pure_def, and_bit, bit_get h1]
  · simp [hi]

theorem BitVec.OK.write {b : BitVec} (h : b.OK) {i x : Nat} (hi : i < b.size) (hx : x < 2 ^ 64) :
    upd b.data (i / 64) x = some (b.data.set (i / 64) x) ∧ BitVec.OK { b with data := b.data.set (i / 64) x } ∧
    ∀ j, bit (b.data.set (i / 64) x) j = if j / 64 = i / 64 then x.testBit (j % 64) else bit b.data j := by
  have hl : i / 64 < b.data.length := by rw [h.len]; omega
  refine ⟨upd_of_lt _ hl, ⟨by simp [h.len], ?_⟩, fun j => bit_set _ _ _ _ hl⟩
  intro j w hj
  simp only [List.getElem?_set] at hj
  split at hj
  · simp [hl] at hj; omega
  · exact h.word j w hj

theorem same_word {i j : Nat} (h : j / 64 = i / 64) : (j % 64 == i % 64) = (j == i) := by
  by_cases hm : j % 64 = i % 64
  · have : j = i := by omega
    subst this; simp
  · have : ¬ j = i := by rintro rfl; exact hm rfl
    rw [beq_eq_false_iff_ne.2 hm, beq_eq_false_iff_ne.2 this]

/-- One call of a mutating method. -/
theorem BitVec.OK.step {b : BitVec} (h : b.OK) (op : SetOp) :
    (∀ i, op.index = some i → i < b.size) ∧
      (∃ b', b.step op = some b' ∧ b'.OK ∧ b'.size = b.size ∧ ∀ j < 64 * b.data.length, bit b'.data j = op.apply (bit b.data) j) ∨
    (∃ i, op.index = some i ∧ b.size ≤ i) ∧ b.step op = none := by
  cases op with
  | insert i =>
    by_cases hi : i < b.size
    · left
      obtain ⟨w, h1, h2⟩ := h.word_of hi
      obtain ⟨h3, h4, h5⟩ := h.write hi (set_lt h2 (Nat.mod_lt i (by omega)))
      refine ⟨by simp [SetOp.index]; exact hi, _, ?_, h4, rfl, ?_⟩
      · simp only [BitVec.step, BitVec.set, hi, if_true, h1, h3, Option.bind_eq_bind, Option.bind_some, Option.pure_def]
      · intro j _
        show bit (b.data.set _ _) j = _
        rw [h5, SetOp.apply]
        split
        · rename_i hj
          rw [testBit_set, same_word hj]
          have : b.data[j / 64]? = some w := by rw [hj]; exact h1
          simp only [bit_get this]
        · rename_i hj
          have : ¬ j = i := by rintro rfl; exact hj rfl
          simp [this]
    · right; exact ⟨⟨i, rfl, by omega⟩, by simp [BitVec.step, BitVec.set, hi]⟩
  | remove i =>
    by_cases hi : i < b.size
    · left
      obtain ⟨w, h1, h2⟩ := h.word_of hi
      obtain ⟨h3, h4, h5⟩ := h.write (x := w &&& not64 (1 <<< (i % 64))) hi (unset_lt h2)
      refine ⟨by simp [SetOp.index]; exact hi, _, ?_, h4, rfl, ?_⟩
      · simp only [BitVec.step, BitVec.unset, hi, if_true, h1, h3, Option.bind_eq_bind, Option.bind_some, Option.pure_def]
      · intro j _
        show bit (b.data.set _ _) j = _
        rw [h5, SetOp.apply]
        split
        · rename_i hj
          rw [testBit_unset _ _ _ (Nat.mod_lt j (by omega)), bne, same_word hj]
          have : b.data[j / 64]? = some w := by rw [hj]; exact h1
          simp only [bit_get this]; rfl
        · rename_i hj
          have : ¬ j = i := by rintro rfl; exact hj rfl
          simp [this]
    · right; exact ⟨⟨i, rfl, by omega⟩, by simp [BitVec.step, BitVec.unset, hi]⟩
  | removeWord i =>
    by_cases hi : i < b.size
    · left
      obtain ⟨h3, h4, h5⟩ := h.write (x := 0) hi (by omega)
      refine ⟨by simp [SetOp.index]; exact hi, _, ?_, h4, rfl, ?_⟩
      · simp only [BitVec.step, BitVec.unsetAllAround, hi, if_true, h3, Option.bind_eq_bind, Option.bind_some, Option.pure_def]
      · intro j _
        show bit (b.data.set _ _) j = _
        rw [h5, SetOp.apply]
        split
        · rename_i hj; simp [hj]
        · rename_i hj; simp [hj]
    · right; exact ⟨⟨i, rfl, by omega⟩, by simp [BitVec.step, BitVec.unsetAllAround, hi]⟩
  | removeAll =>
    left
    refine ⟨by simp [SetOp.index], _, rfl, ⟨by simp [BitVec.clear, h.len], ?_⟩, rfl, ?_⟩
    · intro i w hw
      simp [BitVec.clear] at hw
      obtain ⟨_, rfl⟩ := hw; omega
    · intro j _
      simp only [bit, BitVec.clear, List.getD_eq_getElem?_getD, List.getElem?_map, SetOp.apply]
      cases b.data[j / 64]? <;> simp
  | insertAll =>
    left
    refine ⟨by simp [SetOp.index], _, rfl, ⟨by simp [BitVec.setAll, h.len], ?_⟩, rfl, ?_⟩
    · intro i w hw
      simp [BitVec.setAll] at hw
      obtain ⟨_, rfl⟩ := hw; decide
    · intro j hj
      have hl : j / 64 < b.data.length := by omega
      simp only [bit, BitVec.setAll, List.getD_eq_getElem?_getD, List.getElem?_map, SetOp.apply, List.getElem?_eq_getElem hl,
        Option.map_some, Option.getD_some]
      rw [testBit_not64 _ _ (Nat.mod_lt j (by omega))]; simp

theorem apply_congr (op : SetOp) {s t : IdxSet} {j : Nat} (h : s j = t j) : op.apply s j = op.apply t j := by
  cases op <;> simp [SetOp.apply, h]

/-- A history that stays in range. -/
theorem BitVec.OK.run {b : BitVec} (h : b.OK) (s : IdxSet) (hs : ∀ j < 64 * b.data.length, bit b.data j = s j) (ops : List SetOp) :
    ((∀ op ∈ ops, ∀ i, op.index = some i → i < b.size) →
      ∃ b', b.run ops = some b' ∧ b'.OK ∧ b'.size = b.size ∧ ∀ j < 64 * b'.data.length, bit b'.data j = ops.foldl SetOp.apply s j) ∧
    ((∃ op ∈ ops, ∃ i, op.index = some i ∧ b.size ≤ i) → b.run ops = none) := by
  induction ops generalizing b s with
  | nil => exact ⟨fun _ => ⟨b, rfl, h, rfl, hs⟩, by rintro ⟨op, hop, _⟩; cases hop⟩
  | cons op ops ih =>
    rcases h.step op with ⟨hi, b1, h1, hok, hsz, hbit⟩ | ⟨⟨i, hi, hge⟩, h1⟩
    · have hl : b1.data.length = b.data.length := by rw [hok.len, h.len, hsz]
      have ih' := ih hok (op.apply s) (fun j hj => by
        rw [hl] at hj; rw [hbit j hj]; exact apply_congr op (hs j hj))
      have hrun : b.run (op :: ops) = b1.run ops := by
        simp only [BitVec.run, List.foldlM_cons, h1, Option.bind_eq_bind, Option.bind_some]
      rw [hrun]
      refine ⟨fun hall => ?_, ?_⟩
      · obtain ⟨b', e1, e2, e3, e4⟩ := ih'.1 (fun o ho i hoi => by rw [hsz]; exact hall o (by simp [ho]) i hoi)
        exact ⟨b', e1, e2, by rw [e3, hsz], e4⟩
      · rintro ⟨o, ho, i, h2, h3⟩
        rcases List.mem_cons.1 ho with rfl | ho
        · have := hi i h2; omega
        · exact ih'.2 ⟨o, ho, i, h2, by rw [hsz]; exact h3⟩
    · refine ⟨fun hall => ?_, fun _ => ?_⟩
      · have := hall op (by simp) i hi; omega
      · simp only [BitVec.run, List.foldlM_cons, h1, Option.bind_eq_bind, Option.bind_none]

theorem BitVec.countOnes_eq (b : BitVec) : b.countOnes = cnt (bit b.data) (64 * b.data.length) := sum_popcount _

/-! ### lowest set bit -/

theorem trailingZeros_spec {w : Nat} (hw : w ≠ 0) (hlt : w < 2 ^ 64) :
    trailingZeros w < 64 ∧ w.testBit (trailingZeros w) = true ∧ ∀ i < trailingZeros w, w.testBit i = false := by
  unfold trailingZeros
  cases h : (List.range 64).find? w.testBit with
  | none =>
    exfalso; apply hw
    apply Nat.eq_of_testBit_eq
    intro i
    rw [Nat.zero_testBit]
    by_cases hi : i < 64
    · have := List.find?_eq_none.1 h i (by simpa using hi)
      simpa using this
    · exact testBit_ge hlt (by omega)
  | some k =>
    have h1 := List.find?_some h
    have h2 := List.mem_of_find?_eq_some h
    simp only [Option.getD_some]
    refine ⟨by simpa using h2, h1, ?_⟩
    obtain ⟨_, as, bs, heq, hall⟩ := List.find?_eq_some_iff_append.1 h
    intro i hi
    have hlen : as.length = k := by
      have h3 : (List.range 64)[as.length]? = some k := by rw [heq]; simp
      have h4 := List.getElem?_eq_some_iff.1 h3
      obtain ⟨h5, h6⟩ := h4
      simpa using h6
    have : i ∈ as := by
      have h3 : (List.range 64)[i]? = as[i]? := by rw [heq, List.getElem?_append_left (by omega)]
      have hk : k < 64 := by simpa using h2
      rw [List.getElem?_eq_getElem (by simp; omega)] at h3
      simp at h3
      exact List.mem_of_getElem? h3.symm
    simpa using hall i this

theorem cnt_erase {f : Nat → Bool} {t n : Nat} (ht : t < n) (hf : f t = true) : cnt (fun i => i != t && f i) n + 1 = cnt f n := by
  obtain ⟨c, rfl⟩ := Nat.exists_eq_add_of_le (show t + 1 ≤ n from ht)
  rw [cnt_add, cnt_add f, cnt_succ, cnt_succ, hf]
  have h1 : cnt (fun i => i != t && f i) t = cnt f t := cnt_congr (fun i hi => by
    have : i ≠ t := by omega
    simp [this])
  have h2 : cnt (fun i => (fun i => i != t && f i) (t + 1 + i)) c = cnt (fun i => f (t + 1 + i)) c := cnt_congr (fun i hi => by
    have : t + 1 + i ≠ t := by omega
    simp [this])
  rw [h1, h2]; simp; omega

/-! ### `FastClearBitVec` -/

structure FastClear.OK (b : FastClear) : Prop where
  word : ∀ (i w : Nat), b.data[i]? = some w → w < 2 ^ 64
  nodup : b.toClear.Nodup
  dirty : ∀ i : Nat, i ∈ b.toClear ↔ ∃ w, b.data[i]? = some w ∧ w ≠ 0

namespace FastClear

theorem new_ok (n : Nat) : (new n).OK := by
  refine ⟨?_, by simp [new], ?_⟩
  · intro i w h
    simp [new, List.getElem?_replicate] at h
    omega
  · intro i
    simp only [new, List.getElem?_replicate]
    constructor
    · intro h; cases h
    · rintro ⟨w, h, hw⟩
      split at h
      · simp at h; omega
      · simp at h

theorem OK.get {b : FastClear} (h : b.OK) (i : Nat) : b.get i = if i < 64 * b.data.length then some (bit b.data i) else none := by
  unfold FastClear.get
  by_cases hi : i < 64 * b.data.length
  · have hl : i / 64 < b.data.length := by omega
    have h1 := List.getElem?_eq_getElem hl
    simp only [hi, if_true, h1, Option.bind_eq_bind, Option.bind_some, Option.pure_def, and_bit, bit_get h1]
  · rw [List.getElem?_eq_none (by omega)]; simp [hi]

theorem OK.set {b : FastClear} (h : b.OK) {i : Nat} (hi : i < 64 * b.data.length) :
    ∃ b', b.set i = some b' ∧ b'.OK ∧ b'.data.length = b.data.length ∧ ∀ j, bit b'.data j = (j == i || bit b.data j) := by
  have hl : i / 64 < b.data.length := by omega
  have h1 := List.getElem?_eq_getElem hl
  obtain ⟨w, hw⟩ : ∃ w, w = b.data[i / 64] := ⟨_, rfl⟩
  rw [← hw] at h1
  have h2 := h.word _ _ h1
  have hmod : i % 64 < 64 := Nat.mod_lt i (by omega)
  have hnz : w ||| (1 <<< (i % 64)) ≠ 0 := by
    intro h0
    have := testBit_set w (i % 64) (i % 64)
    rw [h0] at this; simp at this
  refine ⟨⟨b.data.set (i / 64) (w ||| (1 <<< (i % 64))), if w = 0 then b.toClear ++ [i / 64] else b.toClear⟩, ?_, ⟨?_, ?_, ?_⟩, by simp, ?_⟩
  · unfold FastClear.set
    rw [h1]
    simp only [Option.bind_eq_bind, Option.bind_some, Option.pure_def, upd_of_lt _ hl]
  · intro j x hj
    simp only [List.getElem?_set] at hj
    split at hj
    · simp [hl] at hj; subst hj; exact set_lt h2 hmod
    · exact h.word j x hj
  · show (if w = 0 then b.toClear ++ [i / 64] else b.toClear).Nodup
    split
    · rename_i h0
      rw [List.nodup_append]
      refine ⟨h.nodup, by simp, ?_⟩
      intro a ha c hc heq
      simp at hc
      subst heq; subst hc
      obtain ⟨x, hx1, hx2⟩ := (h.dirty _).1 ha
      rw [h1] at hx1; simp at hx1; omega
    · exact h.nodup
  · intro j
    show j ∈ (if w = 0 then b.toClear ++ [i / 64] else b.toClear) ↔ _
    simp only [List.getElem?_set]
    by_cases hj : i / 64 = j
    · subst hj
      simp only [if_true, hl]
      constructor
      · intro _; exact ⟨_, rfl, hnz⟩
      · intro _
        split
        · simp
        · rename_i h0; exact (h.dirty _).2 ⟨w, h1, h0⟩
    · have hj' : ¬ j = i / 64 := fun e => hj e.symm
      simp only [hj, if_false, ← h.dirty]
      split
      · simp [hj']
      · rfl
  · intro j
    show bit (b.data.set _ _) j = _
    rw [bit_set _ _ _ _ hl]
    split
    · rename_i hj
      rw [testBit_set, same_word hj]
      have : b.data[j / 64]? = some w := by rw [hj]; exact h1
      simp only [bit_get this]
    · rename_i hj
      have : ¬ j = i := by rintro rfl; exact hj rfl
      simp [this]

theorem clear_fold (tc : List Nat) (d : List Nat) (h : ∀ i ∈ tc, i < d.length) :
    ∃ d', tc.foldlM (fun d i => upd d i 0) d = some d' ∧ d'.length = d.length ∧
      ∀ i : Nat, d'[i]? = if i ∈ tc ∧ i < d.length then some 0 else d[i]? := by
  induction tc generalizing d with
  | nil => exact ⟨d, rfl, rfl, by simp⟩
  | cons t tc ih =>
    have ht := h t (by simp)
    obtain ⟨d', h1, h2, h3⟩ := ih (d.set t 0) (fun i hi => by simpa using h i (by simp [hi]))
    refine ⟨d', ?_, by simpa using h2, ?_⟩
    · simp only [List.foldlM_cons, upd_of_lt _ ht, Option.bind_eq_bind, Option.bind_some]; exact h1
    · intro i
      rw [h3]
      simp only [List.length_set, List.mem_cons, List.getElem?_set]
      by_cases hi : i ∈ tc ∧ i < d.length
      · simp [hi]
      · rw [if_neg hi]
        by_cases hti : t = i
        · subst hti; simp [ht]
        · have : ¬ i = t := fun e => hti e.symm
          rw [if_neg hti, if_neg]
          rintro ⟨h4 | h4, h5⟩
          · exact this h4
          · exact hi ⟨h4, h5⟩

theorem OK.clear {b : FastClear} (h : b.OK) :
    ∃ b', b.clear = some b' ∧ b'.OK ∧ b'.data.length = b.data.length ∧ ∀ j, bit b'.data j = false := by
  have hlt : ∀ i ∈ b.toClear, i < b.data.length := by
    intro i hi
    obtain ⟨w, hw, _⟩ := (h.dirty i).1 hi
    exact (List.getElem?_eq_some_iff.1 hw).1
  obtain ⟨d', h1, h2, h3⟩ := clear_fold b.toClear b.data hlt
  have hz : ∀ i w : Nat, d'[i]? = some w → w = 0 := by
    intro i w hw
    rw [h3] at hw
    split at hw
    · simp at hw; omega
    · rename_i hn
      have hl := (List.getElem?_eq_some_iff.1 hw).1
      by_cases h0 : w = 0
      · exact h0
      · exact absurd ⟨(h.dirty i).2 ⟨w, hw, h0⟩, hl⟩ hn
  refine ⟨⟨d', []⟩, ?_, ⟨?_, by simp, ?_⟩, h2, ?_⟩
  · simp only [FastClear.clear, h1, Option.bind_eq_bind, Option.bind_some, Option.pure_def]
  · intro i w hw; rw [hz i w hw]; omega
  · intro i
    constructor
    · intro hc; cases hc
    · rintro ⟨w, hw, hne⟩; exact absurd (hz i w hw) hne
  · intro j
    simp only [bit, List.getD_eq_getElem?_getD]
    cases hd : d'[j / 64]? with
    | none => simp
    | some w => rw [hz _ w hd]; simp

/-- A history of `set` and `clear` calls. -/
theorem OK.run {b : FastClear} (h : b.OK) (s : IdxSet) (hs : ∀ j, bit b.data j = s j) (ops : List SetOp)
    (hops : ∀ op ∈ ops, op = .removeAll ∨ ∃ i, op = .insert i ∧ i < 64 * b.data.length) :
    ∃ b', b.run ops = some b' ∧ b'.OK ∧ b'.data.length = b.data.length ∧ ∀ j, bit b'.data j = ops.foldl SetOp.apply s j := by
  induction ops generalizing b s with
  | nil => exact ⟨b, rfl, h, rfl, hs⟩
  | cons op ops ih =>
    have : ∃ b1, b.step op = some b1 ∧ b1.OK ∧ b1.data.length = b.data.length ∧ ∀ j, bit b1.data j = op.apply s j := by
      rcases hops op (by simp) with rfl | ⟨i, rfl, hi⟩
      · obtain ⟨b1, h1, h2, h3, h4⟩ := h.clear
        exact ⟨b1, h1, h2, h3, by simpa [SetOp.apply] using h4⟩
      · obtain ⟨b1, h1, h2, h3, h4⟩ := h.set hi
        exact ⟨b1, h1, h2, h3, fun j => by rw [h4, SetOp.apply, hs]⟩
    obtain ⟨b1, h1, h2, h3, h4⟩ := this
    obtain ⟨b', e1, e2, e3, e4⟩ := ih h2 _ h4 (fun o ho => by rw [h3]; exact hops o (by simp [ho]))
    refine ⟨b', ?_, e2, by rw [e3, h3], e4⟩
    simp only [FastClear.run, List.foldlM_cons, h1, Option.bind_eq_bind, Option.bind_some]; exact e1

/-- What is left to be yielded by an iterator. -/
def Left (d : List Nat) (it : Iter) (x : Nat) : Prop :=
  (x / 64 = it.idx ∧ it.bits.testBit (x % 64) = true) ∨ (x / 64 ∈ it.rest ∧ bit d x = true)

theorem collect_spec (d : List Nat) (hd : ∀ (i w : Nat), d[i]? = some w → w < 2 ^ 64) (fuel : Nat) (it : Iter)
    (hrest : ∀ i ∈ it.rest, ∃ w, d[i]? = some w ∧ w ≠ 0) (hnd : it.rest.Nodup) (hb : it.bits < 2 ^ 64)
    (hidx : it.bits ≠ 0 → it.idx ∉ it.rest) (hf : popcount it.bits + 64 * it.rest.length < fuel) :
    ∃ l, collect d fuel it = some l ∧ l.Nodup ∧ ∀ x, x ∈ l ↔ Left d it x := by
  induction fuel generalizing it with
  | zero => omega
  | succ fuel ih =>
    -- yielding from a loaded word
    have core : ∀ it : Iter, it.bits ≠ 0 → (∀ i ∈ it.rest, ∃ w, d[i]? = some w ∧ w ≠ 0) → it.rest.Nodup → it.bits < 2 ^ 64 →
        it.idx ∉ it.rest → popcount it.bits + 64 * it.rest.length < fuel + 1 →
        ∃ r, collect d fuel ⟨it.rest, it.bits &&& not64 (1 <<< trailingZeros it.bits), it.idx⟩ = some r ∧
          ((it.idx * 64 + trailingZeros it.bits) :: r).Nodup ∧
          ∀ x, x ∈ (it.idx * 64 + trailingZeros it.bits) :: r ↔ Left d it x := by
      intro it hne hrest hnd hb hidx hf
      obtain ⟨ht, htb, _⟩ := trailingZeros_spec hne hb
      obtain ⟨t, htd⟩ : ∃ t, t = trailingZeros it.bits := ⟨_, rfl⟩
      rw [← htd] at ht htb ⊢
      have hpop : popcount (it.bits &&& not64 (1 <<< t)) + 1 = popcount it.bits := by
        unfold popcount
        rw [← cnt_erase ht htb]
        congr 1
        exact cnt_congr (fun i hi => testBit_unset _ _ _ hi)
      obtain ⟨r, h1, h2, h3⟩ := ih ⟨it.rest, it.bits &&& not64 (1 <<< t), it.idx⟩ hrest hnd (unset_lt hb) (fun _ => hidx)
        (by simp only; omega)
      have hmemL : ∀ x, Left d it x ↔ x = it.idx * 64 + t ∨ Left d ⟨it.rest, it.bits &&& not64 (1 <<< t), it.idx⟩ x := by
        intro x
        have hmod : x % 64 < 64 := Nat.mod_lt x (by omega)
        simp only [Left, testBit_unset _ _ _ hmod]
        constructor
        · rintro (⟨e1, e2⟩ | e)
          · by_cases hx : x % 64 = t
            · left; omega
            · right; left; simp [e1, e2, hx]
          · right; right; exact e
        · rintro (rfl | ⟨e1, e2⟩ | e)
          · left
            rw [show (it.idx * 64 + t) / 64 = it.idx by omega, show (it.idx * 64 + t) % 64 = t by omega]
            exact ⟨rfl, htb⟩
          · left; simp at e2; exact ⟨e1, e2.2⟩
          · right; exact e
      refine ⟨r, h1, List.nodup_cons.2 ⟨?_, h2⟩, fun x => by rw [hmemL, List.mem_cons, h3]⟩
      rw [h3]
      rintro (⟨_, e2⟩ | ⟨e1, _⟩)
      · simp only at e2
        rw [show (it.idx * 64 + t) % 64 = t by omega, testBit_unset _ _ _ ht] at e2
        simp at e2
      · simp only at e1
        rw [show (it.idx * 64 + t) / 64 = it.idx by omega] at e1
        exact hidx e1
    by_cases hz : it.bits = 0
    · cases hr : it.rest with
      | nil =>
        refine ⟨[], ?_, by simp, ?_⟩
        · simp only [collect, next, load, hz, hr, if_true, Option.bind_eq_bind, Option.bind_some, Option.pure_def]
        · intro x; simp [Left, hz, hr]
      | cons i rest =>
        obtain ⟨w, hw, hw0⟩ := hrest i (by simp [hr])
        rw [hr] at hnd hrest hf
        have hp : popcount w ≤ 64 := cnt_le _ _
        obtain ⟨r, h1, h2, h3⟩ := core ⟨rest, w, i⟩ hw0 (fun j hj => hrest j (by simp [hj])) (List.nodup_cons.1 hnd).2 (hd _ _ hw)
          (List.nodup_cons.1 hnd).1 (by simp only [List.length_cons] at hf ⊢; omega)
        refine ⟨_, ?_, h2, ?_⟩
        · simp only [collect, next, load, hz, hr, hw, if_true, Option.map_some, Option.bind_eq_bind, Option.bind_some, Option.pure_def,
            hw0, if_false, h1]
        · intro x
          rw [h3]
          simp only [Left, hz, hr, Nat.zero_testBit, List.mem_cons, Bool.false_eq_true, and_false, false_or]
          constructor
          · rintro (⟨e1, e2⟩ | ⟨e1, e2⟩)
            · refine ⟨Or.inl e1, ?_⟩
              rw [bit_get (w := w) (by rw [e1]; exact hw)]; exact e2
            · exact ⟨Or.inr e1, e2⟩
          · rintro ⟨e1 | e1, e2⟩
            · left; refine ⟨e1, ?_⟩
              rw [bit_get (w := w) (by rw [e1]; exact hw)] at e2; exact e2
            · right; exact ⟨e1, e2⟩
    · obtain ⟨r, h1, h2, h3⟩ := core it hz hrest hnd hb (hidx hz) hf
      refine ⟨_, ?_, h2, h3⟩
      simp only [collect, next, load, hz, if_false, Option.bind_eq_bind, Option.bind_some, Option.pure_def, h1]

theorem OK.setBits {b : FastClear} (h : b.OK) : ∃ l, b.setBits = some l ∧ l.Nodup ∧ ∀ x, x ∈ l ↔ bit b.data x = true := by
  obtain ⟨l, h1, h2, h3⟩ := collect_spec b.data h.word (64 * b.toClear.length + 1) ⟨b.toClear, 0, 0⟩
    (fun i hi => (h.dirty i).1 hi) h.nodup (by simp) (by simp) (by
      have : popcount 0 = 0 := by decide
      simp only [this]; omega)
  refine ⟨l, h1, h2, fun x => ?_⟩
  rw [h3]
  simp only [Left, Nat.zero_testBit, Bool.false_eq_true, and_false, false_or]
  constructor
  · exact fun e => e.2
  · intro e
    refine ⟨?_, e⟩
    rw [h.dirty]
    unfold bit at e
    rw [List.getD_eq_getElem?_getD] at e
    cases hd : b.data[x / 64]? with
    | none => rw [hd] at e; simp at e
    | some w =>
      rw [hd] at e
      refine ⟨w, rfl, ?_⟩
      rintro rfl
      simp at e

end FastClear

end Bits
end Verif
