import Verif.Proof.BitVec
/- Rank maps and their inversion: helper lemmas. -/
set_option linter.unusedSimpArgs false
set_option linter.unusedVariables false
namespace Verif
namespace Bits
open Spec

/-! ### counting in slices -/

theorem bit_slice (d : List Nat) (a n j : Nat) (hj : j < 64 * n) : bit ((d.drop a).take n) j = bit d (64 * a + j) := by
  unfold bit
  rw [List.getD_eq_getElem?_getD, List.getD_eq_getElem?_getD, List.getElem?_take_of_lt (by omega), List.getElem?_drop,
    show (64 * a + j) / 64 = a + j / 64 by omega, show (64 * a + j) % 64 = j % 64 by omega]

theorem onesIn_spec {d : List Nat} {a b : Nat} (h1 : a ≤ b) (h2 : b ≤ d.length) :
    ∃ n, onesIn d a b = some n ∧ cnt (bit d) (64 * a) + n = cnt (bit d) (64 * b) := by
  refine ⟨(((d.drop a).take (b - a)).map popcount).sum, by
    simp only [onesIn, slice_eq h1 h2, Option.bind_eq_bind, Option.bind_some, Option.pure_def], ?_⟩
  rw [sum_popcount, List.length_take, List.length_drop, show min (b - a) (d.length - a) = b - a by omega,
    show 64 * b = 64 * a + 64 * (b - a) by omega, cnt_add]
  congr 1
  exact cnt_congr (fun i hi => bit_slice _ _ _ _ hi)

/-! ### `RankSelectMap` -/

structure RankMap.OK (m : RankMap) : Prop where
  flags : m.flags.OK
  len : m.prefixSum.length = (m.flags.size + 511) / 512 + 1
  sums : ∀ i : Nat, i ≤ (m.flags.size + 511) / 512 → m.prefixSum[i]? = some (cnt (bit m.flags.data) (512 * i))

theorem entire_spec {b : BitVec} (h : b.OK) {i : Nat} (hi : i < (b.size + 511) / 512) :
    ∃ n, bitCountEntire b i = some n ∧ cnt (bit b.data) (512 * i) + n = cnt (bit b.data) (512 * (i + 1)) := by
  have hl := h.len
  obtain ⟨n, h1, h2⟩ := onesIn_spec (d := b.data) (a := i * 8) (b := min ((i + 1) * 8) b.data.length) (by omega) (by omega)
  refine ⟨n, h1, ?_⟩
  rw [show 512 * i = 64 * (i * 8) by omega, h2]
  rw [show 512 * (i + 1) = 64 * ((i + 1) * 8) by omega]
  by_cases hc : (i + 1) * 8 ≤ b.data.length
  · rw [Nat.min_eq_left hc]
  · rw [Nat.min_eq_right (by omega)]
    exact (cnt_false (by omega) (fun j hj _ => bit_beyond (by omega))).symm

theorem compile_spec {b : BitVec} (h : b.OK) (k i : Nat) (hi : 1 ≤ i) (hk : i + k = (b.size + 511) / 512 + 1) :
    ∃ r, compile b k i (cnt (bit b.data) (512 * (i - 1))) = some r ∧ r.length = k ∧
      ∀ t : Nat, t < k → r[t]? = some (cnt (bit b.data) (512 * (i + t))) := by
  induction k generalizing i with
  | zero => exact ⟨[], rfl, rfl, by omega⟩
  | succ k ih =>
    obtain ⟨n, h1, h2⟩ := entire_spec h (i := i - 1) (by omega)
    rw [show i - 1 + 1 = i by omega] at h2
    obtain ⟨r, h3, h4, h5⟩ := ih (i + 1) (by omega) (by omega)
    rw [show i + 1 - 1 = i by omega, ← h2, Nat.add_comm (cnt _ _) n] at h3
    refine ⟨(n + cnt (bit b.data) (512 * (i - 1))) :: r, ?_, ?_, ?_⟩
    · simp only [compile, h1, Option.bind_eq_bind, Option.bind_some, Option.pure_def, h3]
    · simp [h4]
    · intro t ht
      cases t with
      | zero => simp only [List.getElem?_cons_zero, Nat.add_zero, ← h2]; rw [Nat.add_comm]
      | succ t =>
        rw [List.getElem?_cons_succ, h5 t (by omega)]
        rw [show i + 1 + t = i + (t + 1) by omega]

theorem RankMap.new_spec {b : BitVec} (h : b.OK) : ∃ m, RankMap.new b = some m ∧ m.OK ∧ m.flags = b := by
  obtain ⟨r, h1, h2, h3⟩ := compile_spec h ((b.size + 511) / 512) 1 (by omega) (by omega)
  refine ⟨⟨b, 0 :: r⟩, ?_, ⟨h, by simp [h2], ?_⟩, rfl⟩
  · have h1' : compile b ((b.size + 511) / 512) 1 0 = some r := h1
    simp only [RankMap.new, BitVec.len, h1', Option.bind_eq_bind, Option.bind_some, Option.pure_def]
  · intro i hi
    cases i with
    | zero => simp
    | succ i =>
      simp only [List.getElem?_cons_succ]
      rw [h3 i (by simp only at hi; omega), show 1 + i = i + 1 by omega]

theorem popcount_mod (w h : Nat) (hh : h ≤ 64) : popcount (w % 2 ^ h) = cnt w.testBit h := by
  unfold popcount
  have e1 : cnt (w % 2 ^ h).testBit h = cnt w.testBit h := cnt_congr (fun i hi => by
    rw [Nat.testBit_mod_two_pow]; simp [hi])
  rw [← e1]
  exact cnt_false hh (fun i hi _ => by
    rw [Nat.testBit_mod_two_pow]
    have : ¬ i < h := by omega
    simp [this])

theorem RankMap.OK.rank {m : RankMap} (h : m.OK) {key : Nat} (hk : key < m.flags.size) :
    ∃ p c, m.prefixSum[key / 512]? = some p ∧ m.bitCountPartial key = some c ∧ p + c = cnt (bit m.flags.data) key := by
  obtain ⟨w, hw, hlt⟩ := h.flags.word_of hk
  have hl : key / 64 < m.flags.data.length := (List.getElem?_eq_some_iff.1 hw).1
  obtain ⟨n, h1, h2⟩ := onesIn_spec (d := m.flags.data) (a := key / 64 / 8 * 8) (b := key / 64) (by omega) (by omega)
  refine ⟨_, n + popcount (w % (1 <<< (key % 64))), h.sums (key / 512) (by omega), ?_, ?_⟩
  · simp only [RankMap.bitCountPartial, hw, h1, Option.bind_eq_bind, Option.bind_some, Option.pure_def]
  · rw [Nat.one_shiftLeft, popcount_mod _ _ (by omega)]
    have e : key = 64 * (key / 64) + key % 64 := by omega
    rw [← Nat.add_assoc, show 512 * (key / 512) = 64 * (key / 64 / 8 * 8) by omega, h2]
    conv => rhs; rw [e, cnt_add]
    congr 1
    refine cnt_congr (fun i hi => ?_)
    rw [bit, show (64 * (key / 64) + i) / 64 = key / 64 by omega, show (64 * (key / 64) + i) % 64 = i by omega,
      List.getD_eq_getElem?_getD, hw]
    rfl

theorem RankMap.OK.len_eq {m : RankMap} (h : m.OK) : m.len = cnt (bit m.flags.data) (512 * ((m.flags.size + 511) / 512)) := by
  unfold RankMap.len
  rw [List.getLast?_eq_getElem?, h.len]
  rw [show (m.flags.size + 511) / 512 + 1 - 1 = (m.flags.size + 511) / 512 by omega, h.sums _ (by omega)]
  rfl

theorem RankMap.OK.len_words {m : RankMap} (h : m.OK) : m.len = cnt (bit m.flags.data) (64 * m.flags.data.length) := by
  rw [h.len_eq]
  have := h.flags.len
  exact cnt_false (by omega) (fun j hj _ => bit_beyond hj)

theorem RankMap.OK.get {m : RankMap} (h : m.OK) (i : Nat) :
    m.get i = some (if i < m.flags.size ∧ bit m.flags.data i = true then some (cnt (bit m.flags.data) i) else none) := by
  unfold RankMap.get
  by_cases hi : i < m.flags.size
  · simp only [hi, if_true, h.flags.get, Option.bind_eq_bind, Option.bind_some, Option.pure_def, true_and]
    by_cases hb : bit m.flags.data i = true
    · obtain ⟨p, c, h1, h2, h3⟩ := h.rank hi
      simp only [hb, if_true, h1, h2, Option.bind_some, h3]
    · simp [hb]
  · simp [hi]

theorem RankMap.OK.at_eq {m : RankMap} (h : m.OK) (i : Nat) :
    m.at' i = if i < m.flags.size ∧ bit m.flags.data i = true then some (cnt (bit m.flags.data) i) else none := by
  unfold RankMap.at'
  by_cases hi : i < m.flags.size
  · simp only [hi, if_true, h.flags.get, Option.bind_eq_bind, Option.bind_some, Option.pure_def, true_and]
    by_cases hb : bit m.flags.data i = true
    · obtain ⟨p, c, h1, h2, h3⟩ := h.rank hi
      simp only [hb, Bool.not_true, Bool.false_eq_true, if_true, if_false, h1, h2, Option.bind_some, h3]
    · simp [hb]
  · simp [hi, h.flags.get]

theorem RankMap.OK.lower {m : RankMap} (h : m.OK) (i : Nat) :
    m.atOrNextLower i = if i < m.flags.size ∧ 0 < cnt (bit m.flags.data) (i + 1) then some (cnt (bit m.flags.data) (i + 1) - 1) else none := by
  unfold RankMap.atOrNextLower
  by_cases hi : i < m.flags.size
  · obtain ⟨p, c, h1, h2, h3⟩ := h.rank hi
    simp only [hi, if_true, h1, h2, h.flags.get, Option.bind_eq_bind, Option.bind_some, Option.pure_def, true_and, h3, cnt_succ]
    by_cases hb : bit m.flags.data i = true
    · simp [hb]
    · simp only [hb, if_false, Nat.add_zero]
      by_cases hz : cnt (bit m.flags.data) i = 0
      · simp [hz]
      · have : 0 < cnt (bit m.flags.data) i := by omega
        simp [hz, this]
  · simp only [hi, false_and, if_false]
    cases m.prefixSum[i / 512]? with
    | none => simp
    | some p =>
      cases m.bitCountPartial i with
      | none => simp
      | some c => simp [h.flags.get, hi]

/-! ### select in a word -/

/-- `k` is the position of the element with rank `r` -/
def Sel (f : Nat → Bool) (r k : Nat) : Prop := f k = true ∧ cnt f k = r

theorem halve_spec {h : Nat} (hh : h ≤ 64) {w r sh : Nat} (hr : r < cnt w.testBit (2 * h)) (hw : w < 2 ^ 64) :
    ∃ w' r' δ, InvMap.halve h (w, r, sh) = some (w', r', sh + δ) ∧ w' < 2 ^ 64 ∧ r' < cnt w'.testBit h ∧
      ∀ k, Sel w'.testBit r' k → Sel w.testBit r (δ + k) := by
  have hle := cnt_le w.testBit (2 * h)
  have hlt : r < 2 * h := by omega
  unfold InvMap.halve
  simp only [hlt, if_true, popcount_mod w h hh]
  have hsh : (w >>> h).testBit = fun i => w.testBit (h + i) := by funext i; rw [Nat.testBit_shiftRight]
  have hadd : cnt w.testBit (2 * h) = cnt w.testBit h + cnt (w >>> h).testBit h := by
    rw [show 2 * h = h + h by omega, cnt_add, hsh]
  by_cases hc : cnt w.testBit h ≤ r
  · refine ⟨w >>> h, r - cnt w.testBit h, h, by simp [hc], ?_, by omega, ?_⟩
    · exact Nat.lt_of_le_of_lt (Nat.shiftRight_le _ _) hw
    · rintro k ⟨h1, h2⟩
      refine ⟨by rw [← Nat.testBit_shiftRight]; exact h1, ?_⟩
      rw [cnt_add, ← hsh, h2]; omega
  · refine ⟨w, r, 0, by simp [hc], hw, by omega, ?_⟩
    intro k hk; simpa using hk

/-- `word &= word - 1` clears the lowest set bit. -/
theorem testBit_and_pred {w t : Nat} (ht : w.testBit t = true) (hlow : ∀ i < t, w.testBit i = false) (i : Nat) :
    (w &&& (w - 1)).testBit i = (i != t && w.testBit i) := by
  have hmod : w % 2 ^ t = 0 := by
    apply Nat.eq_of_testBit_eq
    intro j
    rw [Nat.testBit_mod_two_pow, Nat.zero_testBit]
    by_cases hj : j < t
    · simp [hlow j hj]
    · simp [hj]
  obtain ⟨m, hm⟩ : ∃ m, w = 2 ^ t * m := ⟨w / 2 ^ t, by have := Nat.div_add_mod w (2 ^ t); omega⟩
  have hpos : 0 < 2 ^ t := Nat.two_pow_pos t
  have hodd : m % 2 = 1 := by
    rw [hm, Nat.testBit_two_pow_mul] at ht
    simp at ht
    exact ht
  have hw1 : w - 1 = 2 ^ t * (m - 1) + (2 ^ t - 1) := by
    have : 2 ^ t * m = 2 ^ t * (m - 1) + 2 ^ t := by
      rw [← Nat.mul_succ]; congr 1; omega
    omega
  rw [Nat.testBit_and]
  by_cases hi : i < t
  · rw [hlow i hi]; simp
  · rw [hw1, Nat.testBit_two_pow_mul_add _ (by omega), if_neg hi]
    rw [hm, Nat.testBit_two_pow_mul]
    have hge : t ≤ i := by omega
    simp only [ge_iff_le, hge, decide_true, Bool.true_and]
    by_cases hit : i = t
    · subst hit
      have : (m - 1) % 2 = 0 := by omega
      simp [this]
    · obtain ⟨j, hj⟩ : ∃ j, i - t = j + 1 := ⟨i - t - 1, by omega⟩
      rw [hj, Nat.testBit_succ, Nat.testBit_succ, show (m - 1) / 2 = m / 2 by omega]
      simp [hit]

theorem dropBits_spec (r : Nat) {w : Nat} (hr : r < cnt w.testBit 64) (hw : w < 2 ^ 64) :
    ∃ w', InvMap.dropBits r w = some w' ∧ trailingZeros w' < 64 ∧ Sel w.testBit r (trailingZeros w') := by
  have hne : w ≠ 0 := by
    rintro rfl
    have : cnt (0 : Nat).testBit 64 = 0 := by decide
    omega
  obtain ⟨h1, h2, h3⟩ := trailingZeros_spec hne hw
  induction r generalizing w with
  | zero =>
    refine ⟨w, rfl, h1, h2, ?_⟩
    rw [cnt_false (a := 0) (Nat.zero_le _) (fun i _ hi => h3 i hi)]; rfl
  | succ r ih =>
    have hb := testBit_and_pred h2 h3
    have hf : (w &&& (w - 1)).testBit = fun i => i != trailingZeros w && w.testBit i := by funext i; exact hb i
    have hc := cnt_erase h1 h2
    rw [← hf] at hc
    have hlt : w &&& (w - 1) < 2 ^ 64 := unset_lt hw
    have hne2 : w &&& (w - 1) ≠ 0 := by
      intro h0
      rw [h0] at hc
      have : cnt (0 : Nat).testBit 64 = 0 := by decide
      omega
    obtain ⟨g1, g2, g3⟩ := trailingZeros_spec hne2 hlt
    obtain ⟨w', e1, e2, e3, e4⟩ := ih (w := w &&& (w - 1)) (by omega) hlt hne2 g1 g2 g3
    refine ⟨w', by simp only [InvMap.dropBits, hne, if_false]; exact e1, e2, ?_⟩
    rw [hb] at e3
    simp at e3
    obtain ⟨hkt, hk⟩ := e3
    refine ⟨hk, ?_⟩
    have hgt : trailingZeros w < trailingZeros w' := by
      rcases Nat.lt_trichotomy (trailingZeros w') (trailingZeros w) with hl | he | hg
      · rw [h3 _ hl] at hk; cases hk
      · exact absurd he hkt
      · exact hg
    rw [← cnt_erase hgt h2, ← hf, e4]

theorem intLocalIndex_spec {w r : Nat} (hr : r < popcount w) (hw : w < 2 ^ 64) :
    ∃ k, InvMap.intLocalIndex w r = some k ∧ Sel w.testBit r k := by
  have hn : ¬ popcount w ≤ r := by omega
  obtain ⟨w1, r1, d1, a1, b1, c1, s1⟩ := halve_spec (h := 32) (sh := 0) (by omega) hr hw
  obtain ⟨w2, r2, d2, a2, b2, c2, s2⟩ := halve_spec (h := 16) (sh := 0 + d1) (by omega) c1 b1
  obtain ⟨w3, r3, d3, a3, b3, c3, s3⟩ := halve_spec (h := 8) (sh := 0 + d1 + d2) (by omega) c2 b2
  have h8 := cnt_le w3.testBit 8
  have hn8 : ¬ 8 ≤ r3 := by omega
  obtain ⟨w4, a4, b4, c4⟩ := dropBits_spec r3 (w := w3) (Nat.lt_of_lt_of_le c3 (cnt_mono _ (by omega))) b3
  have hn64 : ¬ trailingZeros w4 = 64 := by omega
  refine ⟨_, ?_, s1 _ (s2 _ (s3 _ c4))⟩
  simp only [InvMap.intLocalIndex, hn, if_false, a1, a2, a3, hn8, a4, hn64, Option.bind_eq_bind, Option.bind_some, Option.pure_def]
  congr 1; omega

theorem scanBlock_spec (rank : Nat) (ws : List Nat) (hws : ∀ w ∈ ws, w < 2 ^ 64) (sum skipped : Nat) (h1 : sum ≤ rank)
    (h2 : rank < sum + cnt (bit ws) (64 * ws.length)) :
    ∃ k, InvMap.scanBlock rank ws sum skipped = some (skipped + k) ∧ k < 64 * ws.length ∧ Sel (bit ws) (rank - sum) k := by
  induction ws generalizing sum skipped with
  | nil => simp at h2; omega
  | cons w ws ih =>
    have hsplit : ∀ n, cnt (bit (w :: ws)) (64 + n) = popcount w + cnt (bit ws) n := by
      intro n
      rw [cnt_add]
      have e1 : cnt (bit (w :: ws)) 64 = popcount w :=
        cnt_congr (fun i hi => by simp [bit, Nat.div_eq_of_lt hi, Nat.mod_eq_of_lt hi])
      have e2 : cnt (fun i => bit (w :: ws) (64 + i)) n = cnt (bit ws) n := by
        refine cnt_congr (fun i hi => ?_)
        unfold bit
        rw [show (64 + i) / 64 = i / 64 + 1 by omega, show (64 + i) % 64 = i % 64 by omega]
        rfl
      rw [e1, e2]
    rw [List.length_cons, show 64 * (ws.length + 1) = 64 + 64 * ws.length by omega, hsplit] at h2
    unfold InvMap.scanBlock
    by_cases hc : sum + popcount w > rank
    · obtain ⟨k, e1, e2, e3⟩ := intLocalIndex_spec (w := w) (r := rank - sum) (by omega) (hws w (by simp))
      have hk : k < 64 := by
        rcases Nat.lt_or_ge k 64 with h | h
        · exact h
        · rw [testBit_ge (hws w (by simp)) h] at e2; cases e2
      refine ⟨k, by simp only [hc, if_true, e1, Option.bind_eq_bind, Option.bind_some, Option.pure_def],
        by simp only [List.length_cons]; omega, ?_, ?_⟩
      · simp [bit, Nat.div_eq_of_lt hk, Nat.mod_eq_of_lt hk, e2]
      · rw [← e3]
        exact cnt_congr (fun i hi => by
          have hi' : i < 64 := by omega
          simp [bit, Nat.div_eq_of_lt hi', Nat.mod_eq_of_lt hi'])
    · obtain ⟨k, e1, e2, e3, e4⟩ := ih (fun x hx => hws x (by simp [hx])) (sum + popcount w) (skipped + 64) (by omega) (by omega)
      refine ⟨64 + k, ?_, by simp only [List.length_cons]; omega, ?_, ?_⟩
      · simp only [hc, if_false, e1]; congr 1; omega
      · unfold bit
        rw [show (64 + k) / 64 = k / 64 + 1 by omega, show (64 + k) % 64 = k % 64 by omega]
        exact e3
      · rw [hsplit, e4]; omega

/-! ### inversion -/

/-- the groups with 256 elements each point to the block of their first element -/
structure Groups (P : Nat → Nat) (N G : Nat) (blocks : List Nat) (v : Nat) : Prop where
  len : blocks.length = G + 1
  mult : v % 256 = 0
  last : blocks[G]? = some N
  good : ∀ g : Nat, 256 * g < v → ∃ b, blocks[g]? = some b ∧ b < N ∧ P b ≤ 256 * g ∧ 256 * g < P (b + 1)

theorem fillBlock_spec {P : Nat → Nat} {N G bi : Nat} (hbi : bi < N) (hG : P N ≤ 256 * G) (hmono : P (bi + 1) ≤ P N) (fuel : Nat)
    {blocks : List Nat} {v : Nat} (h : Groups P N G blocks v) (hv : P bi ≤ v) (hf : P (bi + 1) < fuel + v) (hf0 : 0 < fuel) :
    ∃ bl v', InvMap.fillBlock (P bi) (P (bi + 1)) bi fuel (blocks, v) = some (bl, v') ∧ Groups P N G bl v' ∧ P (bi + 1) ≤ v' := by
  induction fuel generalizing blocks v with
  | zero => omega
  | succ fuel ih =>
    unfold InvMap.fillBlock
    by_cases hc : v < P (bi + 1)
    · have hvG : v / 256 < G := by omega
      have hlen := h.len
      simp only [hv, hc, and_self, if_true, upd_of_lt bi (show v / 256 < blocks.length by omega), Option.bind_eq_bind, Option.bind_some]
      refine ih ⟨by simp [hlen], by have := h.mult; omega, ?_, ?_⟩ (by omega) (by omega) (by omega)
      · rw [List.getElem?_set, if_neg (by omega)]; exact h.last
      · intro g hg
        have hm := h.mult
        rw [List.getElem?_set]
        by_cases hgv : v / 256 = g
        · subst hgv
          refine ⟨bi, by simp; omega, hbi, by omega, by omega⟩
        · rw [if_neg hgv]; exact h.good g (by omega)
    · refine ⟨blocks, v, by simp [hc], h, by omega⟩

theorem fillBlocks_spec {P : Nat → Nat} {N G : Nat} (hG : P N ≤ 256 * G) (hmono : ∀ i j, i ≤ j → P i ≤ P j) (ps : List Nat) (bi : Nat)
    (hbi : bi + ps.length = N + 1) (hne : ps ≠ []) (hps : ∀ t : Nat, t < ps.length → ps[t]? = some (P (bi + t)))
    {blocks : List Nat} {v : Nat} (h : Groups P N G blocks v) (hv : P bi ≤ v) :
    ∃ bl v', InvMap.fillBlocks ps bi (blocks, v) = some (bl, v') ∧ Groups P N G bl v' ∧ P N ≤ v' := by
  induction ps generalizing bi blocks v with
  | nil => exact absurd rfl hne
  | cons lo ps ih =>
    cases ps with
    | nil =>
      have : bi = N := by simp at hbi; omega
      subst this
      exact ⟨blocks, v, rfl, h, hv⟩
    | cons hi ps =>
      have e0 : lo = P bi := by simpa using hps 0 (by simp)
      have e1 : hi = P (bi + 1) := by simpa using hps 1 (by simp)
      simp only [List.length_cons] at hbi
      obtain ⟨b1, v1, h1, h2, h3⟩ := fillBlock_spec (fuel := hi + 1) (bi := bi) (by omega) hG (hmono _ _ (by omega)) h hv (by omega) (by omega)
      obtain ⟨b2, v2, h4, h5, h6⟩ := ih (bi + 1) (by simp only [List.length_cons]; omega) (by simp) (fun t ht => by
        have := hps (t + 1) (by simp only [List.length_cons] at ht ⊢; omega)
        rw [List.getElem?_cons_succ] at this
        rw [this, show bi + (t + 1) = bi + 1 + t by omega]) h2 h3
      refine ⟨b2, v2, ?_, h5, h6⟩
      rw [InvMap.fillBlocks, e0, e1]
      rw [e1] at h1 h4
      simp only [h1, Option.bind_eq_bind, Option.bind_some]
      exact h4

/-- the number of elements in the first `i` blocks -/
def RankMap.pre (m : RankMap) (i : Nat) : Nat := cnt (bit m.flags.data) (512 * i)

def RankMap.numBlocks (m : RankMap) : Nat := (m.flags.size + 511) / 512

theorem RankMap.pre_mono (m : RankMap) (i j : Nat) (h : i ≤ j) : m.pre i ≤ m.pre j := cnt_mono _ (by omega)

theorem InvMap.new_spec {m : RankMap} (h : m.OK) :
    ∃ iv, InvMap.new m = some iv ∧ iv.map = m ∧ ∃ v, Groups m.pre m.numBlocks ((m.len + 255) / 256) iv.blocks v ∧ m.len ≤ v := by
  have hlen : m.len = m.pre m.numBlocks := h.len_eq
  have hl : (m.len + 255) / 256 < (List.replicate (1 + (m.len + 255) / 256) 0).length := by simp
  obtain ⟨bl, v, h1, h2, h3⟩ := fillBlocks_spec (P := m.pre) (N := m.numBlocks) (G := (m.len + 255) / 256) (by omega) m.pre_mono m.prefixSum 0
    (by rw [h.len]; simp [RankMap.numBlocks]) (by intro h0; have := h.len; rw [h0] at this; simp at this)
    (fun t ht => by rw [h.sums t (by rw [h.len] at ht; omega)]; simp [RankMap.pre])
    (blocks := (List.replicate (1 + (m.len + 255) / 256) 0).set ((m.len + 255) / 256) (m.prefixSum.length - 1)) (v := 0)
    ⟨by simp; omega, rfl, by rw [List.getElem?_set, if_pos rfl]; simp [h.len, RankMap.numBlocks], by omega⟩ (by simp [RankMap.pre])
  refine ⟨⟨m, bl⟩, ?_, rfl, v, h2, by omega⟩
  have e : 1 + (m.len + 255) / 256 - 1 = (m.len + 255) / 256 := by omega
  unfold InvMap.new
  simp only [e, upd_of_lt _ hl, Option.bind_eq_bind, Option.bind_some, h1, Option.pure_def]

theorem blockLocal_spec {iv : InvMap} (h : iv.map.OK) {B r : Nat} (hB : B < iv.map.numBlocks) (hr : iv.map.pre B + r < iv.map.pre (B + 1)) :
    ∃ k, iv.blockLocalIndex B r = some k ∧ k < 512 ∧ Sel (bit iv.map.flags.data) (iv.map.pre B + r) (B * 512 + k) := by
  have hl := h.flags.len
  have hB' : 8 * B < iv.map.flags.data.length := by unfold RankMap.numBlocks at hB; omega
  obtain ⟨d, hd⟩ : ∃ d, d = iv.map.flags.data := ⟨_, rfl⟩
  obtain ⟨n, hn⟩ : ∃ n, n = min ((B + 1) * 8) d.length - B * 8 := ⟨_, rfl⟩
  have hn8 : n ≤ 8 := by omega
  have hbit : ∀ j < 64 * n, bit ((d.drop (B * 8)).take n) j = bit d (B * 512 + j) := by
    intro j hj
    rw [bit_slice _ _ _ _ hj, show 64 * (B * 8) = B * 512 by omega]
  have hwl : ((d.drop (B * 8)).take n).length = n := by rw [List.length_take, List.length_drop]; omega
  have hcnt : ∀ j ≤ 64 * n, cnt (bit d) (B * 512 + j) = iv.map.pre B + cnt (bit ((d.drop (B * 8)).take n)) j := by
    intro j hj
    rw [cnt_add, RankMap.pre, ← hd, Nat.mul_comm B]
    congr 1
    rw [Nat.mul_comm 512]
    exact cnt_congr (fun i hi => (hbit i (by omega)).symm)
  have htot : iv.map.pre (B + 1) = iv.map.pre B + cnt (bit ((d.drop (B * 8)).take n)) (64 * n) := by
    rw [← hcnt _ (Nat.le_refl _), RankMap.pre, ← hd]
    exact cnt_false (by omega) (fun j h1 h2 => bit_beyond (by omega))
  obtain ⟨k, h1, h2, h3, h4⟩ := scanBlock_spec r ((d.drop (B * 8)).take n) (fun w hw => by
      have := List.mem_of_mem_take hw
      have := List.mem_of_mem_drop this
      obtain ⟨i, hi⟩ := List.mem_iff_getElem?.1 this
      rw [hd] at hi
      exact h.flags.word i w hi) 0 0 (by omega) (by rw [hwl]; omega)
  rw [hwl] at h2
  refine ⟨k, ?_, by omega, ?_, ?_⟩
  · unfold InvMap.blockLocalIndex
    have hsl : slice d (B * 8) (min ((B + 1) * 8) d.length) = some ((d.drop (B * 8)).take n) := by
      rw [hn]; exact slice_eq (by omega) (by omega)
    simp only [← hd, hsl, Option.bind_eq_bind, Option.bind_some, h1]
    simp
  · rw [← hd, ← hbit k h2]; exact h3
  · rw [← hd, hcnt k (by omega), h4]; omega

/-- `inverse` finds the element with the given rank, if the binary search returns the last match or no block is empty. -/
theorem InvMap.inverse_spec {m : RankMap} (h : m.OK) {iv : InvMap} (hiv : iv.map = m) {v : Nat}
    (hg : Groups m.pre m.numBlocks ((m.len + 255) / 256) iv.blocks v) (hv : m.len ≤ v) {bs : List Nat → Nat → Lookup} (hbs : BinarySearch bs)
    (hlast : LastMatch bs ∨ ∀ i < m.numBlocks, m.pre i < m.pre (i + 1)) {value : Nat} (hval : value < m.len) :
    ∃ i, iv.inverse bs value = some i ∧ Sel (bit m.flags.data) value i := by
  have hlen : m.len = m.pre m.numBlocks := h.len_eq
  obtain ⟨a, ha, haN, ha1, ha2⟩ := hg.good (value / 256) (by omega)
  -- the end of the search range
  obtain ⟨b, hb, hab, hbN, hbv⟩ : ∃ b, iv.blocks[value / 256 + 1]? = some b ∧ a ≤ b ∧ b ≤ m.numBlocks ∧ (b = m.numBlocks ∨ value < m.pre (b + 1)) := by
    by_cases hc : 256 * (value / 256 + 1) < v ∧ value / 256 + 1 < (m.len + 255) / 256
    · obtain ⟨b, hb, hbN, hb1, hb2⟩ := hg.good (value / 256 + 1) hc.1
      refine ⟨b, hb, ?_, by omega, Or.inr (by omega)⟩
      rcases Nat.lt_or_ge b a with hlt | hge
      · have := m.pre_mono (b + 1) a hlt; omega
      · exact hge
    · have : value / 256 + 1 = (m.len + 255) / 256 := by omega
      rw [this]
      exact ⟨m.numBlocks, hg.last, by omega, by omega, Or.inl rfl⟩
  have hpl : m.prefixSum.length = m.numBlocks + 1 := h.len
  have hsl : slice m.prefixSum a (b + 1) = some ((m.prefixSum.drop a).take (b + 1 - a)) := slice_eq (by omega) (by omega)
  obtain ⟨s, hs⟩ : ∃ s, s = (m.prefixSum.drop a).take (b + 1 - a) := ⟨_, rfl⟩
  have hslen : s.length = b + 1 - a := by rw [hs, List.length_take, List.length_drop]; omega
  have hsget : ∀ i : Nat, i < b + 1 - a → s[i]? = some (m.pre (a + i)) := by
    intro i hi
    rw [hs, List.getElem?_take_of_lt hi, List.getElem?_drop, h.sums (a + i) (by unfold RankMap.numBlocks at hbN; omega)]
    rfl
  have hsorted : s.Pairwise (· ≤ ·) := by
    rw [List.pairwise_iff_getElem]
    intro i j hi hj hij
    have e1 := hsget i (by omega)
    have e2 := hsget j (by omega)
    rw [List.getElem?_eq_getElem hi] at e1
    rw [List.getElem?_eq_getElem hj] at e2
    simp at e1 e2
    rw [e1, e2]
    exact m.pre_mono _ _ (by omega)
  -- the block that is found
  have hblock : ∃ i, InvMap.blockOf (bs s value) = some i ∧ a + i ≤ b ∧ m.pre (a + i) ≤ value ∧ value < m.pre (a + i + 1) ∧ a + i < m.numBlocks := by
    have hval' := hbs s value hsorted
    have hfin : ∀ i, a + i ≤ b → m.pre (a + i) ≤ value → (i + 1 < b + 1 - a → value < m.pre (a + i + 1)) →
        value < m.pre (a + i + 1) ∧ a + i < m.numBlocks := by
      intro i h1 h2 h3
      have hlt : a + i < m.numBlocks := by
        rcases Nat.lt_or_ge (a + i) m.numBlocks with hl | hg
        · exact hl
        · have := m.pre_mono _ _ hg; omega
      refine ⟨?_, hlt⟩
      by_cases hi : i + 1 < b + 1 - a
      · exact h3 hi
      · have e : a + i = b := by omega
        rcases hbv with hbv | hbv
        · omega
        · rw [e]; exact hbv
    cases hr : bs s value with
    | ok i =>
      rw [hr] at hval'
      have hi : i < b + 1 - a := by rw [← hslen]; exact (List.getElem?_eq_some_iff.1 hval').1
      have heq : m.pre (a + i) = value := by
        have := hsget i hi
        rw [hval'] at this; simp at this; exact this.symm
      refine ⟨i, rfl, by omega, by omega, hfin i (by omega) (by omega) (fun hi1 => ?_)⟩
      rcases hlast with hlast | hlast
      · have := hlast s value i hsorted hr (i + 1) _ (hsget (i + 1) hi1) (by omega)
        rw [show a + i + 1 = a + (i + 1) by omega]; exact this
      · have := hlast (a + i) (by omega)
        omega
    | err i =>
      rw [hr] at hval'
      obtain ⟨h1, _, h2, h3⟩ := hval'
      have h0 : i ≠ 0 := by
        rintro rfl
        have := h3 0 _ (hsget 0 (by omega)) (by omega)
        simp at this; omega
      refine ⟨i - 1, by simp [InvMap.blockOf, h0], by omega, ?_, ?_⟩
      · have := h2 (i - 1) _ (hsget (i - 1) (by omega)) (by omega); omega
      · refine hfin (i - 1) (by omega) (by have := h2 (i - 1) _ (hsget (i - 1) (by omega)) (by omega); omega) (fun hi1 => ?_)
        have := h3 (i - 1 + 1) _ (hsget (i - 1 + 1) hi1) (by omega)
        rw [show a + (i - 1) + 1 = a + (i - 1 + 1) by omega]; exact this
  obtain ⟨i, hi, hib, hlo, hhi, hBN⟩ := hblock
  obtain ⟨k, h1, h2, h3⟩ := blockLocal_spec (iv := iv) (by rw [hiv]; exact h) (B := a + i) (r := value - m.pre (a + i)) (by rw [hiv]; exact hBN)
    (by rw [hiv]; omega)
  rw [hiv] at h3
  refine ⟨(a + i) * 512 + k, ?_, ?_⟩
  · have hp : m.prefixSum[a + i]? = some (m.pre (a + i)) := h.sums (a + i) (by unfold RankMap.numBlocks at hBN; omega)
    have hn : ¬ m.len ≤ value := by omega
    have hn2 : ¬ value < m.pre (a + i) := by omega
    unfold InvMap.inverse
    rw [← hs] at hsl
    simp only [hiv, hn, if_false, ha, hb, hsl, Option.bind_eq_bind, Option.bind_some, hi, Nat.add_comm i a, hp, hn2, h1, Option.pure_def]
  · rw [show m.pre (a + i) + (value - m.pre (a + i)) = value by omega] at h3
    exact h3

/-! ### binary search -/

theorem sorted_getD {l : List Nat} (h : l.Pairwise (· ≤ ·)) {i j : Nat} (hij : i ≤ j) (hj : j < l.length) : l.getD i 0 ≤ l.getD j 0 := by
  rcases Nat.lt_or_eq_of_le hij with hlt | rfl
  · have := List.pairwise_iff_getElem.1 h i j (by omega) hj hlt
    simp only [List.getD_eq_getElem?_getD, List.getElem?_eq_getElem (show i < l.length by omega), List.getElem?_eq_getElem hj, Option.getD_some]
    exact this
  · exact Nat.le_refl _

theorem searchLoop_spec {l : List Nat} {v : Nat} (h : l.Pairwise (· ≤ ·)) (fuel base size : Nat) (hf : size ≤ fuel + 1) (hs : 1 ≤ size)
    (hl : base + size ≤ l.length) (hlo : base = 0 ∨ l.getD base 0 ≤ v) (hhi : ∀ j, base + size ≤ j → j < l.length → v < l.getD j 0) :
    searchLoop l v fuel base size < l.length ∧ (searchLoop l v fuel base size = 0 ∨ l.getD (searchLoop l v fuel base size) 0 ≤ v) ∧
      ∀ j, searchLoop l v fuel base size < j → j < l.length → v < l.getD j 0 := by
  induction fuel generalizing base size with
  | zero =>
    have : size = 1 := by omega
    subst this
    exact ⟨by simp only [searchLoop]; omega, hlo, fun j hj hjl => hhi j (by simp only [searchLoop] at hj; omega) hjl⟩
  | succ fuel ih =>
    unfold searchLoop
    by_cases hc : size > 1
    · simp only [hc, if_true]
      by_cases hm : l.getD (base + size / 2) 0 > v
      · simp only [hm, if_true]
        refine ih base (size - size / 2) (by omega) (by omega) (by omega) hlo (fun j hj hjl => ?_)
        have := sorted_getD h (show base + size / 2 ≤ j by omega) hjl
        omega
      · simp only [hm, if_false]
        exact ih (base + size / 2) (size - size / 2) (by omega) (by omega) (by omega) (Or.inr (by omega)) (fun j hj hjl => hhi j (by omega) hjl)
    · simp only [hc, if_false]
      exact ⟨by omega, hlo, fun j hj hjl => hhi j (by omega) hjl⟩

theorem getD_of_get {l : List Nat} {j x : Nat} (h : l[j]? = some x) : l.getD j 0 = x ∧ j < l.length :=
  ⟨by simp [List.getD_eq_getElem?_getD, h], (List.getElem?_eq_some_iff.1 h).1⟩

theorem stdSearch_spec : BinarySearch stdSearch ∧ LastMatch stdSearch := by
  constructor
  · intro l v hs
    unfold stdSearch
    by_cases h0 : l.length = 0
    · have : l = [] := List.eq_nil_of_length_eq_zero h0
      subst this
      simp [Lookup.Valid]
    · obtain ⟨h1, h2, h3⟩ := searchLoop_spec (v := v) hs l.length 0 l.length (by omega) (by omega) (by omega) (Or.inl rfl) (by omega)
      obtain ⟨b, hb⟩ : ∃ b, b = searchLoop l v l.length 0 l.length := ⟨_, rfl⟩
      rw [← hb] at h1 h2 h3
      simp only [h0, if_false, ← hb]
      by_cases he : l.getD b 0 = v
      · simp only [he, if_true, Lookup.Valid]
        rw [← he, List.getD_eq_getElem?_getD, List.getElem?_eq_getElem h1]; rfl
      · simp only [he, if_false, Lookup.Valid]
        have hlt : ∀ j x : Nat, l[j]? = some x → j < b + (if l.getD b 0 < v then 1 else 0) → x < v := by
          intro j x hj hjb
          obtain ⟨e1, e2⟩ := getD_of_get hj
          by_cases hlt : l.getD b 0 < v
          · rw [if_pos hlt] at hjb
            have := sorted_getD hs (show j ≤ b by omega) h1
            omega
          · rw [if_neg hlt] at hjb
            rcases h2 with h2 | h2 <;> omega
        have hgt : ∀ j x : Nat, l[j]? = some x → b + (if l.getD b 0 < v then 1 else 0) ≤ j → v < x := by
          intro j x hj hjb
          obtain ⟨e1, e2⟩ := getD_of_get hj
          by_cases hlt : l.getD b 0 < v
          · rw [if_pos hlt] at hjb
            have := h3 j (by omega) e2
            omega
          · rw [if_neg hlt] at hjb
            have := sorted_getD hs (show b ≤ j by omega) e2
            omega
        refine ⟨by split <;> omega, ?_, hlt, hgt⟩
        intro hm
        obtain ⟨j, hj⟩ := List.mem_iff_getElem?.1 hm
        rcases Nat.lt_or_ge j (b + (if l.getD b 0 < v then 1 else 0)) with hc | hc
        · have := hlt j v hj hc; omega
        · have := hgt j v hj hc; omega
  · intro l v i hs hi j x hj hij
    unfold stdSearch at hi
    by_cases h0 : l.length = 0
    · simp [h0] at hi
    · obtain ⟨h1, h2, h3⟩ := searchLoop_spec (v := v) hs l.length 0 l.length (by omega) (by omega) (by omega) (Or.inl rfl) (by omega)
      obtain ⟨b, hb⟩ : ∃ b, b = searchLoop l v l.length 0 l.length := ⟨_, rfl⟩
      rw [← hb] at h1 h2 h3
      simp only [h0, if_false, ← hb] at hi
      split at hi
      · simp at hi; subst hi
        obtain ⟨e1, e2⟩ := getD_of_get hj
        rw [← e1]; exact h3 j hij e2
      · simp at hi

theorem oldLoop_spec {l : List Nat} {v : Nat} (h : l.Pairwise (· ≤ ·)) (fuel left right : Nat) (hf : right < fuel + left) (hl : right ≤ l.length)
    (hlr : left ≤ right) (hlo : ∀ j, j < left → l.getD j 0 < v) (hhi : ∀ j, right ≤ j → j < l.length → v < l.getD j 0) :
    (oldLoop l v fuel left right).Valid l v := by
  induction fuel generalizing left right with
  | zero => omega
  | succ fuel ih =>
    unfold oldLoop
    by_cases hc : left < right
    · simp only [hc, if_true]
      obtain ⟨m, hm⟩ : ∃ m, m = left + (right - left) / 2 := ⟨_, rfl⟩
      rw [← hm]
      by_cases h1 : l.getD m 0 < v
      · simp only [h1, if_true]
        refine ih (m + 1) right (by omega) hl (by omega) (fun j hj => ?_) hhi
        have := sorted_getD h (show j ≤ m by omega) (by omega)
        omega
      · by_cases h2 : l.getD m 0 > v
        · simp only [h1, h2, if_true, if_false]
          refine ih left m (by omega) (by omega) (by omega) hlo (fun j hj hjl => ?_)
          have := sorted_getD h (show m ≤ j by omega) hjl
          omega
        · simp only [h1, h2, if_false, Lookup.Valid]
          have e : l.getD m 0 = v := by omega
          rw [← e, List.getD_eq_getElem?_getD, List.getElem?_eq_getElem (show m < l.length by omega)]; rfl
    · simp only [hc, if_false, Lookup.Valid]
      have hlt : ∀ j x : Nat, l[j]? = some x → j < left → x < v := by
        intro j x hj hjb
        obtain ⟨e1, e2⟩ := getD_of_get hj
        have := hlo j hjb; omega
      have hgt : ∀ j x : Nat, l[j]? = some x → left ≤ j → v < x := by
        intro j x hj hjb
        obtain ⟨e1, e2⟩ := getD_of_get hj
        have := hhi j (by omega) e2; omega
      refine ⟨by omega, ?_, hlt, hgt⟩
      intro hm
      obtain ⟨j, hj⟩ := List.mem_iff_getElem?.1 hm
      rcases Nat.lt_or_ge j left with hc | hc
      · have := hlt j v hj hc; omega
      · have := hgt j v hj hc; omega

theorem oldSearch_spec : BinarySearch oldSearch := fun l v h =>
  oldLoop_spec h _ _ _ (by omega) (by omega) (by omega) (by omega) (by omega)

end Bits
end Verif
