import Verif.Model.TailMapper
import Verif.Proof.RankSelect
import Verif.Proof.Reversed
set_option linter.unusedSimpArgs false
set_option linter.unusedVariables false
/- Helper lemmas for the tail lookups. -/
namespace Verif.Tail
open Spec Bits

variable {g : FOGraph}

/-- `first_out[v]` -/
def fo (g : FOGraph) (v : Nat) : Nat := g.firstOut.getD v 0

theorem fo_get (hg : g.WF) {v : Nat} (hv : v ≤ g.numNodes) : g.firstOut[v]? = some (fo g v) := by
  have := hg.fo_len
  have h : v < g.firstOut.length := by simp only [FOGraph.numNodes] at hv; omega
  simp [fo, List.getD_eq_getElem?_getD, List.getElem?_eq_getElem h]

theorem fo_mono (hg : g.WF) {u v : Nat} (h : u ≤ v) (hv : v ≤ g.numNodes) : fo g u ≤ fo g v :=
  hg.mono' h (fo_get hg (by omega)) (fo_get hg hv)

theorem fo_le (hg : g.WF) {v : Nat} (hv : v ≤ g.numNodes) : fo g v ≤ g.numArcs := hg.le_m (fo_get hg hv)

theorem fo_zero (hg : g.WF) : fo g 0 = 0 := by
  have h := hg.first
  rw [List.head?_eq_getElem?, fo_get hg (Nat.zero_le _)] at h
  simpa using h

theorem fo_last (hg : g.WF) : fo g g.numNodes = g.numArcs := by
  have h := hg.last
  rw [List.getLast?_eq_getElem?, show g.firstOut.length - 1 = g.numNodes from rfl, fo_get hg (Nat.le_refl _)] at h
  simp at h; rw [h]; rfl

theorem degree_eq (hg : g.WF) {v : Nat} (hv : v < g.numNodes) : g.degree v = some (fo g (v + 1) - fo g v) := by
  have h := fo_mono hg (show v ≤ v + 1 by omega) (show v + 1 ≤ _ by omega)
  simp only [FOGraph.degree, fo_get hg (show v + 1 ≤ _ by omega), fo_get hg (show v ≤ _ by omega), Option.bind_eq_bind, Option.bind_some, h, if_true]

/-- the nodes below `k` without arcs -/
def zeros (g : FOGraph) (k : Nat) : List Nat := (List.range k).filter (fun u => fo g (u + 1) == fo g u)

theorem zeros_succ (k : Nat) : zeros g (k + 1) = zeros g k ++ (if fo g (k + 1) = fo g k then [k] else []) := by
  simp only [zeros, List.range_succ, List.filter_append]
  by_cases h : fo g (k + 1) = fo g k <;> simp [h]

/-- the state after `k` rounds -/
structure St (g : FOGraph) (k : Nat) (st : Bits.BitVec × List Nat × Nat) : Prop where
  ok : st.1.OK
  size : st.1.size = g.numArcs + 1
  degZero : st.2.1 = (zeros g k).map (fo g)
  counter : st.2.2 = fo g k
  above : ∀ j, fo g k ≤ j → bit st.1.data j = false
  count : ∀ j, cnt (bit st.1.data) j = cnt (fun u => fo g (u + 1) != fo g u && decide (fo g u < j)) k

theorem cnt_insert {f : Nat → Bool} {i j : Nat} (h : f i = false) : cnt (fun x => x == i || f x) j = cnt f j + (if i < j then 1 else 0) := by
  induction j with
  | zero => simp
  | succ j ih =>
    rw [cnt_succ, cnt_succ, ih]
    by_cases hij : i = j
    · subst hij; simp [h]
    · have : ¬ j = i := fun h => hij h.symm
      by_cases hlt : i < j
      · have h2 : i < j + 1 := by omega
        simp only [hlt, h2, if_true, beq_iff_eq, this, Bool.false_or]; split <;> simp_all
      · have h2 : ¬ i < j + 1 := by omega
        simp only [hlt, h2, if_false, Nat.add_zero]
        simp [this]

theorem newLoop_spec (hg : g.WF) : ∀ k ≤ g.numNodes, ∃ st,
    (List.range k).foldlM (newStep g) (Bits.BitVec.new (g.numArcs + 1), [], 0) = some st ∧ St g k st := by
  intro k
  induction k with
  | zero =>
    intro _
    refine ⟨(BitVec.new (g.numArcs + 1), [], 0), rfl, BitVec.new_ok _, rfl, by simp [zeros], by simp [fo_zero hg], ?_, ?_⟩
    · intro j _
      simp only [BitVec.new, bit, List.getD_eq_getElem?_getD, List.getElem?_replicate]; split <;> simp
    · intro j
      rw [cnt_zero]
      have : cnt (bit (BitVec.new (g.numArcs + 1)).data) j = cnt (bit (BitVec.new (g.numArcs + 1)).data) 0 :=
        cnt_false (Nat.zero_le _) (fun i _ _ => by
          simp only [BitVec.new, bit, List.getD_eq_getElem?_getD, List.getElem?_replicate]; split <;> simp)
      rw [this, cnt_zero]
  | succ k ih =>
    intro hk
    obtain ⟨st, h1, h2⟩ := ih (by omega)
    have hm := fo_mono hg (show k ≤ k + 1 by omega) hk
    have hle := fo_le hg hk
    rw [List.range_succ, List.foldlM_append, h1]
    simp only [Option.bind_eq_bind, Option.bind_some, List.foldlM_cons, List.foldlM_nil]
    by_cases hd : fo g (k + 1) = fo g k
    · refine ⟨(st.1, st.2.1 ++ [st.2.2], st.2.2), ?_, h2.ok, h2.size, ?_, ?_, ?_, ?_⟩
      · simp [newStep, degree_eq hg (show k < _ by omega), hd]
      · simp only [h2.degZero, h2.counter, zeros_succ, hd, if_true, List.map_append, List.map_cons, List.map_nil]
      · rw [hd]; exact h2.counter
      · rw [hd]; exact h2.above
      · intro j; rw [h2.count j, cnt_succ]; simp [hd]
    · have hsz : st.2.2 < st.1.size := by rw [h2.size, h2.counter]; omega
      rcases h2.ok.step (.insert st.2.2) with ⟨_, b', e1, e2, e3, e4⟩ | ⟨⟨i, hi, hle⟩, _⟩
      · have hb : st.1.set st.2.2 = some b' := e1
        have hall : ∀ j, bit b'.data j = (j == fo g k || bit st.1.data j) := by
          intro j
          by_cases hj : j < 64 * st.1.data.length
          · rw [e4 j hj]; simp [SetOp.apply, h2.counter]
          · have hl := h2.ok.len; have hl' := e2.len
            rw [bit_beyond (show 64 * b'.data.length ≤ j by rw [hl', e3, ← hl]; omega), bit_beyond (show 64 * st.1.data.length ≤ j by omega)]
            have : ¬ j = fo g k := by rw [h2.counter] at hsz; omega
            simp [this]
        have hadd : add32 (fo g k) (fo g (k + 1) - fo g k) = some (fo g (k + 1)) := by
          have := hg.small.2
          simp only [FOGraph.numArcs] at hle
          rw [add32_of_lt (by simp only [U32] at *; omega)]; congr 1; omega
        refine ⟨(b', st.2.1, fo g (k + 1)), ?_, e2, by rw [e3]; exact h2.size, ?_, rfl, ?_, ?_⟩
        · have hd' : ¬ fo g (k + 1) - fo g k = 0 := by omega
          have hadd' : add32 st.2.2 (fo g (k + 1) - fo g k) = some (fo g (k + 1)) := by rw [h2.counter]; exact hadd
          simp only [newStep, degree_eq hg (show k < _ by omega), Option.bind_eq_bind, Option.bind_some, hd', if_false, hb, hadd', Option.pure_def]
        · simp only [h2.degZero, zeros_succ, hd, if_false, List.append_nil]
        · intro j hj
          rw [hall, h2.above j (by omega)]
          have : ¬ j = fo g k := by have : fo g k < fo g (k + 1) := by omega
                                    omega
          simp [this]
        · intro j
          have : cnt (bit b'.data) j = cnt (fun x => x == fo g k || bit st.1.data x) j := cnt_congr (fun i _ => hall i)
          rw [this, cnt_insert (h2.above _ (Nat.le_refl _)), h2.count j, cnt_succ]
          simp [hd]
      · simp [SetOp.index] at hi; omega

theorem skipEqual_spec {l : List Nat} (h : l.Pairwise (· ≤ ·)) {x : Nat} : ∀ (fuel i : Nat), l.length ≤ i + fuel → i ≤ l.length →
    (∀ (j y : Nat), j < i → l[j]? = some y → y ≤ x) →
    (∀ (y : Nat), l[i]? = some y → x ≤ y) →
    skipEqual l x fuel i = l.countP (fun y => decide (y ≤ x)) := by
  have key : ∀ i ≤ l.length, (∀ (j y : Nat), j < i → l[j]? = some y → y ≤ x) → (∀ (y : Nat), l[i]? = some y → x < y) → i = l.countP (fun y => decide (y ≤ x)) := by
    intro i hi h1 h2
    conv => rhs; rw [← List.take_append_drop i l, List.countP_append]
    have e1 : (l.take i).countP (fun y => decide (y ≤ x)) = i := by
      rw [List.countP_eq_length.2, List.length_take, Nat.min_eq_left hi]
      intro y hy
      obtain ⟨j, hj⟩ := List.mem_iff_getElem?.1 hy
      have hlt := (List.getElem?_eq_some_iff.1 hj).1
      rw [List.length_take] at hlt
      rw [List.getElem?_take_of_lt (by omega)] at hj
      simpa using h1 j y (by omega) hj
    have e2 : (l.drop i).countP (fun y => decide (y ≤ x)) = 0 := by
      rw [List.countP_eq_zero]
      intro y hy
      obtain ⟨j, hj⟩ := List.mem_iff_getElem?.1 hy
      rw [List.getElem?_drop] at hj
      have hl := (List.getElem?_eq_some_iff.1 hj).1
      have := h2 l[i] (List.getElem?_eq_getElem (by omega))
      have h3 := sorted_getD h (show i ≤ i + j by omega) hl
      rw [List.getD_eq_getElem?_getD, List.getD_eq_getElem?_getD, hj, List.getElem?_eq_getElem (by omega)] at h3
      simp at h3 ⊢; omega
    omega
  intro fuel
  induction fuel with
  | zero =>
    intro i hf hi h1 h2
    exact key i hi h1 (fun y hy => absurd (List.getElem?_eq_some_iff.1 hy).1 (by omega))
  | succ fuel ih =>
    intro i hf hi h1 h2
    unfold skipEqual
    split
    · rename_i he
      have hlt := (List.getElem?_eq_some_iff.1 he).1
      refine ih (i + 1) (by omega) (by omega) ?_ ?_
      · intro j y hj hy
        by_cases hji : j = i
        · subst hji; rw [he] at hy; simp at hy; omega
        · exact h1 j y (by omega) hy
      · intro y hy
        have hl := (List.getElem?_eq_some_iff.1 hy).1
        have h3 := sorted_getD h (show i ≤ i + 1 by omega) hl
        rw [List.getD_eq_getElem?_getD, List.getD_eq_getElem?_getD, he, hy] at h3
        simpa using h3
    · rename_i he
      refine key i hi h1 ?_
      intro y hy
      have := h2 y hy
      have : y ≠ x := fun h' => he (h' ▸ hy)
      omega

/-- the number of entries found by the lookup -/
theorem below_spec {bs : List Nat → Nat → Lookup} (hbs : BinarySearch bs) {l : List Nat} (h : l.Pairwise (· ≤ ·)) (x : Nat) :
    zerosBelow bs l x = l.countP (fun y => decide (y ≤ x)) := by
  have hv := hbs l x h
  unfold zerosBelow
  cases he : bs l x with
  | ok i =>
    rw [he] at hv
    have hv' : l[i]? = some x := hv
    have hi := (List.getElem?_eq_some_iff.1 hv').1
    refine skipEqual_spec h _ i (by omega) (by omega) ?_ ?_
    · intro j y hj hy
      have h3 := sorted_getD h (show j ≤ i by omega) hi
      rw [List.getD_eq_getElem?_getD, List.getD_eq_getElem?_getD, hv', hy] at h3
      simpa using h3
    · intro y hy; rw [hv'] at hy; simp at hy; omega
  | err i =>
    rw [he] at hv
    obtain ⟨h1, h2, h3, h4⟩ := hv
    have := skipEqual_spec (x := x) h l.length i (by omega) h1 (fun j y hj hy => Nat.le_of_lt (h3 j y hy hj))
      (fun y hy => Nat.le_of_lt (h4 i y hy (Nat.le_refl _)))
    simp only
    rw [← this]
    cases hl : l.length with
    | zero => rfl
    | succ n =>
      unfold skipEqual
      split
      · rename_i hx; exact absurd (List.mem_of_getElem? hx) h2
      · rfl

theorem zeros_sorted (hg : g.WF) : ∀ k ≤ g.numNodes, ((zeros g k).map (fo g)).Pairwise (· ≤ ·) := by
  intro k
  induction k with
  | zero => simp [zeros]
  | succ k ih =>
    intro hk
    rw [zeros_succ, List.map_append, List.pairwise_append]
    refine ⟨ih (by omega), by split <;> simp, ?_⟩
    intro a ha b hb
    split at hb
    · simp at hb; subst hb
      simp only [List.mem_map, zeros, List.mem_filter, List.mem_range] at ha
      obtain ⟨u, ⟨hu, _⟩, rfl⟩ := ha
      exact fo_mono hg (by omega) (by omega)
    · simp at hb

theorem zeros_count (x : Nat) : ∀ k, ((zeros g k).map (fo g)).countP (fun y => decide (y ≤ x)) =
    cnt (fun u => fo g (u + 1) == fo g u && decide (fo g u ≤ x)) k := by
  intro k
  induction k with
  | zero => simp [zeros]
  | succ k ih =>
    rw [zeros_succ, List.map_append, List.countP_append, ih, cnt_succ]
    by_cases h : fo g (k + 1) = fo g k <;> simp [h, List.countP_cons]

theorem count_all (hg : g.WF) {v e : Nat} (hv : v < g.numNodes) (h1 : fo g v ≤ e) (h2 : e < fo g (v + 1)) :
    cnt (fun u => fo g (u + 1) != fo g u && decide (fo g u < e + 1)) g.numNodes +
      cnt (fun u => fo g (u + 1) == fo g u && decide (fo g u ≤ e)) g.numNodes = v + 1 ∧
    0 < cnt (fun u => fo g (u + 1) != fo g u && decide (fo g u < e + 1)) g.numNodes := by
  have key : ∀ k ≤ g.numNodes, cnt (fun u => fo g (u + 1) != fo g u && decide (fo g u < e + 1)) k +
      cnt (fun u => fo g (u + 1) == fo g u && decide (fo g u ≤ e)) k = min k (v + 1) := by
    intro k
    induction k with
    | zero => intro _; simp
    | succ k ih =>
      intro hk
      have := ih (by omega)
      rw [cnt_succ, cnt_succ]
      by_cases hkv : k ≤ v
      · have hle : fo g k ≤ e := Nat.le_trans (fo_mono hg hkv (by omega)) h1
        have hle' : fo g k < e + 1 := by omega
        by_cases hz : fo g (k + 1) = fo g k
        · simp only [hz, hle, hle', bne_self_eq_false, beq_self_eq_true, Bool.false_and, Bool.true_and, decide_true, if_true]
          simp; omega
        · have hz' : (fo g (k + 1) == fo g k) = false := by simpa using hz
          simp only [bne, hz', hle, hle', Bool.not_false, Bool.false_and, Bool.true_and, decide_true, if_true] at this ⊢
          simp; omega
      · have hgt : e < fo g k := Nat.lt_of_lt_of_le h2 (fo_mono hg (by omega) (by omega))
        have hgt1 : ¬ fo g k ≤ e := by omega
        have hgt2 : ¬ fo g k < e + 1 := by omega
        simp only [hgt1, hgt2, decide_false, Bool.and_false]
        simp; omega
  constructor
  · rw [key _ (Nat.le_refl _)]; omega
  · have := cnt_lt (f := fun u => fo g (u + 1) != fo g u && decide (fo g u < e + 1)) hv (by
      have : ¬ fo g (v + 1) = fo g v := by omega
      simp [this]; omega)
    omega

theorem mapper_spec (hg : g.WF) : ∃ m, Mapper.new g = some m ∧ ∀ bs, BinarySearch bs → ∀ v e, v < g.numNodes →
    fo g v ≤ e → e < fo g (v + 1) → m.tail bs e = some v := by
  obtain ⟨st, h1, h2⟩ := newLoop_spec hg g.numNodes (Nat.le_refl _)
  obtain ⟨m, h3, h4, h5⟩ := RankMap.new_spec h2.ok
  refine ⟨⟨m, st.2.1⟩, by simp [Mapper.new, h1, h3], ?_⟩
  intro bs hbs v e hv hlo hhi
  have hsort := zeros_sorted hg g.numNodes (Nat.le_refl _)
  have hb := below_spec hbs hsort e
  have hc := count_all hg hv hlo hhi
  have hle := fo_le hg (show v + 1 ≤ g.numNodes by omega)
  have hlow := h4.lower e
  rw [h5, h2.count, h2.size] at hlow
  rw [if_pos ⟨by omega, hc.2⟩] at hlow
  have hs := hg.small.1
  have hn : g.numNodes < U32 := by simp only [FOGraph.numNodes]; omega
  rw [zeros_count] at hb
  unfold Mapper.tail
  rw [hlow, h2.degZero]
  simp only [Option.bind_eq_bind, Option.bind_some]
  rw [hb]
  generalize cnt _ g.numNodes = A at hc
  generalize cnt _ g.numNodes = B at hc
  rw [add32_of_lt (by omega)]
  congr 1; omega

theorem lastEqual_spec (hg : g.WF) {v e : Nat} (hv : v < g.numNodes) (h1 : fo g v ≤ e) (h2 : e < fo g (v + 1)) :
    ∀ (fuel i : Nat), v < i + fuel → i ≤ v → fo g i = e → lastEqual g.firstOut e fuel i = some v := by
  intro fuel
  induction fuel with
  | zero => intro i h h'; omega
  | succ fuel ih =>
    intro i hf hi he
    unfold lastEqual
    rw [fo_get hg (show i + 1 ≤ _ by omega)]
    simp only [Option.bind_eq_bind, Option.bind_some, Option.pure_def]
    by_cases hiv : i = v
    · subst hiv; rw [if_neg (by omega)]
    · have := fo_mono hg (show i ≤ i + 1 by omega) (by omega)
      have := fo_mono hg (show i + 1 ≤ v by omega) (by omega)
      rw [if_pos (by omega)]
      exact ih (i + 1) (by omega) (by omega) (by omega)

theorem fo_sorted (hg : g.WF) : g.firstOut.Pairwise (· ≤ ·) := by
  rw [List.pairwise_iff_getElem]
  intro i j hi hj hij
  exact hg.mono' (Nat.le_of_lt hij) (List.getElem?_eq_getElem hi) (List.getElem?_eq_getElem hj)

theorem tailOf_spec (hg : g.WF) {bs : List Nat → Nat → Lookup} (hbs : BinarySearch bs) {v e : Nat} (hv : v < g.numNodes)
    (h1 : fo g v ≤ e) (h2 : e < fo g (v + 1)) : tailOf bs g.firstOut e = some v := by
  have hle := fo_le hg (show v + 1 ≤ g.numNodes by omega)
  have hlen : g.firstOut.length = g.numNodes + 1 := by have := hg.fo_len; simp only [FOGraph.numNodes]; omega
  unfold tailOf
  rw [hg.last]
  simp only [Option.bind_eq_bind, Option.bind_some, Option.pure_def]
  rw [if_neg (by simp only [FOGraph.numArcs] at hle; omega)]
  have hvd := hbs g.firstOut e (fo_sorted hg)
  cases he : bs g.firstOut e with
  | ok i =>
    rw [he] at hvd
    have hv' : g.firstOut[i]? = some e := hvd
    have hi := (List.getElem?_eq_some_iff.1 hv').1
    rw [fo_get hg (by omega)] at hv'
    simp at hv'
    simp only
    have hiv : i ≤ v := by
      rcases Nat.lt_or_ge v i with h | h
      · have := fo_mono hg (show v + 1 ≤ i by omega) (by omega); omega
      · exact h
    exact lastEqual_spec hg hv h1 h2 _ i (by omega) hiv hv'
  | err i =>
    rw [he] at hvd
    obtain ⟨g1, g2, g3, g4⟩ := hvd
    simp only
    have a1 : v < i := by
      rcases Nat.lt_or_ge v i with h | h
      · exact h
      · have := g4 v _ (fo_get hg (by omega)) h; omega
    have a2 : i ≤ v + 1 := by
      rcases Nat.lt_or_ge (v + 1) i with h | h
      · have := g3 (v + 1) _ (fo_get hg (by omega)) h; omega
      · exact h
    rw [if_neg (by omega)]
    congr 1; omega

theorem exists_tail (hg : g.WF) {e : Nat} (he : e < g.numArcs) : ∃ v, v < g.numNodes ∧ fo g v ≤ e ∧ e < fo g (v + 1) := by
  have : ∀ k ≤ g.numNodes, e < fo g k → ∃ v, v < k ∧ fo g v ≤ e ∧ e < fo g (v + 1) := by
    intro k
    induction k with
    | zero => intro _ h; rw [fo_zero hg] at h; omega
    | succ k ih =>
      intro hk h
      by_cases hlt : e < fo g k
      · obtain ⟨v, a, b, c⟩ := ih (by omega) hlt; exact ⟨v, by omega, b, c⟩
      · exact ⟨k, by omega, by omega, h⟩
  exact this _ (Nat.le_refl _) (by rw [fo_last hg]; exact he)

theorem mem_edges (hg : g.WF) {v e : Nat} {ids : List Nat} (h : g.neighborEdgeIndices v = some ids) :
    e ∈ ids ↔ v < g.numNodes ∧ fo g v ≤ e ∧ e < fo g (v + 1) := by
  unfold FOGraph.neighborEdgeIndices FOGraph.range at h
  have hv : v < g.numNodes := by
    cases hb : g.firstOut[v + 1]? with
    | none => cases ha : g.firstOut[v]? <;> simp [ha, hb] at h
    | some b => have := (List.getElem?_eq_some_iff.1 hb).1; simp only [FOGraph.numNodes]; omega
  have hm := fo_mono hg (show v ≤ v + 1 by omega) (show v + 1 ≤ _ by omega)
  simp only [fo_get hg (show v ≤ _ by omega), fo_get hg (show v + 1 ≤ _ by omega), Option.bind_eq_bind, Option.bind_some, Option.pure_def,
    Option.some.injEq] at h
  subst h
  simp only [List.mem_map, List.mem_range]
  constructor
  · rintro ⟨i, hi, rfl⟩; omega
  · rintro ⟨_, a, b⟩; exact ⟨e - fo g v, by omega, by omega⟩

end Verif.Tail
