import Verif.Model.Sequences
import Verif.Proof.BitVec
import Verif.Proof.CCHBuild
set_option linter.unusedSimpArgs false
set_option linter.unusedVariables false
/- Helper lemmas for the merging iterators and `filter_covered`. -/
namespace Verif.Seq
open Spec

/-! ### interleaving -/

theorem alternate_nil {α : Type _} (b : List α) : alternate [] b = b := by rw [alternate]
theorem alternate_cons {α : Type _} (x : α) (a b : List α) : alternate (x :: a) b = x :: alternate b a := by rw [alternate]
theorem alternate_nil_right {α : Type _} (a : List α) : alternate a [] = a := by
  cases a with
  | nil => rw [alternate_nil]
  | cons x a => rw [alternate_cons, alternate_nil]

theorem interleave_collect {α : Type} : ∀ (fuel : Nat) (a b : List α) (flag : Bool), a.length + b.length < fuel →
    collect Interleave.next fuel ⟨a, b, flag⟩ = some (if flag then alternate b a else alternate a b) := by
  intro fuel
  induction fuel with
  | zero => intro a b flag h; omega
  | succ fuel ih =>
    intro a b flag h
    cases flag with
    | false =>
      cases a with
      | nil =>
        cases b with
        | nil => simp [collect, Interleave.next, pull, alternate_nil]
        | cons y b =>
          have := ih [] b true (by simp at h ⊢; omega)
          simp [collect, Interleave.next, pull, this, alternate_nil, alternate_nil_right]
      | cons x a =>
        have := ih a b true (by simp at h ⊢; omega)
        simp [collect, Interleave.next, pull, this, alternate_cons]
    | true =>
      cases b with
      | nil =>
        cases a with
        | nil => simp [collect, Interleave.next, pull, alternate_nil]
        | cons y a =>
          have := ih a [] false (by simp at h ⊢; omega)
          simp [collect, Interleave.next, pull, this, alternate_nil, alternate_nil_right]
      | cons x b =>
        have := ih a b false (by simp at h ⊢; omega)
        simp [collect, Interleave.next, pull, this, alternate_cons]

theorem alternate_perm {α : Type _} : ∀ (n : Nat) (a b : List α), a.length + b.length = n → (alternate a b).Perm (a ++ b) := by
  intro n
  induction n with
  | zero => intro a b h; cases a <;> cases b <;> simp at h; simp [alternate_nil]
  | succ n ih =>
    intro a b h
    cases a with
    | nil => simp [alternate_nil]
    | cons x a =>
      rw [alternate_cons]
      exact ((ih b a (by simp at h; omega)).trans List.perm_append_comm).cons x

theorem alternate_sublist {α : Type _} : ∀ (n : Nat) (a b : List α), a.length + b.length = n →
    a.Sublist (alternate a b) ∧ b.Sublist (alternate a b) := by
  intro n
  induction n with
  | zero => intro a b h; cases a <;> cases b <;> simp at h; simp [alternate_nil]
  | succ n ih =>
    intro a b h
    cases a with
    | nil => simp [alternate_nil]
    | cons x a =>
      rw [alternate_cons]
      have := ih b a (by simp at h; omega)
      exact ⟨this.2.cons₂ x, this.1.cons x⟩

/-! ### sweeping -/

theorem sweep_collect : ∀ (fuel : Nat) (a b : List Nat), a.length + b.length < fuel → ∃ out, collect sweepNext fuel (a, b) = some out ∧
    out.filterMap Prod.fst = a ∧ out.filterMap Prod.snd = b ∧
    (∀ p ∈ out, p ≠ (none, none) ∧ ∀ x y, p = (some x, some y) → x = y) ∧
    (∀ z, (∀ x ∈ a, z < x) → (∀ x ∈ b, z < x) → ∀ k ∈ out.filterMap sweepKey, z < k) ∧
    (a.Pairwise (· < ·) → b.Pairwise (· < ·) → (out.filterMap sweepKey).Pairwise (· < ·)) := by
  intro fuel
  induction fuel with
  | zero => intro a b h; omega
  | succ fuel ih =>
    intro a b h
    cases a with
    | nil =>
      cases b with
      | nil => exact ⟨[], by simp [collect, sweepNext]⟩
      | cons y b =>
        obtain ⟨out, h1, h2, h3, h4, h5, h6⟩ := ih [] b (by simp at h ⊢; omega)
        refine ⟨(none, some y) :: out, by simp [collect, sweepNext, h1], by simp [h2], by simp [h3], ?_, ?_, ?_⟩
        · intro p hp
          rcases List.mem_cons.1 hp with rfl | hp
          · simp
          · exact h4 p hp
        · intro z hz1 hz2 k hk
          simp only [List.filterMap_cons, sweepKey, List.mem_cons] at hk
          rcases hk with rfl | hk
          · exact hz2 _ (by simp)
          · exact h5 z hz1 (fun x hx => hz2 x (by simp [hx])) k hk
        · intro ha hb
          have hb' := List.pairwise_cons.1 hb
          simp only [List.filterMap_cons, sweepKey, List.pairwise_cons]
          exact ⟨h5 y (by simp) hb'.1, h6 ha hb'.2⟩
    | cons x a =>
      have left : ∀ b, a.length + b.length < fuel → (∀ y ∈ b, x ≤ y) → (b.Pairwise (· < ·) → ∀ y ∈ b, x < y) →
          sweepNext (x :: a, b) = some ((some x, none), a, b) →
          ∃ out, collect sweepNext (fuel + 1) (x :: a, b) = some out ∧
          out.filterMap Prod.fst = x :: a ∧ out.filterMap Prod.snd = b ∧
          (∀ p ∈ out, p ≠ (none, none) ∧ ∀ x y, p = (some x, some y) → x = y) ∧
          (∀ z, (∀ x' ∈ x :: a, z < x') → (∀ x ∈ b, z < x) → ∀ k ∈ out.filterMap sweepKey, z < k) ∧
          ((x :: a).Pairwise (· < ·) → b.Pairwise (· < ·) → (out.filterMap sweepKey).Pairwise (· < ·)) := by
        intro b hl _ hb hn
        obtain ⟨out, h1, h2, h3, h4, h5, h6⟩ := ih a b hl
        refine ⟨(some x, none) :: out, by simp [collect, hn, h1], by simp [h2], by simp [h3], ?_, ?_, ?_⟩
        · intro p hp
          rcases List.mem_cons.1 hp with rfl | hp
          · simp
          · exact h4 p hp
        · intro z hz1 hz2 k hk
          simp only [List.filterMap_cons, sweepKey, List.mem_cons] at hk
          rcases hk with rfl | hk
          · exact hz1 _ (by simp)
          · exact h5 z (fun x hx => hz1 x (by simp [hx])) hz2 k hk
        · intro ha hb'
          have ha' := List.pairwise_cons.1 ha
          simp only [List.filterMap_cons, sweepKey, List.pairwise_cons]
          exact ⟨h5 x ha'.1 (hb hb'), h6 ha'.2 hb'⟩
      cases b with
      | nil => exact left [] (by simp at h ⊢; omega) (by simp) (by simp) rfl
      | cons y b =>
        by_cases hxy : x < y
        · obtain ⟨out, h1, h2, h3, h4, h5, h6⟩ := ih a (y :: b) (by simp at h ⊢; omega)
          refine ⟨(some x, none) :: out, by simp [collect, sweepNext, hxy, h1], by simp [h2], by simp [h3], ?_, ?_, ?_⟩
          · intro p hp
            rcases List.mem_cons.1 hp with rfl | hp
            · simp
            · exact h4 p hp
          · intro z hz1 hz2 k hk
            simp only [List.filterMap_cons, sweepKey, List.mem_cons] at hk
            rcases hk with rfl | hk
            · exact hz1 _ (by simp)
            · exact h5 z (fun x hx => hz1 x (by simp [hx])) hz2 k hk
          · intro ha hb'
            have ha' := List.pairwise_cons.1 ha
            have hb2 := List.pairwise_cons.1 hb'
            simp only [List.filterMap_cons, sweepKey, List.pairwise_cons]
            refine ⟨h5 x ha'.1 ?_, h6 ha'.2 hb'⟩
            intro v hv
            rcases List.mem_cons.1 hv with rfl | hv
            · exact hxy
            · have := hb2.1 v hv; omega
        · by_cases hyx : y < x
          · obtain ⟨out, h1, h2, h3, h4, h5, h6⟩ := ih (x :: a) b (by simp at h ⊢; omega)
            refine ⟨(none, some y) :: out, by simp [collect, sweepNext, hxy, hyx, h1], by simp [h2], by simp [h3], ?_, ?_, ?_⟩
            · intro p hp
              rcases List.mem_cons.1 hp with rfl | hp
              · simp
              · exact h4 p hp
            · intro z hz1 hz2 k hk
              simp only [List.filterMap_cons, sweepKey, List.mem_cons] at hk
              rcases hk with rfl | hk
              · exact hz2 _ (by simp)
              · exact h5 z hz1 (fun x hx => hz2 x (by simp [hx])) k hk
            · intro ha hb'
              have ha' := List.pairwise_cons.1 ha
              have hb2 := List.pairwise_cons.1 hb'
              simp only [List.filterMap_cons, sweepKey, List.pairwise_cons]
              refine ⟨h5 y ?_ hb2.1, h6 ha hb2.2⟩
              intro v hv
              rcases List.mem_cons.1 hv with rfl | hv
              · exact hyx
              · have := ha'.1 v hv; omega
          · have he : x = y := by omega
            subst he
            obtain ⟨out, h1, h2, h3, h4, h5, h6⟩ := ih a b (by simp at h ⊢; omega)
            refine ⟨(some x, some x) :: out, by simp [collect, sweepNext, h1], by simp [h2], by simp [h3], ?_, ?_, ?_⟩
            · intro p hp
              rcases List.mem_cons.1 hp with rfl | hp
              · simp
              · exact h4 p hp
            · intro z hz1 hz2 k hk
              simp only [List.filterMap_cons, sweepKey, List.mem_cons] at hk
              rcases hk with rfl | hk
              · exact hz1 _ (by simp)
              · exact h5 z (fun x hx => hz1 x (by simp [hx])) (fun x hx => hz2 x (by simp [hx])) k hk
            · intro ha hb'
              have ha' := List.pairwise_cons.1 ha
              have hb2 := List.pairwise_cons.1 hb'
              simp only [List.filterMap_cons, sweepKey, List.pairwise_cons]
              exact ⟨h5 x ha'.1 hb2.1, h6 ha'.2 hb2.2⟩

/-! ### `filter_covered` -/

open Bits

/-- index `i` is active with end `k` -/
def In (m : Active) (k i : Nat) : Prop := ∃ e ∈ m, e.1 = k ∧ i ∈ e.2

theorem in_split (m : Active) (k k' i : Nat) : (In (splitOff m k).1 k' i ↔ In m k' i ∧ k' < k) ∧ (In (splitOff m k).2 k' i ↔ In m k' i ∧ k ≤ k') := by
  simp only [In, splitOff, List.mem_filter, decide_eq_true_eq]
  constructor
  · constructor
    · rintro ⟨e, ⟨h1, h2⟩, rfl, h3⟩; exact ⟨⟨e, h1, rfl, h3⟩, h2⟩
    · rintro ⟨⟨e, h1, rfl, h3⟩, h2⟩; exact ⟨e, ⟨h1, h2⟩, rfl, h3⟩
  · constructor
    · rintro ⟨e, ⟨h1, h2⟩, rfl, h3⟩; exact ⟨⟨e, h1, rfl, h3⟩, h2⟩
    · rintro ⟨⟨e, h1, rfl, h3⟩, h2⟩; exact ⟨e, ⟨h1, h2⟩, rfl, h3⟩

theorem in_push (m : Active) (k i k' i' : Nat) : In (pushAt m k i) k' i' ↔ In m k' i' ∨ k' = k ∧ i' = i := by
  unfold pushAt
  split
  · rename_i h
    simp only [List.any_eq_true, beq_iff_eq] at h
    obtain ⟨e0, he0, hk0⟩ := h
    simp only [In, List.mem_map]
    constructor
    · rintro ⟨e, ⟨e1, h1, rfl⟩, h2, h3⟩
      by_cases hk : e1.1 = k
      · rw [if_pos hk] at h2 h3
        simp only [List.mem_append, List.mem_singleton] at h3
        rcases h3 with h3 | h3
        · exact Or.inl ⟨e1, h1, h2, h3⟩
        · exact Or.inr ⟨by rw [← h2]; exact hk, h3⟩
      · rw [if_neg hk] at h2 h3
        exact Or.inl ⟨e1, h1, h2, h3⟩
    · rintro (⟨e, h1, h2, h3⟩ | ⟨rfl, rfl⟩)
      · refine ⟨_, ⟨e, h1, rfl⟩, ?_⟩
        split <;> simp [h2, h3]
      · exact ⟨_, ⟨e0, he0, rfl⟩, by rw [if_pos hk0]; simp [hk0]⟩
  · simp only [In, List.mem_append, List.mem_singleton]
    constructor
    · rintro ⟨e, h1 | rfl, h2, h3⟩
      · exact Or.inl ⟨e, h1, h2, h3⟩
      · simp at h3; exact Or.inr ⟨h2.symm, h3⟩
    · rintro (⟨e, h1, h2, h3⟩ | ⟨rfl, rfl⟩)
      · exact ⟨e, Or.inl h1, h2, h3⟩
      · exact ⟨(k', [i']), Or.inr rfl, rfl, by simp⟩

theorem setAll_spec (n : Nat) : ∀ (is : List Nat) (c : Bits.BitVec), c.OK → c.size = n → (∀ i ∈ is, i < n) →
    ∃ c', is.foldlM (fun c idx => c.set idx) c = some c' ∧ c'.OK ∧ c'.size = n ∧ ∀ j, bit c'.data j = true ↔ j ∈ is ∨ bit c.data j = true := by
  intro is
  induction is with
  | nil => intro c h1 h2 _; exact ⟨c, rfl, h1, h2, by simp⟩
  | cons i is ih =>
    intro c h1 h2 h3
    rcases h1.step (.insert i) with ⟨_, b', e1, e2, e3, e4⟩ | ⟨⟨k, hk, hle⟩, _⟩
    · obtain ⟨c', g1, g2, g3, g4⟩ := ih b' e2 (by rw [e3, h2]) (fun j hj => h3 j (by simp [hj]))
      refine ⟨c', ?_, g2, g3, ?_⟩
      · rw [List.foldlM_cons, show c.set i = some b' from e1]; exact g1
      · intro j
        rw [g4 j]
        by_cases hj : j < 64 * c.data.length
        · rw [e4 j hj]; simp [SetOp.apply]
          constructor
          · rintro (h | h | h) <;> simp [h]
          · rintro ((h | h) | h) <;> simp [h]
        · have hl := h1.len; have hl' := e2.len
          rw [bit_beyond (show 64 * b'.data.length ≤ j by rw [hl', e3, ← hl]; omega), bit_beyond (show 64 * c.data.length ≤ j by omega)]
          have := h3 i (by simp)
          have hne : ¬ j = i := by omega
          simp [hne]
    · simp [SetOp.index] at hk
      have := h3 i (by simp); omega

theorem setOver_spec (n : Nat) : ∀ (over : Active) (c : Bits.BitVec), c.OK → c.size = n → (∀ k i, In over k i → i < n) →
    ∃ c', over.foldlM (fun c e => e.2.foldlM (fun c idx => c.set idx) c) c = some c' ∧ c'.OK ∧ c'.size = n ∧
      ∀ j, bit c'.data j = true ↔ (∃ k, In over k j) ∨ bit c.data j = true := by
  intro over
  induction over with
  | nil => intro c h1 h2 _; exact ⟨c, rfl, h1, h2, by simp [In]⟩
  | cons e over ih =>
    intro c h1 h2 h3
    obtain ⟨c1, a1, a2, a3, a4⟩ := setAll_spec n e.2 c h1 h2 (fun i hi => h3 e.1 i ⟨e, by simp, rfl, hi⟩)
    obtain ⟨c', g1, g2, g3, g4⟩ := ih c1 a2 a3 (fun k i ⟨e', h4, h5⟩ => h3 k i ⟨e', by simp [h4], h5⟩)
    refine ⟨c', ?_, g2, g3, ?_⟩
    · rw [List.foldlM_cons, a1]; exact g1
    · intro j
      rw [g4, a4]
      constructor
      · rintro (⟨k, e', h4, h5⟩ | h4 | h4)
        · exact Or.inl ⟨k, e', by simp [h4], h5⟩
        · exact Or.inl ⟨e.1, e, by simp, rfl, h4⟩
        · exact Or.inr h4
      · rintro (⟨k, e', h4, h5, h6⟩ | h4)
        · rcases List.mem_cons.1 h4 with rfl | h4
          · exact Or.inr (Or.inl h6)
          · exact Or.inl ⟨k, e', h4, h5, h6⟩
        · exact Or.inr (Or.inr h4)

/-- the state after the first `k` ranges of `l` -/
structure CovInv (l : List Rng) (k : Nat) (st : Active × Bits.BitVec) : Prop where
  ok : st.2.OK
  size : st.2.size = l.length
  cov : ∀ i, bit st.2.data i = true ↔ i < k ∧ ∃ r, l[i]? = some r ∧ ∃ (j : Nat) (r' : Rng), i < j ∧ j < k ∧ l[j]? = some r' ∧ r'.stop ≤ r.stop
  act : ∀ e i, In st.1 e i → i < k ∧ ∃ r, l[i]? = some r ∧ r.stop = e
  left : ∀ (i : Nat) (r : Rng), i < k → l[i]? = some r → bit st.2.data i = true ∨ In st.1 r.stop i ∨
    ∃ (j : Nat) (r' : Rng), j < k ∧ l[j]? = some r' ∧ r.stop < r'.start

theorem coverStep_spec {l : List Rng} (hs : l.Pairwise rngLe) (hwf : ∀ r ∈ l, r.start ≤ r.stop) {k : Nat} {r : Rng} (hk : l[k]? = some r)
    {st : Active × Bits.BitVec} (h : CovInv l k st) : ∃ st', coverStep st (r, k) = some st' ∧ CovInv l (k + 1) st' := by
  have hlt := (List.getElem?_eq_some_iff.1 hk).1
  have hwr := hwf r (List.mem_of_getElem? hk)
  have hle : ∀ (j : Nat) (r' : Rng), j < k → l[j]? = some r' → rngLe r' r := by
    intro j r' hj hr'
    have := List.pairwise_iff_getElem.1 hs j k (List.getElem?_eq_some_iff.1 hr').1 hlt hj
    rwa [(List.getElem?_eq_some_iff.1 hr').2, (List.getElem?_eq_some_iff.1 hk).2] at this
  obtain ⟨c', g1, g2, g3, g4⟩ := setOver_spec l.length (splitOff (splitOff st.1 r.start).2 r.stop).2 st.2 h.ok h.size (by
    intro e i hi
    have h1 := ((in_split _ _ _ _).2.1 hi).1
    have h2 := ((in_split _ _ _ _).2.1 h1).1
    have := (h.act e i h2).1; omega)
  have hover : ∀ e i, In (splitOff (splitOff st.1 r.start).2 r.stop).2 e i ↔ In st.1 e i ∧ r.stop ≤ e := by
    intro e i
    rw [(in_split _ _ _ _).2, (in_split _ _ _ _).2]
    constructor
    · rintro ⟨⟨a, b⟩, c⟩; exact ⟨a, c⟩
    · rintro ⟨a, c⟩; exact ⟨⟨a, by omega⟩, c⟩
  have hact : ∀ e i, In (pushAt (splitOff (splitOff st.1 r.start).2 r.stop).1 r.stop k) e i ↔
      (In st.1 e i ∧ r.start ≤ e ∧ e < r.stop) ∨ e = r.stop ∧ i = k := by
    intro e i
    rw [in_push, (in_split _ _ _ _).1, (in_split _ _ _ _).2]
    constructor
    · rintro (⟨⟨a, b⟩, c⟩ | a)
      · exact Or.inl ⟨a, b, c⟩
      · exact Or.inr a
    · rintro (⟨a, b, c⟩ | a)
      · exact Or.inl ⟨⟨a, b⟩, c⟩
      · exact Or.inr a
  refine ⟨(_, c'), by simp only [coverStep, g1, Option.bind_eq_bind, Option.bind_some, Option.pure_def]; rfl, g2, g3, ?_, ?_, ?_⟩
  · intro i
    show bit c'.data i = true ↔ _
    rw [g4]
    constructor
    · rintro (⟨e, he⟩ | hb)
      · obtain ⟨h1, h2⟩ := (hover e i).1 he
        obtain ⟨h3, r1, h4, h5⟩ := h.act e i h1
        exact ⟨by omega, r1, h4, k, r, h3, by omega, hk, by omega⟩
      · obtain ⟨h1, r1, h2, j, r', h3, h4, h5, h6⟩ := (h.cov i).1 hb
        exact ⟨by omega, r1, h2, j, r', h3, by omega, h5, h6⟩
    · rintro ⟨h1, r1, h2, j, r', h3, h4, h5, h6⟩
      by_cases hjk : j < k
      · exact Or.inr ((h.cov i).2 ⟨by omega, r1, h2, j, r', h3, hjk, h5, h6⟩)
      · have hjk : j = k := by omega
        subst hjk
        rw [hk] at h5; simp at h5; subst h5
        rcases h.left i r1 h3 h2 with g | g | ⟨j2, r2, g5, g6, g7⟩
        · exact Or.inr g
        · exact Or.inl ⟨_, (hover _ _).2 ⟨g, h6⟩⟩
        · have := hle j2 r2 g5 g6
          simp only [rngLe] at this
          omega
  · intro e i hi
    rcases (hact e i).1 hi with ⟨h1, _⟩ | ⟨rfl, rfl⟩
    · obtain ⟨h3, r1, h4, h5⟩ := h.act e i h1
      exact ⟨by omega, r1, h4, h5⟩
    · exact ⟨by omega, r, hk, rfl⟩
  · intro i r1 hi hr1
    by_cases hik : i = k
    · subst hik
      rw [hk] at hr1; simp at hr1; subst hr1
      exact Or.inr (Or.inl ((hact _ _).2 (Or.inr ⟨rfl, rfl⟩)))
    · rcases h.left i r1 (by omega) hr1 with g | g | ⟨j2, r2, g5, g6, g7⟩
      · exact Or.inl ((g4 i).2 (Or.inr g))
      · by_cases h1 : r1.stop < r.start
        · exact Or.inr (Or.inr ⟨k, r, by omega, hk, h1⟩)
        · by_cases h2 : r.stop ≤ r1.stop
          · exact Or.inl ((g4 i).2 (Or.inl ⟨_, (hover _ _).2 ⟨g, h2⟩⟩))
          · exact Or.inr (Or.inl ((hact _ _).2 (Or.inl ⟨g, by omega, by omega⟩)))
      · exact Or.inr (Or.inr ⟨j2, r2, by omega, g6, g7⟩)

theorem cover_loop {l : List Rng} (hs : l.Pairwise rngLe) (hwf : ∀ r ∈ l, r.start ≤ r.stop) : ∀ (rest : List Rng) (k : Nat) (st : Active × Bits.BitVec),
    l.drop k = rest → CovInv l k st → ∃ st', (rest.zipIdx k).foldlM coverStep st = some st' ∧ CovInv l (k + rest.length) st' := by
  intro rest
  induction rest with
  | nil => intro k st _ h; exact ⟨st, rfl, h⟩
  | cons r rest ih =>
    intro k st hd h
    have hk : l[k]? = some r := by
      have : (l.drop k)[0]? = some r := by rw [hd]; rfl
      simpa using this
    obtain ⟨st1, h1, h2⟩ := coverStep_spec hs hwf hk h
    obtain ⟨st2, h3, h4⟩ := ih (k + 1) st1 (by rw [← List.drop_drop, hd]; rfl) h2
    refine ⟨st2, ?_, by rw [List.length_cons]; rwa [Nat.add_assoc, Nat.add_comm 1] at h4⟩
    rw [List.zipIdx_cons, List.foldlM_cons, h1]; exact h3

theorem filterCovered_spec {srt : List Rng → List Rng} {ranges : List Rng} (hp : (srt ranges).Perm ranges) (hs : (srt ranges).Pairwise rngLe)
    (hwf : ∀ r ∈ ranges, r.start ≤ r.stop) : ∃ out, filterCovered srt ranges = some out ∧ (∀ r, r ∈ out ↔ MinimalIn ranges r) ∧
      out.Pairwise (fun a b => a.start < b.start ∧ a.stop < b.stop) := by
  generalize hl : srt ranges = l at hp hs
  have hwf' : ∀ r ∈ l, r.start ≤ r.stop := fun r hr => hwf r (hp.mem_iff.1 hr)
  obtain ⟨st, h1, h2⟩ := cover_loop hs hwf' l 0 ([], BitVec.new l.length) rfl ⟨BitVec.new_ok _, rfl, by
      intro i
      simp only [BitVec.new, bit, List.getD_eq_getElem?_getD, List.getElem?_replicate]; split <;> simp,
    by intro e i ⟨e', h, _⟩; simp at h, by intro i r h; omega⟩
  rw [Nat.zero_add] at h2
  have hflags : (List.range l.length).mapM st.2.get = some ((List.range l.length).map (bit st.2.data)) := by
    refine mapM_some (fun i hi => ?_)
    rw [h2.ok.get, h2.size, if_pos (List.mem_range.1 hi)]
  refine ⟨((l.zip ((List.range l.length).map (bit st.2.data))).filter (fun p => !p.2)).map Prod.fst, ?_, ?_, ?_⟩
  · simp only [filterCovered, hl, h1, hflags, Option.bind_eq_bind, Option.bind_some, Option.pure_def]
  · intro r
    have hmem : r ∈ ((l.zip ((List.range l.length).map (bit st.2.data))).filter (fun p => !p.2)).map Prod.fst ↔
        ∃ i : Nat, l[i]? = some r ∧ bit st.2.data i = false := by
      simp only [List.mem_map, List.mem_filter]
      constructor
      · rintro ⟨⟨r', f⟩, ⟨h3, h4⟩, rfl⟩
        obtain ⟨i, hi⟩ := List.mem_iff_getElem?.1 h3
        rw [List.getElem?_zip_eq_some] at hi
        obtain ⟨h5, h6⟩ := hi
        have hlt := (List.getElem?_eq_some_iff.1 h5).1
        rw [List.getElem?_map, List.getElem?_range hlt] at h6
        simp at h6 h4
        exact ⟨i, h5, by rw [h6]; exact h4⟩
      · rintro ⟨i, h3, h4⟩
        have hlt := (List.getElem?_eq_some_iff.1 h3).1
        refine ⟨(r, false), ⟨?_, rfl⟩, rfl⟩
        refine List.mem_of_getElem? (i := i) ?_
        rw [List.getElem?_zip_eq_some]
        exact ⟨h3, by rw [List.getElem?_map, List.getElem?_range hlt]; simp [h4]⟩
    rw [hmem]
    constructor
    · rintro ⟨i, h3, h4⟩
      have hi := (List.getElem?_eq_some_iff.1 h3).1
      refine ⟨hp.mem_iff.1 (List.mem_of_getElem? h3), ?_⟩
      intro r' hr' hc
      obtain ⟨j, hj⟩ := List.mem_iff_getElem?.1 (hp.mem_iff.2 hr')
      have hjl := (List.getElem?_eq_some_iff.1 hj).1
      rcases Nat.lt_trichotomy i j with hij | hij | hij
      · exfalso
        have : bit st.2.data i = true := (h2.cov i).2 ⟨hi, r, h3, j, r', hij, hjl, hj, hc.2⟩
        rw [h4] at this; simp at this
      · subst hij; rw [h3] at hj; simp at hj; exact hj.symm
      · have := List.pairwise_iff_getElem.1 hs j i hjl hi hij
        rw [(List.getElem?_eq_some_iff.1 h3).2, (List.getElem?_eq_some_iff.1 hj).2] at this
        have h5 := hc.1; have h6 := hc.2
        simp only [rngLe] at this
        cases r; cases r'; simp only [Rng.mk.injEq] at *; omega
    · rintro ⟨h3, h4⟩
      have hr : r ∈ l := hp.mem_iff.2 h3
      -- the last occurrence
      have hlast : ∃ i : Nat, l[i]? = some r ∧ ∀ j : Nat, l[j]? = some r → j ≤ i := by
        obtain ⟨i0, hi0⟩ := List.mem_iff_getElem?.1 hr
        have : ∀ (d i : Nat), l.length ≤ i + d → l[i]? = some r → ∃ i : Nat, l[i]? = some r ∧ ∀ j : Nat, l[j]? = some r → j ≤ i := by
          intro d
          induction d with
          | zero => intro i hd hi; exact absurd (List.getElem?_eq_some_iff.1 hi).1 (by omega)
          | succ d ih =>
            intro i hd hi
            by_cases hex : ∃ j : Nat, l[j]? = some r ∧ i < j
            · obtain ⟨j, hj, hij⟩ := hex
              exact ih j (by omega) hj
            · refine ⟨i, hi, fun j hj => ?_⟩
              rcases Nat.lt_or_ge i j with h | h
              · exact absurd ⟨j, hj, h⟩ hex
              · exact h
        exact this l.length i0 (by omega) hi0
      obtain ⟨i, hi, hmax⟩ := hlast
      refine ⟨i, hi, ?_⟩
      cases hb : bit st.2.data i with
      | false => rfl
      | true =>
        exfalso
        obtain ⟨_, r1, h5, j, r', h6, h7, h8, h9⟩ := (h2.cov i).1 hb
        rw [hi] at h5; simp at h5; subst h5
        have := List.pairwise_iff_getElem.1 hs i j (List.getElem?_eq_some_iff.1 hi).1 (List.getElem?_eq_some_iff.1 h8).1 h6
        rw [(List.getElem?_eq_some_iff.1 hi).2, (List.getElem?_eq_some_iff.1 h8).2] at this
        have hst : r.start ≤ r'.start := by simp only [rngLe] at this; omega
        have := h4 r' (hp.mem_iff.1 (List.mem_of_getElem? h8)) ⟨hst, h9⟩
        subst this
        have := hmax j h8; omega
  · rw [List.pairwise_map, List.pairwise_filter, List.pairwise_iff_getElem]
    intro i j hi hj hij h3 h4
    simp only [List.length_zip, List.length_map, List.length_range, Nat.min_self] at hi hj
    simp only [List.getElem_zip, List.getElem_map, List.getElem_range] at h3 h4 ⊢
    have hle := List.pairwise_iff_getElem.1 hs i j hi hj hij
    have hstop : l[i].stop < l[j].stop := by
      rcases Nat.lt_or_ge l[i].stop l[j].stop with h | h
      · exact h
      · have : bit st.2.data i = true := (h2.cov i).2 ⟨hi, l[i], List.getElem?_eq_getElem hi, j, l[j], hij, hj, List.getElem?_eq_getElem hj, h⟩
        rw [this] at h3; simp at h3
    simp only [rngLe] at hle
    omega

end Verif.Seq
