import Verif.Model.MultiMetric
import Verif.Proof.CCHPath
set_option linter.unusedSimpArgs false
set_option linter.unusedVariables false
/- The metrics that are chosen for a query. -/
namespace Verif
namespace MultiMetric
open Spec (PERIOD)
open CCH

theorem copies_spec {latest idx : Nat} : ∀ (k : Nat) (r : TRange), r.start ≤ r.fin → r.fin + k * PERIOD < U32 →
    ∃ l, copies latest idx k r = some l ∧ ∀ e, e ∈ l ↔ ∃ j, j < k ∧ e = (⟨r.start + j * PERIOD, r.fin + j * PERIOD⟩, idx) ∧ e.1.includes latest = true := by
  intro k
  induction k with
  | zero => intro r _ _; exact ⟨[], rfl, by simp⟩
  | succ k ih =>
    intro r h1 h2
    have hk : (k + 1) * PERIOD = k * PERIOD + PERIOD := by rw [Nat.add_mul, Nat.one_mul]
    obtain ⟨l, h3, h4⟩ := ih ⟨r.start + PERIOD, r.fin + PERIOD⟩ (by simp only; omega) (by simp only; omega)
    have a1 : add32 r.start PERIOD = some (r.start + PERIOD) := add32_of_lt (by omega)
    have a2 : add32 r.fin PERIOD = some (r.fin + PERIOD) := add32_of_lt (by omega)
    refine ⟨_, by simp only [copies, a1, a2, h3, Option.bind_eq_bind, Option.bind_some, Option.pure_def]; rfl, ?_⟩
    intro e
    rw [List.mem_append, h4]
    constructor
    · rintro (h | ⟨j, j1, j2, j3⟩)
      · split at h
        · rename_i hin
          simp at h; subst h
          exact ⟨0, by omega, by simp, hin⟩
        · simp at h
      · refine ⟨j + 1, by omega, ?_, j3⟩
        rw [j2]; simp only [Nat.add_mul, Nat.one_mul, Prod.mk.injEq, TRange.mk.injEq, and_true]; omega
    · rintro ⟨j, j1, j2, j3⟩
      cases j with
      | zero =>
        left
        have : e = (r, idx) := by rw [j2]; simp
        subst this
        rw [if_pos j3]; simp
      | succ j =>
        right
        refine ⟨j, by omega, ?_, j3⟩
        rw [j2]; simp only [Nat.add_mul, Nat.one_mul, Prod.mk.injEq, TRange.mk.injEq, and_true]; omega

theorem retain_spec : ∀ (l : List (TRange × Nat)) (prev : Nat), (∀ e ∈ l, e.1.start ≤ e.1.fin) → ∃ l', retain prev l = some l' ∧ List.Sublist l' l := by
  intro l
  induction l with
  | nil => intro prev _; exact ⟨[], rfl, .refl _⟩
  | cons r l ih =>
    intro prev h
    have hd : r.1.duration = some (r.1.fin - r.1.start) := by simp [TRange.duration, h r (by simp)]
    by_cases hlt : r.1.fin - r.1.start < prev
    · obtain ⟨l', h1, h2⟩ := ih (r.1.fin - r.1.start) (fun e he => h e (by simp [he]))
      exact ⟨r :: l', by simp only [retain, hd, Option.bind_eq_bind, Option.bind_some, if_pos hlt, h1, Option.pure_def], h2.cons_cons r⟩
    · obtain ⟨l', h1, h2⟩ := ih prev (fun e he => h e (by simp [he]))
      exact ⟨l', by simp only [retain, hd, Option.bind_eq_bind, Option.bind_some, if_neg hlt, h1], h2.cons r⟩

/-- an entry of the table or a copy of it for another day -/
def CopyOf (ranges : List Entry) (e : TRange × Nat) : Prop :=
  ∃ r ∈ ranges, ∃ j, (r.2.2 = false → j = 0) ∧ e.1.start = r.1.start + j * PERIOD ∧ e.1.fin = r.1.fin + j * PERIOD ∧ e.2 = r.2.1

/-- the entries of the table -/
structure RangesOK (ranges : List Entry) : Prop where
  le : ∀ r ∈ ranges, r.1.start ≤ r.1.fin
  fin : ∀ r ∈ ranges, r.1.fin ≤ INFINITY ∧ (r.2.2 = true → r.1.fin ≤ 2 * PERIOD)
  all : ∃ r ∈ ranges, r.1 = ⟨0, INFINITY⟩ ∧ r.2.2 = false

theorem candidates_spec {ranges : List Entry} (h : RangesOK ranges) {latest : Nat} (hlat : latest < INFINITY) :
    ∃ l, candidates ranges latest = some l ∧ (∀ e ∈ l, CopyOf ranges e ∧ e.1.start ≤ latest ∧ latest < e.1.fin) ∧ ∃ e ∈ l, e.1.start = 0 := by
  have hc : ∀ r ∈ ranges, ∃ l, copies latest r.2.1 (if r.2.2 then latest / PERIOD + 1 else 1) r.1 = some l ∧
      ∀ e, e ∈ l ↔ ∃ j, j < (if r.2.2 then latest / PERIOD + 1 else 1) ∧ e = (⟨r.1.start + j * PERIOD, r.1.fin + j * PERIOD⟩, r.2.1) ∧ e.1.includes latest = true := by
    intro r hr
    apply copies_spec _ _ (h.le r hr)
    obtain ⟨h1, h2⟩ := h.fin r hr
    cases hp : r.2.2 with
    | true =>
      have := h2 hp
      have h3 := Nat.div_mul_le_self latest PERIOD
      simp only [if_true, Nat.add_mul, Nat.one_mul]
      simp only [INFINITY, PERIOD, U32] at *; omega
    | false => simp only [Bool.false_eq_true, if_false, Nat.one_mul]; simp only [INFINITY, PERIOD, U32] at *; omega
  obtain ⟨ls, hls⟩ := mapM_exists (f := fun r : Entry => copies latest r.2.1 (if r.2.2 then latest / PERIOD + 1 else 1) r.1) (l := ranges)
    (fun r hr => by obtain ⟨l, h1, _⟩ := hc r hr; exact ⟨l, h1⟩)
  refine ⟨ls.flatten, by simp only [candidates, hls, Option.bind_eq_bind, Option.bind_some, Option.pure_def], ?_, ?_⟩
  · intro e he
    obtain ⟨l, hl, hel⟩ := List.mem_flatten.1 he
    obtain ⟨r, hr, hrl⟩ := (mem_of_mapM hls l).1 hl
    obtain ⟨l', h1, h2⟩ := hc r hr
    rw [hrl] at h1; simp at h1; subst h1
    obtain ⟨j, j1, j2, j3⟩ := (h2 e).1 hel
    simp only [TRange.includes, Bool.and_eq_true, decide_eq_true_eq] at j3
    refine ⟨⟨r, hr, j, ?_, by rw [j2], by rw [j2], by rw [j2]⟩, j3⟩
    intro hp
    rw [hp] at j1; simp at j1; exact j1
  · obtain ⟨r, hr, h1, h2⟩ := h.all
    obtain ⟨l, h3, h4⟩ := hc r hr
    have hel : ((⟨r.1.start + 0 * PERIOD, r.1.fin + 0 * PERIOD⟩ : TRange), r.2.1) ∈ l := by
      refine (h4 _).2 ⟨0, by split <;> simp, rfl, ?_⟩
      rw [h1]; simp only [TRange.includes, Bool.and_eq_true, decide_eq_true_eq]; omega
    exact ⟨_, List.mem_flatten.2 ⟨l, (mem_of_mapM hls l).2 ⟨r, hr, h3⟩, hel⟩, by simp [h1]⟩

theorem dropFirst_spec {dep : Nat} {l : List (TRange × Nat)} (hs : l.Pairwise (fun a b => a.1.start ≤ b.1.start)) (hf : ∀ e ∈ l, dep < e.1.fin)
    (h0 : ∃ e ∈ l, e.1.start = 0) : ∃ e r, dropFirst dep l = e :: r ∧ (e :: r).Sublist l ∧ e.1.start ≤ dep := by
  have hinc : ∀ e ∈ l, e.1.includes dep = decide (e.1.start ≤ dep) := by
    intro e he; simp [TRange.includes, hf e he]
  cases l with
  | nil => obtain ⟨e, he, _⟩ := h0; simp at he
  | cons x l =>
    have hx : x.1.start ≤ dep := by
      obtain ⟨e, he, he0⟩ := h0
      rcases List.mem_cons.1 he with rfl | he
      · omega
      · have := (List.pairwise_cons.1 hs).1 e he; omega
    unfold dropFirst
    generalize hi : ((x :: l).findIdx? (fun r => !(r.1.includes dep))).getD (x :: l).length = inner
    simp only
    by_cases h1 : inner > 1
    · rw [if_pos h1]
      have hle : inner ≤ (x :: l).length ∧ ∀ j e, j < inner → (x :: l)[j]? = some e → e.1.start ≤ dep := by
        cases hq : (x :: l).findIdx? (fun r => !(r.1.includes dep)) with
        | none =>
          rw [hq] at hi; simp only [Option.getD_none] at hi
          refine ⟨by omega, ?_⟩
          intro j e _ he
          have := List.findIdx?_eq_none_iff.1 hq e (List.mem_of_getElem? he)
          rw [hinc e (List.mem_of_getElem? he)] at this; simpa using this
        | some i =>
          rw [hq] at hi; simp only [Option.getD_some] at hi; subst hi
          obtain ⟨h2, h3, h4⟩ := List.findIdx?_eq_some_iff_getElem.1 hq
          refine ⟨by omega, ?_⟩
          intro j e hj he
          have := h4 j hj
          rw [(List.getElem?_eq_some_iff.1 he).2, hinc e (List.mem_of_getElem? he)] at this; simpa using this
      obtain ⟨h2, h3⟩ := hle
      have hlt : inner - 1 < (x :: l).length := by omega
      refine ⟨(x :: l)[inner - 1], (x :: l).drop (inner - 1 + 1), List.drop_eq_getElem_cons hlt, ?_, h3 (inner - 1) _ (by omega) (List.getElem?_eq_getElem hlt)⟩
      rw [← List.drop_eq_getElem_cons hlt]; exact List.drop_sublist _ _
    · rw [if_neg h1]
      exact ⟨x, l, rfl, .refl _, hx⟩

/-- The chosen metrics: all of them are for a range of time that includes the latest arrival, by increasing start, and the first starts before
the departure. -/
structure Chosen (ranges : List Entry) (dep latest : Nat) (cur : List (TRange × Nat)) : Prop where
  copy : ∀ e ∈ cur, CopyOf ranges e ∧ latest < e.1.fin
  sorted : cur.Pairwise (fun a b => a.1.start ≤ b.1.start)
  first : ∃ e, cur[0]? = some e ∧ e.1.start ≤ dep

theorem select_spec {srt : List (TRange × Nat) → List (TRange × Nat)} (hsrt : ∀ l, (srt l).Perm l ∧ (srt l).Pairwise (fun a b => a.1.start ≤ b.1.start))
    {ranges : List Entry} (h : RangesOK ranges) {dep ub : Nat} (hlat : dep + ub < INFINITY) :
    ∃ cur, selectMetrics srt ranges dep ub = some cur ∧ Chosen ranges dep (dep + ub) cur := by
  have a1 : add32 dep ub = some (dep + ub) := add32_of_lt (by simp only [INFINITY, U32] at *; omega)
  obtain ⟨l, h1, h2, h3⟩ := candidates_spec h hlat
  obtain ⟨hp, hs⟩ := hsrt l
  obtain ⟨e, r, h4, h5, h6⟩ := dropFirst_spec (dep := dep) hs (fun e he => by have := (h2 e (hp.mem_iff.1 he)).2; omega)
    (by obtain ⟨e, he, h0⟩ := h3; exact ⟨e, hp.mem_iff.2 he, h0⟩)
  have hmem : ∀ x ∈ e :: r, x ∈ l := fun x hx => hp.mem_iff.1 (h5.subset hx)
  have hle : ∀ x ∈ e :: r, x.1.start ≤ x.1.fin := fun x hx => by have := (h2 x (hmem x hx)).2; omega
  obtain ⟨r', h7, h8⟩ := retain_spec r (e.1.fin - e.1.start) (fun x hx => hle x (by simp [hx]))
  have hd : e.1.duration = some (e.1.fin - e.1.start) := by simp [TRange.duration, hle e (by simp)]
  have hfin : e.1.fin < U32 - 1 := by
    obtain ⟨⟨q, hq, j, g1, g2, g3, _⟩, g4, g5⟩ := h2 e (hmem e (by simp))
    obtain ⟨f1, f2⟩ := h.fin q hq
    cases hper : q.2.2 with
    | false =>
      rw [g1 hper] at g3
      simp only [INFINITY, U32] at *; omega
    | true =>
      have := f2 hper
      simp only [INFINITY, U32, PERIOD] at *; omega
  have a2 : add32 (e.1.fin - e.1.start) 1 = some (e.1.fin - e.1.start + 1) := add32_of_lt (by simp only [U32] at *; omega)
  refine ⟨e :: r', ?_, ?_, ?_, e, rfl, h6⟩
  · simp only [selectMetrics, a1, h1, h4, hd, a2, Option.bind_eq_bind, Option.bind_some, List.getElem?_cons_zero, retain, if_pos (Nat.lt_succ_self _), h7, Option.pure_def]
  · intro x hx
    have hx' : x ∈ e :: r := by
      rcases List.mem_cons.1 hx with rfl | hx
      · simp
      · exact List.mem_cons_of_mem _ (h8.subset hx)
    obtain ⟨g1, g2, g3⟩ := h2 x (hmem x hx')
    exact ⟨g1, g3⟩
  · exact hs.sublist ((h8.cons_cons e).trans h5)

end MultiMetric
end Verif
