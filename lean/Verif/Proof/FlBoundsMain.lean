import Verif.Proof.FlBounds
import Verif.Spec.Bounds
/- Bounds of periodic travel time functions in exact arithmetic. -/
set_option linter.unusedSimpArgs false
set_option linter.unusedVariables false
namespace Verif
namespace Fl
open Spec

theorem df_trans {σ K K' : Rat} {a b c : List Pt} (h : List.Forall₂ (Df σ K) a b) (h' : List.Forall₂ (Df σ K') b c) : List.Forall₂ (Df σ (K + K')) a c := by
  induction h generalizing c with
  | nil => cases h'; exact .nil
  | cons hp _ ih =>
    cases h' with
    | cons hq hr =>
      refine .cons ⟨hp.1.trans hq.1, ?_⟩ (ih hr)
      have := hp.2; have := hq.2; linarith

theorem df_down {a b c : List Pt} {σ : Rat} (h : List.Forall₂ (Df σ 0) a b) (h' : List.Forall₂ (Df σ 0) b c) : List.Forall₂ (Df σ 0) a c := by
  have := df_trans h h'
  simpa using this

/-- replacing the points at both ends -/
theorem df_ends {σ K : Rat} {p q p' q' : Pt} {M N : List Pt} (h : List.Forall₂ (Df σ K) (p :: M ++ [q]) (p' :: N ++ [q'])) {r s : Pt} (h1 : Df σ K r p')
    (h2 : Df σ K s q') : List.Forall₂ (Df σ K) (r :: M ++ [s]) (p' :: N ++ [q']) := by
  obtain ⟨F, u, e, g1, g2⟩ := forall2_snoc h
  obtain ⟨rfl, e⟩ := List.append_inj' e rfl
  cases g1 with
  | cons _ g1 => exact forall2_append (.cons h1 g1) (.cons h2 .nil)

theorem tc_ends {p q r s : Pt} {M : List Pt} (h : Tc (p :: M ++ [q])) (h1 : r.t = p.t) (h2 : s.t = q.t) : Tc (r :: M ++ [s]) := by
  have hd : List.Forall₂ (Df 0 0) (r :: M ++ [s]) (p :: M ++ [q]) :=
    forall2_append (.cons ⟨h1, by simp⟩ (forall2_self (fun x => ⟨rfl, by simp⟩))) (.cons ⟨h2, by simp⟩ .nil)
  exact df_tc hd h

theorem ch_head {p : Pt} : ∀ {l : List Pt}, Ch (p :: l) → ∀ q ∈ l, p.t + p.v ≤ q.t + q.v
  | [], _, q, h => by simp at h
  | r :: l, hc, q, h => by
    rw [Ch, List.isChain_cons_cons] at hc
    rcases List.mem_cons.1 h with rfl | h
    · exact hc.1.2
    · exact hc.1.2.trans (ch_head hc.2 q h)

theorem ch_last {q : Pt} : ∀ {l : List Pt}, Ch (l ++ [q]) → ∀ p ∈ l, p.t + p.v ≤ q.t + q.v
  | [], _, p, h => by simp at h
  | r :: l, hc, p, h => by
    rw [List.cons_append] at hc
    rcases List.mem_cons.1 h with rfl | h
    · exact ch_head hc q (by simp)
    · exact ch_last (List.IsChain.tail hc) p h

theorem down_shape {p q : Pt} {M : List Pt} : ∃ v N, fifoDown (p :: M ++ [q]) = ⟨p.t, v⟩ :: N ++ [q] := by
  obtain ⟨v, r, e, _⟩ := fifoDown_ne (p := p) (l := M ++ [q])
  obtain ⟨r', e'⟩ := fifoDown_last (l := p :: M) (q := q)
  rw [List.cons_append] at e' ⊢
  rw [e] at e'
  have hl : r.length = M.length + 1 := by
    have := (fifoDown_near (l := p :: (M ++ [q]))).length_eq
    rw [e] at this
    simpa using this
  cases r' with
  | nil =>
    simp at e'
    rw [e'.2] at hl; simp at hl
  | cons x N =>
    simp at e'
    exact ⟨v, N, by rw [e, e'.2]; simp⟩

theorem up_shape {p q : Pt} {M : List Pt} : ∃ v N, fifoUp (p :: M ++ [q]) = p :: N ++ [⟨q.t, v⟩] := by
  rw [List.cons_append, fifoUp]
  obtain ⟨F, u, e, _, h⟩ := forall2_snoc (fifoUpFrom_near (l := M ++ [q]) (p := p))
  refine ⟨u.v, F, ?_⟩
  rw [e, ← h.1]; simp

theorem lastVal_snoc {l : List Pt} {p : Pt} : lastVal (l ++ [p]) = some p.v := by simp [lastVal]

theorem setLast_snoc {l : List Pt} {p : Pt} {v : Rat} : setLast (l ++ [p]) v = some (l ++ [⟨p.t, v⟩]) := by simp [setLast]

theorem periodicDown_spec {M : List Pt} {w : Rat} (hc : Tc ((⟨0, w⟩ : Pt) :: M ++ [⟨day, w⟩])) :
    ∃ x N, periodicDown 0 ((⟨0, w⟩ : Pt) :: M ++ [⟨day, w⟩]) = some (⟨0, x⟩ :: N ++ [⟨day, x⟩]) ∧ Ch ((⟨0, x⟩ : Pt) :: N ++ [⟨day, x⟩]) ∧
      List.Forall₂ (Df 1 0) (⟨0, x⟩ :: N ++ [⟨day, x⟩]) (⟨0, w⟩ :: M ++ [⟨day, w⟩]) ∧
      ∀ A v C, Ch ((⟨0, v⟩ : Pt) :: C ++ [⟨day, v⟩]) → List.Forall₂ (Df (-1) A) (⟨0, w⟩ :: M ++ [⟨day, w⟩]) (⟨0, v⟩ :: C ++ [⟨day, v⟩]) →
        List.Forall₂ (Df (-1) A) (⟨0, x⟩ :: N ++ [⟨day, x⟩]) (⟨0, v⟩ :: C ++ [⟨day, v⟩]) := by
  obtain ⟨x, N, e⟩ := down_shape (p := ⟨0, w⟩) (q := ⟨day, w⟩) (M := M)
  have hch := fifoDown_ch hc
  have hnear := fifoDown_near (l := (⟨0, w⟩ : Pt) :: M ++ [⟨day, w⟩])
  have hfar : ∀ A v C, Ch ((⟨0, v⟩ : Pt) :: C ++ [⟨day, v⟩]) → List.Forall₂ (Df (-1) A) (⟨0, w⟩ :: M ++ [⟨day, w⟩]) (⟨0, v⟩ :: C ++ [⟨day, v⟩]) →
      List.Forall₂ (Df (-1) A) (⟨0, x⟩ :: N ++ [⟨day, w⟩]) (⟨0, v⟩ :: C ++ [⟨day, v⟩]) := by
    intro A v C h1 h2
    have := fifoDown_far h1 h2
    rw [e] at this; exact this
  rw [e] at hch hnear
  have hxw : x ≤ w := by
    cases hnear with
    | cons h _ => have := h.2; simp at this; exact this
  have fv : ∀ x q, firstVal ((⟨0, x⟩ : Pt) :: N ++ [q]) = some x := fun _ _ => rfl
  by_cases hx : w = x
  · subst hx
    refine ⟨w, N, ?_, hch, hnear, hfar⟩
    simp only [periodicDown, e, lastVal_snoc, fv, feq_zero, decide_true, assert, if_true, Option.bind_eq_bind, Option.bind_some, Option.pure_def]
  · have hcx : Tc ((⟨0, x⟩ : Pt) :: N ++ [⟨day, x⟩]) := tc_ends (Ch.tc hch) rfl rfl
    obtain ⟨y, N', e'⟩ := down_shape (p := ⟨0, x⟩) (q := ⟨day, x⟩) (M := N)
    have hfirst := fifoDown_first (M := x) (p := ⟨0, x⟩) (l := N ++ [⟨day, x⟩]) (by
      intro q hq
      simp only [List.mem_cons, List.mem_append, List.not_mem_nil, or_false] at hq
      rcases hq with rfl | hq | rfl
      · simp
      · have := ch_head hch q (by simp [hq])
        simp only at this; linarith
      · have := day_pos; simp only; linarith)
    obtain ⟨y', r, e1, _, e2⟩ := hfirst
    have ey : y = x := by
      have := e'
      rw [List.cons_append, e1] at this
      simp at this
      rw [← this.1]
      exact e2 (by simp)
    subst ey
    have hch2 := fifoDown_ch hcx
    have hnear2 := fifoDown_near (l := (⟨0, y⟩ : Pt) :: N ++ [⟨day, y⟩])
    rw [e'] at hch2 hnear2
    refine ⟨y, N', ?_, hch2, ?_, ?_⟩
    · have fv' : ∀ x q, firstVal ((⟨0, x⟩ : Pt) :: N' ++ [q]) = some x := fun _ _ => rfl
      have hd : decide (w = y) = false := by simp [hx]
      simp only [periodicDown, e, lastVal_snoc, fv, fv', feq_zero, hd, setLast_snoc, Option.map_some, e', decide_true, assert, if_true, if_false,
        Option.bind_eq_bind, Option.bind_some, Option.pure_def, Bool.false_eq_true]
    · exact df_down hnear2 (df_ends hnear ⟨rfl, by simp; exact hxw⟩ ⟨rfl, by simp; exact hxw⟩)
    · intro A v C h1 h2
      have h3 := hfar A v C h1 h2
      have h4 : Df (-1) A ⟨0, y⟩ ⟨0, v⟩ := by cases h3 with | cons h _ => exact h
      have := fifoDown_far h1 (df_ends h3 h4 ⟨rfl, h4.2⟩ : List.Forall₂ (Df (-1) A) (⟨0, y⟩ :: N ++ [⟨day, y⟩]) _)
      rw [e'] at this
      exact this

theorem periodicUp_spec {M : List Pt} {w : Rat} (hc : Tc ((⟨0, w⟩ : Pt) :: M ++ [⟨day, w⟩])) :
    ∃ x N, periodicUp 0 ((⟨0, w⟩ : Pt) :: M ++ [⟨day, w⟩]) = some (⟨0, x⟩ :: N ++ [⟨day, x⟩]) ∧ Ch ((⟨0, x⟩ : Pt) :: N ++ [⟨day, x⟩]) ∧
      List.Forall₂ (Df (-1) 0) (⟨0, x⟩ :: N ++ [⟨day, x⟩]) (⟨0, w⟩ :: M ++ [⟨day, w⟩]) ∧
      ∀ A v C, Ch ((⟨0, v⟩ : Pt) :: C ++ [⟨day, v⟩]) → List.Forall₂ (Df 1 A) (⟨0, w⟩ :: M ++ [⟨day, w⟩]) (⟨0, v⟩ :: C ++ [⟨day, v⟩]) →
        List.Forall₂ (Df 1 A) (⟨0, x⟩ :: N ++ [⟨day, x⟩]) (⟨0, v⟩ :: C ++ [⟨day, v⟩]) := by
  obtain ⟨x, N, e⟩ := up_shape (p := ⟨0, w⟩) (q := ⟨day, w⟩) (M := M)
  have hch := fifoUp_ch hc
  have hnear := fifoUp_near (l := (⟨0, w⟩ : Pt) :: M ++ [⟨day, w⟩])
  have hfar : ∀ A v C, Ch ((⟨0, v⟩ : Pt) :: C ++ [⟨day, v⟩]) → List.Forall₂ (Df 1 A) (⟨0, w⟩ :: M ++ [⟨day, w⟩]) (⟨0, v⟩ :: C ++ [⟨day, v⟩]) →
      List.Forall₂ (Df 1 A) (⟨0, w⟩ :: N ++ [⟨day, x⟩]) (⟨0, v⟩ :: C ++ [⟨day, v⟩]) := by
    intro A v C h1 h2
    have := fifoUp_far h1 h2
    rw [e] at this; exact this
  rw [e] at hch hnear
  have lastOf : ∀ {σ K : Rat} {p q p' q' : Pt} {M N : List Pt}, List.Forall₂ (Df σ K) (p :: M ++ [q]) (p' :: N ++ [q']) → Df σ K q q' := by
    intro σ K p q p' q' M N h
    obtain ⟨F, u, e, _, h⟩ := forall2_snoc h
    obtain ⟨_, e⟩ := List.append_inj' e rfl
    simp at e; subst e; exact h
  have hxw : w ≤ x := by
    have := (lastOf hnear).2
    simp at this; linarith
  have fv : ∀ x q, firstVal ((⟨0, x⟩ : Pt) :: N ++ [q]) = some x := fun _ _ => rfl
  by_cases hx : w = x
  · subst hx
    refine ⟨w, N, ?_, hch, hnear, hfar⟩
    simp only [periodicUp, e, lastVal_snoc, fv, feq_zero, decide_true, assert, if_true, Option.bind_eq_bind, Option.bind_some, Option.pure_def]
  · have hcx : Tc ((⟨0, x⟩ : Pt) :: N ++ [⟨day, x⟩]) := tc_ends (Ch.tc hch) rfl rfl
    obtain ⟨y, N', e'⟩ := up_shape (p := ⟨0, x⟩) (q := ⟨day, x⟩) (M := N)
    obtain ⟨r, e1⟩ := fifoUpFrom_last (M := day + x) (l := N) (p := ⟨0, x⟩) (q := ⟨day, x⟩) (by have := day_pos; simp only; linarith) (by
      intro q hq
      have := ch_last (l := (⟨0, w⟩ : Pt) :: N) hch q (by simp [hq])
      simpa using this) rfl
    have ey : y = x := by
      have := e'
      rw [List.cons_append, fifoUp, e1, List.cons_append] at this
      simp only [List.cons.injEq, true_and] at this
      have := (List.append_inj' this rfl).2
      simp at this
      exact this.symm
    subst ey
    have hch2 := fifoUp_ch hcx
    have hnear2 := fifoUp_near (l := (⟨0, y⟩ : Pt) :: N ++ [⟨day, y⟩])
    rw [e'] at hch2 hnear2
    refine ⟨y, N', ?_, hch2, ?_, ?_⟩
    · have fv' : ∀ x q, firstVal ((⟨0, x⟩ : Pt) :: N' ++ [q]) = some x := fun _ _ => rfl
      have hd : decide (w = y) = false := by simp [hx]
      have sf : setFirst ((⟨0, w⟩ : Pt) :: N ++ [⟨day, y⟩]) y = some (⟨0, y⟩ :: N ++ [⟨day, y⟩]) := rfl
      simp only [periodicUp, e, lastVal_snoc, fv, fv', feq_zero, hd, sf, Option.map_some, e', decide_true, assert, if_true, if_false,
        Option.bind_eq_bind, Option.bind_some, Option.pure_def, Bool.false_eq_true]
    · exact df_down hnear2 (df_ends hnear ⟨rfl, by simp; linarith⟩ ⟨rfl, by simp; linarith⟩)
    · intro A v C h1 h2
      have h3 := hfar A v C h1 h2
      have h4 : Df 1 A ⟨day, y⟩ ⟨day, v⟩ := lastOf h3
      have := fifoUp_far h1 (df_ends h3 ⟨rfl, h4.2⟩ h4 : List.Forall₂ (Df 1 A) (⟨0, y⟩ :: N ++ [⟨day, y⟩]) _)
      rw [e'] at this
      exact this

theorem makeLower_spec {M : List Pt} {x z : Rat} (hc : Tc ((⟨0, x⟩ : Pt) :: M ++ [⟨day, z⟩])) :
    ∃ y N, makeLower 0 ((⟨0, x⟩ : Pt) :: M ++ [⟨day, z⟩]) = some (⟨0, y⟩ :: N ++ [⟨day, y⟩]) ∧ Ch ((⟨0, y⟩ : Pt) :: N ++ [⟨day, y⟩]) ∧
      List.Forall₂ (Df 1 0) (⟨0, y⟩ :: N ++ [⟨day, y⟩]) (⟨0, x⟩ :: M ++ [⟨day, z⟩]) ∧
      ∀ A v C, Ch ((⟨0, v⟩ : Pt) :: C ++ [⟨day, v⟩]) → List.Forall₂ (Df (-1) A) (⟨0, x⟩ :: M ++ [⟨day, z⟩]) (⟨0, v⟩ :: C ++ [⟨day, v⟩]) →
        List.Forall₂ (Df (-1) A) (⟨0, y⟩ :: N ++ [⟨day, y⟩]) (⟨0, v⟩ :: C ++ [⟨day, v⟩]) := by
  have hc' : Tc ((⟨0, min x z⟩ : Pt) :: M ++ [⟨day, min x z⟩]) := tc_ends hc rfl rfl
  obtain ⟨y, N, h1, h2, h3, h4⟩ := periodicDown_spec hc'
  have s0 : firstVal ((⟨0, x⟩ : Pt) :: M ++ [⟨day, z⟩]) = some x := rfl
  have s1 : setFirst ((⟨0, x⟩ : Pt) :: M ++ [⟨day, z⟩]) (min x z) = some (⟨0, min x z⟩ :: M ++ [⟨day, z⟩]) := rfl
  refine ⟨y, N, ?_, h2, ?_, ?_⟩
  · simp only [makeLower, s0, s1, lastVal_snoc, setLast_snoc, h1, Option.bind_eq_bind, Option.bind_some]
  · refine df_down h3 (df_ends df_self ⟨rfl, ?_⟩ ⟨rfl, ?_⟩)
    · have := min_le_left x z; simp only; linarith
    · have := min_le_right x z; simp only; linarith
  · intro A v C k1 k2
    have a1 : Df (-1) A ⟨0, x⟩ ⟨0, v⟩ := by cases k2 with | cons h _ => exact h
    have a2 : Df (-1) A ⟨day, z⟩ ⟨day, v⟩ := by
      obtain ⟨F, u, e, _, h⟩ := forall2_snoc k2
      obtain ⟨_, e⟩ := List.append_inj' e rfl
      simp at e; subst e; exact h
    refine h4 A v C k1 (df_ends k2 ⟨rfl, ?_⟩ ⟨rfl, ?_⟩)
    · rcases min_choice x z with h | h <;> rw [h]
      · exact a1.2
      · exact a2.2
    · rcases min_choice x z with h | h <;> rw [h]
      · exact a1.2
      · exact a2.2

theorem makeUpper_spec {M : List Pt} {x z : Rat} (hc : Tc ((⟨0, x⟩ : Pt) :: M ++ [⟨day, z⟩])) :
    ∃ y N, makeUpper 0 ((⟨0, x⟩ : Pt) :: M ++ [⟨day, z⟩]) = some (⟨0, y⟩ :: N ++ [⟨day, y⟩]) ∧ Ch ((⟨0, y⟩ : Pt) :: N ++ [⟨day, y⟩]) ∧
      List.Forall₂ (Df (-1) 0) (⟨0, y⟩ :: N ++ [⟨day, y⟩]) (⟨0, x⟩ :: M ++ [⟨day, z⟩]) ∧
      ∀ A v C, Ch ((⟨0, v⟩ : Pt) :: C ++ [⟨day, v⟩]) → List.Forall₂ (Df 1 A) (⟨0, x⟩ :: M ++ [⟨day, z⟩]) (⟨0, v⟩ :: C ++ [⟨day, v⟩]) →
        List.Forall₂ (Df 1 A) (⟨0, y⟩ :: N ++ [⟨day, y⟩]) (⟨0, v⟩ :: C ++ [⟨day, v⟩]) := by
  have hc' : Tc ((⟨0, max x z⟩ : Pt) :: M ++ [⟨day, max x z⟩]) := tc_ends hc rfl rfl
  obtain ⟨y, N, h1, h2, h3, h4⟩ := periodicUp_spec hc'
  have s0 : firstVal ((⟨0, x⟩ : Pt) :: M ++ [⟨day, z⟩]) = some x := rfl
  have s1 : setFirst ((⟨0, x⟩ : Pt) :: M ++ [⟨day, z⟩]) (max x z) = some (⟨0, max x z⟩ :: M ++ [⟨day, z⟩]) := rfl
  refine ⟨y, N, ?_, h2, ?_, ?_⟩
  · simp only [makeUpper, s0, s1, lastVal_snoc, setLast_snoc, h1, Option.bind_eq_bind, Option.bind_some]
  · refine df_down h3 (df_ends df_self ⟨rfl, ?_⟩ ⟨rfl, ?_⟩)
    · have := le_max_left x z; simp only; linarith
    · have := le_max_right x z; simp only; linarith
  · intro A v C k1 k2
    have a1 : Df 1 A ⟨0, x⟩ ⟨0, v⟩ := by cases k2 with | cons h _ => exact h
    have a2 : Df 1 A ⟨day, z⟩ ⟨day, v⟩ := by
      obtain ⟨F, u, e, _, h⟩ := forall2_snoc k2
      obtain ⟨_, e⟩ := List.append_inj' e rfl
      simp at e; subst e; exact h
    refine h4 A v C k1 (df_ends k2 ⟨rfl, ?_⟩ ⟨rfl, ?_⟩)
    · rcases max_choice x z with h | h <;> rw [h]
      · exact a1.2
      · exact a2.2
    · rcases max_choice x z with h | h <;> rw [h]
      · exact a1.2
      · exact a2.2

/-! ### Putting it together -/

/-- the first and the last point of the selection -/
theorem Sk.ends {A : Rat} {l c rest : List Pt} {v : Rat} (h : Sk A l c) (e : l = ⟨0, v⟩ :: rest ++ [⟨day, v⟩]) : ∃ N, c = ⟨0, v⟩ :: N ++ [⟨day, v⟩] := by
  have h1 := h.head
  have h2 := h.last
  have h3 := h.len
  subst e
  rw [List.getLast?_concat] at h2
  have e := last_split h2
  cases hd : c.dropLast with
  | nil => rw [hd] at e; rw [e] at h3; simp at h3
  | cons x N =>
    rw [hd] at e
    rw [e] at h1
    simp at h1
    exact ⟨N, by rw [e, h1]⟩

/-- points at the same times as the selection -/
theorem ends_like {σ K v : Rat} {a N : List Pt} (h : List.Forall₂ (Df σ K) a (⟨0, v⟩ :: N ++ [⟨day, v⟩])) : ∃ x M z, a = ⟨0, x⟩ :: M ++ [⟨day, z⟩] := by
  obtain ⟨F, u, e, g1, g2⟩ := forall2_snoc h
  cases g1 with
  | @cons p _ M _ hp _ =>
    have e1 : p = ⟨0, p.v⟩ := by rw [show (0 : Rat) = p.t from hp.1.symm]
    have e2 : u = ⟨day, u.v⟩ := by rw [show day = u.t from g2.1.symm]
    refine ⟨p.v, M, u.v, ?_⟩
    rw [← e1, ← e2, e]

theorem periodic_exists {l : List Pt} (h : PeriodicTtf l) {s : Rat} (h1 : 0 ≤ s) (h2 : s ≤ day) : ∃ y, Interp l s y := by
  obtain ⟨⟨v, rest, e⟩, hc⟩ := h
  have hch : Ch l := ch_iff.2 hc
  subst e
  rw [List.cons_append] at hch ⊢
  refine interp_exists (z := ⟨day, v⟩) hch ?_ (by simp) h1 h2
  rw [← List.cons_append, List.getLast?_concat]

theorem periodic_tt {l : List Pt} (h : PeriodicTtf l) {t y : Rat} : TravelTime l t y ↔ ∃ k : Int, 0 ≤ t - k * day ∧ t - k * day < day ∧ Interp l (t - k * day) y := by
  constructor
  · rintro (⟨p, e, _⟩ | h')
    · obtain ⟨⟨v, rest, e'⟩, _⟩ := h
      rw [e'] at e
      simp at e
    · exact h'
  · exact .inr

theorem ch_periodic {x : Rat} {N : List Pt} (h : Ch ((⟨0, x⟩ : Pt) :: N ++ [⟨day, x⟩])) : PeriodicTtf (⟨0, x⟩ :: N ++ [⟨day, x⟩]) := ⟨⟨x, N, rfl⟩, ch_iff.1 h⟩

/-- close to the selection, and so to the function -/
theorem within_lower {A : Rat} {l c a lo : List Pt} (hl : PeriodicTtf l) (hlo : PeriodicTtf lo) (hk : Sk A l c) (hs : Sd 1 A l c a) (h1 : List.Forall₂ (Df 1 0) lo a)
    (h2 : List.Forall₂ (Df (-1) A) lo c) : LowerWithin (2 * A) lo l := by
  intro t y hy
  obtain ⟨k, k1, k2, k3⟩ := (periodic_tt hl).1 hy
  obtain ⟨z, hz⟩ := periodic_exists hlo k1 k2.le
  have hcl : Ch l := ch_iff.2 hl.2
  have hcc := sub_tc hk.sub (Ch.tc hcl)
  refine ⟨z, (periodic_tt hlo).2 ⟨k, k1, k2, hz⟩, ?_, ?_⟩
  · obtain ⟨w, hw, hw'⟩ := df_interp h1 (df_tc hs.near hcc) hz
    have := hs.side _ _ _ k3 hw
    linarith
  · obtain ⟨w, hw, hw'⟩ := df_interp h2 hcc hz
    have := (hk.close _ _ _ k3 hw).1
    linarith

theorem within_upper {A : Rat} {l c a up : List Pt} (hl : PeriodicTtf l) (hup : PeriodicTtf up) (hk : Sk A l c) (hs : Sd (-1) A l c a)
    (h1 : List.Forall₂ (Df (-1) 0) up a) (h2 : List.Forall₂ (Df 1 A) up c) : UpperWithin (2 * A) up l := by
  intro t y hy
  obtain ⟨k, k1, k2, k3⟩ := (periodic_tt hl).1 hy
  obtain ⟨z, hz⟩ := periodic_exists hup k1 k2.le
  have hcl : Ch l := ch_iff.2 hl.2
  have hcc := sub_tc hk.sub (Ch.tc hcl)
  refine ⟨z, (periodic_tt hup).2 ⟨k, k1, k2, hz⟩, ?_, ?_⟩
  · obtain ⟨w, hw, hw'⟩ := df_interp h1 (df_tc hs.near hcc) hz
    have := hs.side _ _ _ k3 hw
    linarith
  · obtain ⟨w, hw, hw'⟩ := df_interp h2 hcc hz
    have := (hk.close _ _ _ k3 hw).2
    linarith

theorem df_mem {σ K : Rat} {a c : List Pt} (h : List.Forall₂ (Df σ K) a c) : ∀ p ∈ a, ∃ q ∈ c, Df σ K p q := by
  induction h with
  | nil => intro p hp; simp at hp
  | cons h _ ih =>
    intro p hp
    rcases List.mem_cons.1 hp with rfl | hp
    · exact ⟨_, by simp, h⟩
    · obtain ⟨q, h1, h2⟩ := ih p hp
      exact ⟨q, by simp [h1], h2⟩

/-- the bounds of a periodic function -/
theorem bounds_spec {A : Rat} (hA : 0 ≤ A) {l : List Pt} (hl : PeriodicTtf l) :
    ∃ lo up, boundTtfs 0 A l = some (lo, up) ∧ lowerBoundTtf 0 A l = some lo ∧ upperBoundTtf 0 A l = some up ∧ PeriodicTtf lo ∧ PeriodicTtf up ∧
      LowerWithin (2 * A) lo l ∧ UpperWithin (2 * A) up l ∧ (∀ p ∈ lo, ∃ q ∈ l, q.t = p.t) ∧ (∀ p ∈ up, ∃ q ∈ l, q.t = p.t ∧ q.v ≤ p.v) := by
  have hcl : Ch l := ch_iff.2 hl.2
  obtain ⟨⟨v, rest, e⟩, _⟩ := id hl
  have h2 : 2 ≤ l.length := by rw [e]; simp
  obtain ⟨c, a, b, e1, hk, hs, hs'⟩ := dpc_spec hA l.length l [] [] (Ch.tc hcl) h2 (le_refl _) rfl
  simp only [List.nil_append] at e1
  have hcc := sub_ch hk.sub hcl
  obtain ⟨N, rfl⟩ := hk.ends e
  obtain ⟨x, M, z, rfl⟩ := ends_like hs.near
  obtain ⟨x', M', z', rfl⟩ := ends_like hs'.near
  obtain ⟨y, L, r1, r2, r3, r4⟩ := makeLower_spec (df_tc hs.near (Ch.tc hcc))
  obtain ⟨y', L', r1', r2', r3', r4'⟩ := makeUpper_spec (df_tc hs'.near (Ch.tc hcc))
  have ht : tryPartial l = some l := by simp [tryPartial]; omega
  have f1 := r4 A v N hcc hs.far
  have f2 := r4' A v N hcc (by have := hs'.far; rwa [neg_neg] at this)
  refine ⟨_, _, ?_, ?_, ?_, ch_periodic r2, ch_periodic r2', within_lower hl (ch_periodic r2) hk hs r3 f1, within_upper hl (ch_periodic r2') hk hs' r3' f2, ?_, ?_⟩
  · simp only [boundTtfs, ht, e1, r1, r1', Option.bind_eq_bind, Option.bind_some, Option.pure_def]
  · unfold makeLower at r1
    simp only [lowerBoundTtf, ht, e1, Option.bind_eq_bind, Option.bind_some, Option.pure_def]
    exact r1
  · unfold makeUpper at r1'
    simp only [upperBoundTtf, ht, e1, Option.bind_eq_bind, Option.bind_some, Option.pure_def]
    exact r1'
  · intro p hp
    obtain ⟨q, hq, hd⟩ := df_mem f1 p hp
    exact ⟨q, hk.sub.subset hq, hd.1.symm⟩
  · intro p hp
    obtain ⟨q, hq, hd⟩ := df_mem (df_down r3' hs'.near) p hp
    exact ⟨q, hk.sub.subset hq, hd.1.symm, by have := hd.2; linarith⟩

theorem partial_spec {A : Rat} (hA : 0 ≤ A) {l : List Pt} (hl : PartialTtf l) :
    ∃ lo up, partialBounds 0 A l = some (lo, up) ∧ partialLower 0 A l = some lo ∧ partialUpper 0 A l = some up ∧ PartialTtf lo ∧ PartialTtf up ∧
      lo.head?.map Pt.t = l.head?.map Pt.t ∧ lo.getLast?.map Pt.t = l.getLast?.map Pt.t ∧ up.head?.map Pt.t = l.head?.map Pt.t ∧
      up.getLast?.map Pt.t = l.getLast?.map Pt.t ∧
      (∀ t y, Interp l t y → ∃ z w, Interp lo t z ∧ Interp up t w ∧ z ≤ y ∧ y - 2 * A ≤ z ∧ y ≤ w ∧ w ≤ y + 2 * A) := by
  have hcl : Ch l := ch_iff.2 hl.2
  obtain ⟨c, a, b, e1, hk, hs, hs'⟩ := dpc_spec hA l.length l [] [] (Ch.tc hcl) hl.1 (le_refl _) rfl
  simp only [List.nil_append] at e1
  have hcc := sub_ch hk.sub hcl
  have ca := fifoDown_ch (df_tc hs.near (Ch.tc hcc))
  have cb := fifoUp_ch (df_tc hs'.near (Ch.tc hcc))
  have na := fifoDown_near (l := a)
  have nb := fifoUp_near (l := b)
  have fa := fifoDown_far hcc hs.far
  have fb := fifoUp_far hcc (by have := hs'.far; rwa [neg_neg] at this)
  have headOf : ∀ {σ K : Rat} {a c : List Pt}, List.Forall₂ (Df σ K) a c → a.head?.map Pt.t = c.head?.map Pt.t := by
    intro σ K a c h
    cases h with
    | nil => rfl
    | cons h _ => simp [h.1]
  have lastOf : ∀ {σ K : Rat} {a c : List Pt}, List.Forall₂ (Df σ K) a c → a.getLast?.map Pt.t = c.getLast?.map Pt.t := by
    intro σ K a c h
    cases hc : c.getLast? with
    | none => simp at hc; subst hc; cases h; rfl
    | some q =>
      rw [last_split hc] at h
      obtain ⟨F, u, e, _, h⟩ := forall2_snoc h
      rw [e, List.getLast?_concat]; simp [h.1]
  have ha : (fifoDown a).head?.map Pt.t = l.head?.map Pt.t := by rw [headOf fa, hk.head]
  have hb : (fifoUp b).head?.map Pt.t = l.head?.map Pt.t := by rw [headOf fb, hk.head]
  have la : (fifoDown a).getLast?.map Pt.t = l.getLast?.map Pt.t := by rw [lastOf fa, hk.last]
  have lb : (fifoUp b).getLast?.map Pt.t = l.getLast?.map Pt.t := by rw [lastOf fb, hk.last]
  have ex : ∀ {r : List Pt}, Ch r → 2 ≤ r.length → r.head?.map Pt.t = l.head?.map Pt.t → r.getLast?.map Pt.t = l.getLast?.map Pt.t → ∀ {t y}, Interp l t y → ∃ z, Interp r t z := by
    intro r hr h2 hh hl' t y hy
    cases l with
    | nil => simp [PartialTtf] at hl
    | cons p l =>
    cases r with
    | nil => simp at h2
    | cons p' r =>
      simp at hh
      cases hq : (p' :: r).getLast? with
      | none => simp at hq
      | some q' =>
      cases hq2 : (p :: l).getLast? with
      | none => simp at hq2
      | some q =>
      rw [hq, hq2] at hl'
      simp at hl'
      refine interp_exists hr hq (by rintro rfl; simp at h2) (by rw [hh]; exact interp_ge hcl hy) ?_
      rw [hl']
      have e := last_split hq2
      rw [e] at hy
      have htc := Ch.tc hcl
      rw [e] at htc
      exact tc_le htc hy
  have len1 : 2 ≤ (fifoDown a).length := by rw [fa.length_eq]; exact hk.len
  have len2 : 2 ≤ (fifoUp b).length := by rw [fb.length_eq]; exact hk.len
  refine ⟨fifoDown a, fifoUp b, ?_, ?_, ?_, ⟨len1, ch_iff.1 ca⟩, ⟨len2, ch_iff.1 cb⟩, ha, la, hb, lb, ?_⟩
  · simp only [partialBounds, e1, Option.bind_eq_bind, Option.bind_some, Option.pure_def]
  · simp only [partialLower, e1, Option.bind_eq_bind, Option.bind_some, Option.pure_def]
  · simp only [partialUpper, e1, Option.bind_eq_bind, Option.bind_some, Option.pure_def]
  · intro t y hy
    obtain ⟨z, hz⟩ := ex ca len1 ha la hy
    obtain ⟨w, hw⟩ := ex cb len2 hb lb hy
    refine ⟨z, w, hz, hw, ?_, ?_, ?_, ?_⟩
    · obtain ⟨w, hw, hw'⟩ := df_interp na (df_tc hs.near (Ch.tc hcc)) hz
      have := hs.side _ _ _ hy hw
      linarith
    · obtain ⟨w, hw, hw'⟩ := df_interp fa (Ch.tc hcc) hz
      have := (hk.close _ _ _ hy hw).1
      linarith
    · obtain ⟨w, hw, hw'⟩ := df_interp nb (df_tc hs'.near (Ch.tc hcc)) hw
      have := hs'.side _ _ _ hy hw
      linarith
    · obtain ⟨w, hw, hw'⟩ := df_interp fb (Ch.tc hcc) hw
      have := (hk.close _ _ _ hy hw).2
      linarith

theorem approximate_spec {A : Rat} (hA : 0 ≤ A) {l : List Pt} (hl : PeriodicTtf l) :
    ∃ r, approximate 0 A l = some r ∧ PeriodicTtf r ∧ r.Sublist l ∧ ∀ t y, TravelTime l t y → ∃ z, TravelTime r t z ∧ z ≤ y + A ∧ y ≤ z + A := by
  have hcl : Ch l := ch_iff.2 hl.2
  obtain ⟨⟨v, rest, e⟩, _⟩ := id hl
  have h2 : 2 ≤ l.length := by rw [e]; simp
  obtain ⟨c, e1, hk⟩ := dp_spec hA l.length l (Ch.tc hcl) h2 (le_refl _)
  have hcc := sub_ch hk.sub hcl
  obtain ⟨N, rfl⟩ := hk.ends e
  have ht : tryPartial l = some l := by simp [tryPartial]; omega
  refine ⟨_, ?_, ch_periodic hcc, hk.sub, ?_⟩
  · simp only [approximate, ht, Option.bind_eq_bind, Option.bind_some, e1]
  · intro t y hy
    obtain ⟨k, k1, k2, k3⟩ := (periodic_tt hl).1 hy
    obtain ⟨z, hz⟩ := periodic_exists (ch_periodic hcc) k1 k2.le
    have := hk.close _ _ _ k3 hz
    exact ⟨z, (periodic_tt (ch_periodic hcc)).2 ⟨k, k1, k2, hz⟩, by linarith [this.2], by linarith [this.1]⟩

end Fl
end Verif
