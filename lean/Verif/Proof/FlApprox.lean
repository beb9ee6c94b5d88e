import Verif.Model.FlApprox
import Verif.Proof.FlMergeGeo
/- Douglas-Peucker in exact arithmetic. -/
set_option linter.unusedSimpArgs false
set_option linter.unusedVariables false
namespace Verif
namespace Fl
open Spec

/-- points in the order of time -/
abbrev Tc (l : List Pt) : Prop := List.IsChain (fun p q : Pt => p.t < q.t) l

theorem Ch.tc {l : List Pt} (h : Ch l) : Tc l := List.IsChain.imp (fun _ _ h => h.1) h

theorem tc_seg {l A B : List Pt} {p q : Pt} (h : Tc l) (e : l = A ++ p :: q :: B) : p.t < q.t := by
  subst e
  exact (List.isChain_iff_forall_rel_of_append_cons_cons.1 h) rfl

theorem tc_append {B C : List Pt} {q : Pt} (h : Tc (B ++ q :: C)) : Tc (B ++ [q]) ∧ Tc (q :: C) := by
  rw [Tc, List.isChain_split] at h
  exact h

theorem tc_lt {p : Pt} : ∀ {l : List Pt}, Tc (p :: l) → ∀ q ∈ l, p.t < q.t
  | [], _, q, h => by simp at h
  | r :: l, hc, q, h => by
    rw [Tc, List.isChain_cons_cons] at hc
    rcases List.mem_cons.1 h with rfl | h
    · exact hc.1
    · exact hc.1.trans (tc_lt hc.2 q h)

/-! ### Interpolation between points in the order of time -/

theorem interp_mid {q : Pt} {C : List Pt} {t y : Rat} : ∀ {B : List Pt}, Interp (B ++ q :: C) t y ↔ Interp (B ++ [q]) t y ∨ Interp (q :: C) t y
  | [] => by
    simp only [List.nil_append]
    constructor
    · exact .inr
    · rintro (h | h)
      · exact (interp_short h).elim
      · exact h
  | [p] => by
    simp only [List.cons_append, List.nil_append]
    rw [interp_cons, interp_cons]
    constructor
    · rintro (h | h)
      · exact .inl (.inl h)
      · exact .inr h
    · rintro ((h | h) | h)
      · exact .inl h
      · exact (interp_short h).elim
      · exact .inr h
  | p :: p' :: B => by
    have ih := interp_mid (q := q) (C := C) (t := t) (y := y) (B := p' :: B)
    simp only [List.cons_append] at ih ⊢
    rw [interp_cons, ih, interp_cons, or_assoc]

theorem tc_ge {p : Pt} : ∀ {l : List Pt}, Tc (p :: l) → ∀ {t y : Rat}, Interp (p :: l) t y → p.t ≤ t
  | [], _, _, _, h => (interp_short h).elim
  | q :: B, hc, t, y, h => by
    rw [Tc, List.isChain_cons_cons] at hc
    rcases interp_cons.1 h with h | h
    · exact h.1
    · exact hc.1.le.trans (tc_ge hc.2 h)

theorem tc_first {p : Pt} : ∀ {l : List Pt}, Tc (p :: l) → ∀ {y : Rat}, Interp (p :: l) p.t y → y = p.v
  | [], _, _, h => (interp_short h).elim
  | q :: B, hc, y, h => by
    rw [Tc, List.isChain_cons_cons] at hc
    rcases interp_cons.1 h with h | h
    · exact (slope_left hc.1).1 h
    · exact absurd (tc_ge hc.2 h) (not_le.2 hc.1)

theorem at_first {p : Pt} : ∀ {l : List Pt}, Tc (p :: l) → l ≠ [] → Interp (p :: l) p.t p.v
  | [], _, h => (h rfl).elim
  | q :: B, hc, _ => by
    rw [Tc, List.isChain_cons_cons] at hc
    exact interp_cons.2 (.inl ((slope_left hc.1).2 rfl))

theorem tc_le {q : Pt} : ∀ {l : List Pt}, Tc (l ++ [q]) → ∀ {t y : Rat}, Interp (l ++ [q]) t y → t ≤ q.t
  | [], _, _, _, h => (interp_short h).elim
  | [p], hc, t, y, h => by
    simp only [List.cons_append, List.nil_append] at h hc
    rcases interp_cons.1 h with h | h
    · exact h.2.1
    · exact (interp_short h).elim
  | p :: p' :: B, hc, t, y, h => by
    simp only [List.cons_append] at h hc
    have hc' := hc
    rw [Tc, List.isChain_cons_cons] at hc
    rcases interp_cons.1 h with h | h
    · exact h.2.1.trans (tc_lt hc.2 q (by simp)).le
    · exact tc_le (l := p' :: B) hc.2 h

theorem tc_last {q : Pt} : ∀ {l : List Pt}, Tc (l ++ [q]) → ∀ {y : Rat}, Interp (l ++ [q]) q.t y → y = q.v
  | [], _, _, h => (interp_short h).elim
  | [p], hc, y, h => by
    simp only [List.cons_append, List.nil_append, Tc, List.isChain_cons_cons] at h hc
    rcases interp_cons.1 h with h | h
    · exact (slope_right hc.1).1 h
    · exact (interp_short h).elim
  | p :: p' :: B, hc, y, h => by
    simp only [List.cons_append] at h hc
    rw [Tc, List.isChain_cons_cons] at hc
    rcases interp_cons.1 h with h | h
    · exact absurd h.2.1 (not_le.2 (tc_lt hc.2 q (by simp)))
    · exact tc_last (l := p' :: B) hc.2 h

theorem at_last {q : Pt} : ∀ {l : List Pt}, Tc (l ++ [q]) → l ≠ [] → Interp (l ++ [q]) q.t q.v
  | [], _, h => (h rfl).elim
  | [p], hc, _ => by
    simp only [List.cons_append, List.nil_append, Tc, List.isChain_cons_cons] at hc ⊢
    exact interp_cons.2 (.inl ((slope_right hc.1).2 rfl))
  | p :: p' :: B, hc, _ => by
    simp only [List.cons_append] at hc ⊢
    rw [Tc, List.isChain_cons_cons] at hc
    exact interp_cons.2 (.inr (at_last (l := p' :: B) hc.2 (by simp)))

theorem left_of {B C : List Pt} {q : Pt} (hc : Tc (B ++ q :: C)) (hB : B ≠ []) {t y : Rat} (h : Interp (B ++ q :: C) t y) (ht : t ≤ q.t) :
    Interp (B ++ [q]) t y := by
  rcases interp_mid.1 h with h | h
  · exact h
  · have e : t = q.t := le_antisymm ht (tc_ge (tc_append hc).2 h)
    subst e
    rw [tc_first (tc_append hc).2 h]
    exact at_last (tc_append hc).1 hB

theorem right_of {B C : List Pt} {q : Pt} (hc : Tc (B ++ q :: C)) (hC : C ≠ []) {t y : Rat} (h : Interp (B ++ q :: C) t y) (ht : q.t ≤ t) :
    Interp (q :: C) t y := by
  rcases interp_mid.1 h with h | h
  · have e : t = q.t := le_antisymm (tc_le (tc_append hc).1 h) ht
    subst e
    rw [tc_last (tc_append hc).1 h]
    exact at_first (tc_append hc).2 hC
  · exact h

/-- below a line at the points, then everywhere -/
theorem interp_aff {l : List Pt} (hc : Tc l) {h : Rat → Rat} (ha : Aff h) {σ K : Rat} (hx : ∀ x ∈ l, σ * (x.v - h x.t) ≤ K) {t y : Rat}
    (hy : Interp l t y) : σ * (y - h t) ≤ K := by
  obtain ⟨A, p, q, B, e, hs⟩ := hy
  have hlt := tc_seg hc e
  rw [onSeg_ln hlt] at hs
  obtain ⟨h1, h2, rfl⟩ := hs
  have aff : Aff (fun s => σ * (ln p q s - h s) - K) := by
    obtain ⟨m, em⟩ := aff_ln p q
    obtain ⟨n, en⟩ := ha
    refine ⟨σ * (m - n), fun t s => ?_⟩
    simp only
    rw [em t s, en t s]; ring
  have := aff.between (a := p.t) (b := q.t) (t := t)
    (by have := hx p (by simp [e]); simp only [ln_left]; linarith)
    (by have := hx q (by simp [e]); simp only [ln_right hlt]; linarith) h1 h2
  linarith

/-- the same time, and not more than `K` above (or below) -/
def Df (σ K : Rat) (p q : Pt) : Prop := p.t = q.t ∧ σ * (p.v - q.v) ≤ K

theorem df_tc {σ K : Rat} {a b : List Pt} (h : List.Forall₂ (Df σ K) a b) : Tc b → Tc a := by
  induction h with
  | nil => intro _; exact List.IsChain.nil
  | @cons p q a b hpq hr ih =>
    intro hc
    cases hr with
    | nil => exact List.IsChain.singleton _
    | @cons p' q' a b hpq' hr =>
      rw [Tc, List.isChain_cons_cons] at hc ⊢
      exact ⟨by rw [hpq.1, hpq'.1]; exact hc.1, ih hc.2⟩

theorem df_interp {σ K : Rat} {a b : List Pt} (h : List.Forall₂ (Df σ K) a b) (hc : Tc b) {t y : Rat} (hy : Interp a t y) :
    ∃ z, Interp b t z ∧ σ * (y - z) ≤ K := by
  induction h with
  | nil => obtain ⟨A, p, q, B, e, _⟩ := hy; simp at e
  | @cons p q a b hpq hr ih =>
    cases hr with
    | nil => exact (interp_short hy).elim
    | @cons p' q' a b hpq' hr =>
      rw [Tc, List.isChain_cons_cons] at hc
      rcases interp_cons.1 hy with h | h
      · have hlt : p.t < p'.t := by rw [hpq.1, hpq'.1]; exact hc.1
        rw [onSeg_ln hlt] at h
        refine ⟨ln q q' t, interp_cons.2 (.inl ((onSeg_ln hc.1).2 ⟨by rw [← hpq.1]; exact h.1, by rw [← hpq'.1]; exact h.2.1, rfl⟩)), ?_⟩
        have e := h.2.2
        have : Tc [p, p'] := by simp [Tc, hlt]
        refine interp_aff this (aff_ln q q') (σ := σ) (K := K) ?_ (t := t) (y := y) (interp_cons.2 (.inl ((onSeg_ln hlt).2 h)))
        intro x hx
        simp only [List.mem_cons, List.not_mem_nil, or_false] at hx
        rcases hx with rfl | rfl
        · rw [hpq.1, ln_left]; exact hpq.2
        · rw [hpq'.1, ln_right hc.1]; exact hpq'.2
      · obtain ⟨z, h1, h2⟩ := ih hc.2 h
        exact ⟨z, interp_cons.2 (.inr h1), h2⟩

/-! ### What the result has to do with the function -/

/-- some of the points, the first and the last among them, and the function stays close -/
structure Sk (A : Rat) (l c : List Pt) : Prop where
  sub : c.Sublist l
  head : c.head? = l.head?
  last : c.getLast? = l.getLast?
  len : 2 ≤ c.length
  close : ∀ t y z, Interp l t y → Interp c t z → y - z ≤ A ∧ z - y ≤ A

/-- the points moved to one side of the function by at most `A` -/
structure Sd (σ A : Rat) (l c a : List Pt) : Prop where
  near : List.Forall₂ (Df σ 0) a c
  far : List.Forall₂ (Df (-σ) A) a c
  side : ∀ t y y', Interp l t y → Interp a t y' → σ * (y' - y) ≤ 0

theorem sub_tc {l c : List Pt} (h : c.Sublist l) (hc : Tc l) : Tc c := by
  haveI : IsTrans Pt (fun p q => p.t < q.t) := ⟨fun _ _ _ h h' => lt_trans h h'⟩
  exact hc.sublist h

theorem sub_ch {l c : List Pt} (h : c.Sublist l) (hc : Ch l) : Ch c := by
  haveI : IsTrans Pt Nx := ⟨fun _ _ _ h h' => h.trans h'⟩
  exact hc.sublist h

theorem last_split {c : List Pt} {q : Pt} (h : c.getLast? = some q) : c = c.dropLast ++ [q] := (List.dropLast_append_getLast? _ h).symm

theorem Sk.join {A : Rat} {B C c₁ c₂ : List Pt} {q : Pt} (hc : Tc (B ++ q :: C)) (h1 : Sk A (B ++ [q]) c₁) (h2 : Sk A (q :: C) c₂) :
    ∃ D E, c₁ = D ++ [q] ∧ c₂ = q :: E ∧ D ≠ [] ∧ E ≠ [] ∧ Sk A (B ++ q :: C) (D ++ q :: E) := by
  have e1 : c₁ = c₁.dropLast ++ [q] := last_split (by rw [h1.last]; simp)
  obtain ⟨E, e2⟩ : ∃ E, c₂ = q :: E := by
    have := h2.head
    cases c₂ with
    | nil => simp at this
    | cons x E => simp at this; exact ⟨E, by rw [this]⟩
  obtain ⟨D, e1⟩ : ∃ D, c₁ = D ++ [q] := ⟨_, e1⟩
  subst e1 e2
  have hD : D ≠ [] := by rintro rfl; have := h1.len; simp at this
  have hE : E ≠ [] := by rintro rfl; have := h2.len; simp at this
  have hB : B ≠ [] := by
    rintro rfl
    have k1 := h1.sub.length_le
    have k2 := h1.len
    simp only [List.nil_append, List.length_singleton] at k1
    omega
  have hC : C ≠ [] := by
    rintro rfl
    have k1 := h2.sub.length_le
    have k2 := h2.len
    simp only [List.length_singleton] at k1
    omega
  have sub : (D ++ q :: E).Sublist (B ++ q :: C) := by
    have hs1 : D.Sublist B := by
      exact (List.append_sublist_append_right [q]).1 h1.sub
    have hs2 := h2.sub
    exact hs1.append hs2
  refine ⟨D, E, rfl, rfl, hD, hE, sub, ?_, ?_, ?_, ?_⟩
  · have := h1.head
    cases D with
    | nil => exact (hD rfl).elim
    | cons x D => cases B with
      | nil => exact (hB rfl).elim
      | cons y B => simpa using this
  · have := h2.last
    rw [List.getLast?_append, List.getLast?_append, this, List.getLast?_eq_some_getLast (List.cons_ne_nil q C)]
    rfl
  · have := h2.len
    simp at this ⊢; omega
  · intro t y z hy hz
    have hcc := sub_tc sub hc
    rcases le_total t q.t with ht | ht
    · exact h1.close t y z (left_of hc hB hy ht) (left_of hcc hD hz ht)
    · exact h2.close t y z (right_of hc hC hy ht) (right_of hcc hE hz ht)

theorem forall2_snoc {R : Pt → Pt → Prop} : ∀ {D a : List Pt} {q : Pt}, List.Forall₂ R a (D ++ [q]) → ∃ F u, a = F ++ [u] ∧ List.Forall₂ R F D ∧ R u q
  | [], a, q, h => by
    cases h with
    | cons h h' => cases h'; exact ⟨[], _, rfl, .nil, h⟩
  | p :: D, a, q, h => by
    cases h with
    | cons h h' =>
      obtain ⟨F, u, rfl, h1, h2⟩ := forall2_snoc h'
      exact ⟨_ :: F, u, rfl, .cons h h1, h2⟩

theorem forall2_append {R : Pt → Pt → Prop} {F D G E : List Pt} (h : List.Forall₂ R F D) (h' : List.Forall₂ R G E) : List.Forall₂ R (F ++ G) (D ++ E) := by
  induction h with
  | nil => exact h'
  | cons h _ ih => exact .cons h ih

theorem forall2_self {R : Pt → Pt → Prop} (h : ∀ x, R x x) : ∀ {F : List Pt}, List.Forall₂ R F F
  | [] => .nil
  | x :: F => .cons (h x) (forall2_self h)

theorem df_self {σ : Rat} {F : List Pt} : List.Forall₂ (Df σ 0) F F := forall2_self (fun x => ⟨rfl, by simp⟩)

theorem Sd.join {σ A : Rat} {B C D E a₁ a₂ : List Pt} {q : Pt} (hc : Tc (B ++ q :: C)) (hcc : Tc (D ++ q :: E)) (hB : B ≠ []) (hC : C ≠ []) (hD : D ≠ [])
    (hE : E ≠ []) (h1 : Sd σ A (B ++ [q]) (D ++ [q]) a₁) (h2 : Sd σ A (q :: C) (q :: E) a₂) :
    ∃ F u w H, a₁ = F ++ [u] ∧ a₂ = w :: H ∧ ∀ j, (j = u.v ∨ j = w.v) → σ * (j - u.v) ≤ 0 → σ * (j - w.v) ≤ 0 →
      Sd σ A (B ++ q :: C) (D ++ q :: E) (F ++ ⟨w.t, j⟩ :: H) := by
  obtain ⟨F, u, rfl, f1, f2⟩ := forall2_snoc h1.near
  obtain ⟨F', u', e, g1, g2⟩ := forall2_snoc h1.far
  obtain ⟨rfl, e⟩ := List.append_inj' e rfl
  simp at e; subst e
  have k1 := h2.near
  have k2 := h2.far
  cases k1 with
  | @cons w _ H _ k1 k1' =>
  cases k2 with
  | cons k2 k2' =>
  refine ⟨F, u, w, H, rfl, rfl, ?_⟩
  intro j hj hu hw
  have near : List.Forall₂ (Df σ 0) (F ++ ⟨w.t, j⟩ :: H) (D ++ q :: E) :=
    forall2_append f1 (.cons ⟨k1.1, by have := k1.2; simp only; linarith⟩ k1')
  have tca := df_tc near hcc
  have hF : F ≠ [] := by rintro rfl; cases f1; exact hD rfl
  have hH : H ≠ [] := by rintro rfl; cases k1'; exact hE rfl
  refine ⟨near, forall2_append g1 (.cons ⟨k1.1, ?_⟩ k2'), ?_⟩
  · simp only
    rcases hj with rfl | rfl
    · exact g2.2
    · exact k2.2
  · intro t y y' hy hy'
    have ew : (⟨w.t, j⟩ : Pt).t = q.t := k1.1
    rcases le_total t q.t with ht | ht
    · have a1 := left_of hc hB hy ht
      have a2 := left_of tca hF hy' (by rw [ew]; exact ht)
      have hd : List.Forall₂ (Df σ 0) (F ++ [⟨w.t, j⟩]) (F ++ [u]) := forall2_append df_self (.cons ⟨by rw [ew, f2.1], hu⟩ .nil)
      obtain ⟨z, hz, hz'⟩ := df_interp hd (df_tc h1.near (tc_append hcc).1) a2
      have := h1.side t y z a1 hz
      linarith
    · have a1 := right_of hc hC hy ht
      have a2 := right_of tca hH hy' (by rw [ew]; exact ht)
      have hd : List.Forall₂ (Df σ 0) (⟨w.t, j⟩ :: H) (w :: H) := .cons ⟨rfl, hw⟩ df_self
      obtain ⟨z, hz, hz'⟩ := df_interp hd (df_tc h2.near (tc_append hcc).2) a2
      have := h2.side t y z a1 hz
      linarith

/-! ### The largest differences -/

theorem lastMax_spec : ∀ {l : List (Nat × Rat)}, l ≠ [] → ∃ m, lastMax l = some m ∧ m ∈ l ∧ ∀ x ∈ l, x.2 ≤ m.2
  | [], h => (h rfl).elim
  | [x], _ => ⟨x, rfl, by simp, by simp⟩
  | x :: y :: l, _ => by
    obtain ⟨m, h1, h2, h3⟩ := lastMax_spec (l := y :: l) (by simp)
    rw [lastMax, h1]
    simp only
    split
    · next h =>
      refine ⟨x, rfl, by simp, ?_⟩
      intro z hz
      rcases List.mem_cons.1 hz with rfl | hz
      · exact le_refl _
      · exact (h3 z hz).trans h.le
    · next h =>
      refine ⟨m, rfl, List.mem_cons_of_mem _ h2, ?_⟩
      intro z hz
      rcases List.mem_cons.1 hz with rfl | hz
      · exact not_lt.1 h
      · exact h3 z hz

theorem firstMin_spec : ∀ {l : List (Nat × Rat)}, l ≠ [] → ∃ m, firstMin l = some m ∧ m ∈ l ∧ ∀ x ∈ l, m.2 ≤ x.2
  | [], h => (h rfl).elim
  | [x], _ => ⟨x, rfl, by simp, by simp⟩
  | x :: y :: l, _ => by
    obtain ⟨m, h1, h2, h3⟩ := firstMin_spec (l := y :: l) (by simp)
    rw [firstMin, h1]
    simp only
    split
    · next h =>
      refine ⟨m, rfl, List.mem_cons_of_mem _ h2, ?_⟩
      intro z hz
      rcases List.mem_cons.1 hz with rfl | hz
      · exact h.le
      · exact h3 z hz
    · next h =>
      refine ⟨x, rfl, by simp, ?_⟩
      intro z hz
      rcases List.mem_cons.1 hz with rfl | hz
      · exact le_refl _
      · exact (not_lt.1 h).trans (h3 z hz)

theorem absv_le {x A : Rat} : absv x ≤ A ↔ x ≤ A ∧ -x ≤ A := by simp [absv]

theorem deltas_spec {l : List Pt} {p q : Pt} (hl : 2 < l.length) (h : p.t < q.t) :
    ∃ ds, deltas 0 p q l = some ds ∧ ds ≠ [] ∧ (∀ d ∈ ds, 1 ≤ d.1 ∧ d.1 + 1 < l.length) ∧
      ∀ (i : Nat) (x : Pt), 1 ≤ i → i + 1 < l.length → l[i]? = some x → (i, x.v - ln p q x.t) ∈ ds := by
  have e : deltas 0 p q l = some ((l.dropLast.zipIdx.drop 1).map (fun x => (x.2, x.1.v - ln p q x.1.t))) := by
    unfold deltas
    generalize l.dropLast.zipIdx.drop 1 = k
    induction k with
    | nil => simp
    | cons a k ih =>
      rw [List.mapM_cons, ih]
      simp only [interpolate_ok h, ln, Option.bind_eq_bind, Option.bind_some, Option.pure_def, List.map_cons]
  have hlen : (l.dropLast.zipIdx.drop 1).length = l.length - 2 := by simp; omega
  have hget : ∀ (j : Nat) (z : Pt × Nat), (l.dropLast.zipIdx.drop 1)[j]? = some z → l[j + 1]? = some z.1 ∧ z.2 = j + 1 ∧ j + 2 < l.length := by
    intro j z hz
    have hj := (List.getElem?_eq_some_iff.1 hz).1
    rw [hlen] at hj
    rw [List.getElem?_drop, List.getElem?_zipIdx, List.getElem?_dropLast, if_pos (by omega)] at hz
    simp only [Option.map_eq_some_iff] at hz
    obtain ⟨x, h1, rfl⟩ := hz
    refine ⟨by rw [← h1]; congr 1; omega, by simp; omega, by omega⟩
  refine ⟨_, e, ?_, ?_, ?_⟩
  · intro e'
    have := congrArg List.length e'
    simp at this
    omega
  · intro d hd
    obtain ⟨z, hz, rfl⟩ := List.mem_map.1 hd
    obtain ⟨j, hj, e⟩ := List.getElem_of_mem hz
    obtain ⟨_, h2, h3⟩ := hget j z (by rw [List.getElem?_eq_getElem hj, e])
    simp only; omega
  · intro i x hi hi' hx
    refine List.mem_map.2 ⟨(x, i), ?_, rfl⟩
    apply List.mem_of_getElem? (i := i - 1)
    rw [List.getElem?_drop, List.getElem?_zipIdx, List.getElem?_dropLast, if_pos (by omega)]
    have : 1 + (i - 1) = i := by omega
    simp [this, hx]

/-- two lists that share the point in the middle -/
theorem split_mid {l : List Pt} {i : Nat} (h1 : 1 ≤ i) (h2 : i + 1 < l.length) : ∃ B q C, l = B ++ q :: C ∧ l.take (i + 1) = B ++ [q] ∧ l.drop i = q :: C ∧
    B ≠ [] ∧ C ≠ [] ∧ (B ++ [q]).length = i + 1 ∧ (q :: C).length = l.length - i := by
  have hi : i < l.length := by omega
  refine ⟨l.take i, l[i], l.drop (i + 1), ?_, ?_, ?_, ?_, ?_, ?_, ?_⟩
  · rw [List.getElem_cons_drop, List.take_append_drop]
  · rw [List.take_append_getElem]
  · rw [List.getElem_cons_drop]
  · intro e; have := congrArg List.length e; simp only [List.length_take, List.length_nil] at this; omega
  · intro e; have := congrArg List.length e; simp only [List.length_drop, List.length_nil] at this; omega
  · simp only [List.length_append, List.length_take, List.length_singleton]; omega
  · simp only [List.length_cons, List.length_drop]; omega

theorem ends_of {l : List Pt} (hc : Tc l) (hl : 2 < l.length) : ∃ p M q, l = p :: M ++ [q] ∧ l.head? = some p ∧ l.getLast? = some q ∧ p.t < q.t ∧ M ≠ [] := by
  cases l with
  | nil => simp at hl
  | cons p l =>
    have hne : l ≠ [] := by rintro rfl; simp at hl
    have e := List.dropLast_append_getLast hne
    refine ⟨p, l.dropLast, l.getLast hne, by simp [e], rfl, ?_, ?_, ?_⟩
    · rw [List.getLast?_cons, List.getLast?_eq_some_getLast hne]; rfl
    · exact tc_lt hc _ (List.getLast_mem hne)
    · intro e'; have := congrArg List.length e'; simp at this; simp at hl; omega

/-- the line from the first to the last point is close if it is close at the points -/
theorem two_points {A : Rat} {l M : List Pt} {p q : Pt} (hc : Tc l) (e : l = p :: M ++ [q]) (hlt : p.t < q.t)
    (h : ∀ x ∈ l, x.v - ln p q x.t ≤ A ∧ ln p q x.t - x.v ≤ A) : Sk A l [p, q] := by
  refine ⟨?_, by simp [e], by rw [e, List.getLast?_append]; rfl, by simp, ?_⟩
  · rw [e]
    simp
  · intro t y z hy hz
    have hz' : z = ln p q t := by
      rcases interp_cons.1 hz with hz | hz
      · exact ((onSeg_ln hlt).1 hz).2.2
      · exact (interp_short hz).elim
    subst hz'
    have h1 := interp_aff hc (aff_ln p q) (σ := 1) (K := A) (fun x hx => by have := (h x hx).1; linarith) hy
    have h2 := interp_aff hc (aff_ln p q) (σ := -1) (K := A) (fun x hx => by have := (h x hx).2; linarith) hy
    constructor <;> linarith

theorem inner_of {l M : List Pt} {p q : Pt} (e : l = p :: M ++ [q]) {ds : List (Nat × Rat)}
    (hds : ∀ (i : Nat) (x : Pt), 1 ≤ i → i + 1 < l.length → l[i]? = some x → (i, x.v - ln p q x.t) ∈ ds) {x : Pt} (hx : x ∈ l) :
    x = p ∨ x = q ∨ ∃ i, (i, x.v - ln p q x.t) ∈ ds := by
  subst e
  simp only [List.cons_append, List.mem_cons, List.mem_append, List.not_mem_nil, or_false] at hx
  rcases hx with h | h | h
  · exact .inl h
  · obtain ⟨j, hj, e⟩ := List.getElem_of_mem h
    refine .inr (.inr ⟨j + 1, hds (j + 1) x (by omega) (by simp; omega) ?_⟩)
    rw [List.cons_append, List.getElem?_cons_succ, List.getElem?_append_left hj, List.getElem?_eq_getElem hj, e]
  · exact .inr (.inl h)

theorem sk_self {A : Rat} (hA : 0 ≤ A) {l : List Pt} (hc : Tc l) (h2 : l.length = 2) : Sk A l l := by
  refine ⟨List.Sublist.refl _, rfl, rfl, by omega, ?_⟩
  intro t y z hy hz
  match l, h2, hc with
  | [p, q], _, hc =>
    simp [Tc] at hc
    have e : ∀ z, Interp [p, q] t z → z = ln p q t := by
      intro z hz
      rcases interp_cons.1 hz with hz | hz
      · exact ((onSeg_ln hc).1 hz).2.2
      · exact (interp_short hz).elim
    rw [e y hy, e z hz]
    constructor <;> linarith

/-- `douglas_peuker` -/
theorem dp_spec {A : Rat} (hA : 0 ≤ A) : ∀ (fuel : Nat) (l : List Pt), Tc l → 2 ≤ l.length → l.length ≤ fuel → ∃ c, dp 0 A fuel l = some c ∧ Sk A l c
  | 0, l, _, h1, h2 => by omega
  | fuel + 1, l, hc, h1, h2 => by
    rw [dp]
    by_cases hl : l.length ≤ 2
    · rw [if_pos hl]
      exact ⟨l, rfl, sk_self hA hc (by omega)⟩
    rw [if_neg hl]
    obtain ⟨p, M, q, e, ep, eq, hlt, hM⟩ := ends_of hc (by omega)
    obtain ⟨ds, e1, hne, hin, hall⟩ := deltas_spec (l := l) (by omega) hlt
    obtain ⟨m, e2, hm, hmax⟩ := lastMax_spec (l := ds.map (fun x => (x.1, absv x.2))) (by simpa using hne)
    simp only [ep, eq, e1, e2, Option.bind_eq_bind, Option.bind_some, Option.pure_def]
    by_cases hA' : A < m.2
    · rw [if_pos hA']
      obtain ⟨d, hd, ed⟩ := List.mem_map.1 hm
      have hi := hin d hd
      have em : m.1 = d.1 := by rw [← ed]
      obtain ⟨B, x, C, el, et, edr, hB, hC, lB, lC⟩ := split_mid (l := l) (i := m.1) (by omega) (by omega)
      have hcc := hc
      rw [el] at hcc
      obtain ⟨c1, r1, s1⟩ := dp_spec hA fuel (B ++ [x]) (tc_append hcc).1 (by omega) (by omega)
      obtain ⟨c2, r2, s2⟩ := dp_spec hA fuel (x :: C) (tc_append hcc).2 (by omega) (by omega)
      rw [et, edr, r1]
      simp only [r2, Option.bind_some]
      obtain ⟨D, E, rfl, rfl, _, _, s⟩ := s1.join hcc s2
      refine ⟨_, rfl, ?_⟩
      rw [el]
      simpa using s
    · rw [if_neg hA']
      refine ⟨_, rfl, two_points hc e hlt ?_⟩
      intro x hx
      rcases inner_of e hall hx with rfl | rfl | ⟨i, hi⟩
      · rw [ln_left]; constructor <;> linarith
      · rw [ln_right hlt]; constructor <;> linarith
      · have := hmax _ (List.mem_map.2 ⟨_, hi, rfl⟩)
        have := absv_le.1 (this.trans (not_lt.1 hA'))
        simp only at this
        constructor <;> linarith

end Fl
end Verif
