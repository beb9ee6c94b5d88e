import Verif.Proof.CatchupTree
set_option linter.unusedSimpArgs false
set_option linter.unusedVariables false
/- Masks and potentials of the CATCHUp query. -/
namespace Verif.Catchup
open Fl

theorem setAll_iff (vs : List Nat) : ∀ (m : Nat → Bool) (x : Nat), setAll m vs x = true ↔ m x = true ∨ x ∈ vs := by
  induction vs with
  | nil => intro m x; simp [setAll]
  | cons v vs ih =>
    intro m x
    have := ih (fupd m v true) x
    simp only [setAll, List.foldl_cons] at this ⊢
    rw [this]
    unfold fupd
    split
    · next e => subst e; simp
    · next e => simp [e]

theorem mem_kept {eps : Rat} {x : NData} {l : Label} : l ∈ kept eps x ↔ l ∈ x.labels ∧ l.lower ≤ x.upper + eps := by
  unfold kept
  rw [List.mem_filter]
  simp only [Bool.not_eq_true', flt_false]

structure BackOK (eps : Rat) (bw : Nodes) (path : List Nat) (s r : (Nat → Bool) × (Nat → Rat)) : Prop where
  mono : ∀ x, s.1 x = true → r.1 x = true
  pot : ∀ x, x ∉ path → r.2 x = s.2 x
  hit : ∀ x ∈ path, r.1 x = true → r.2 x = (bw x).lower ∧ ∀ l ∈ kept eps (bw x), r.1 l.parent = true
  new : ∀ x, r.1 x = true → s.1 x = true ∨ ∃ y ∈ path, x < y
  pos : (∀ x, 0 ≤ s.2 x) → ∀ x, 0 ≤ r.2 x

theorem backMasks_spec {eps : Rat} {bw : Nodes} (hl : ∀ x, ∀ l ∈ (bw x).labels, l.parent < x) (hpos : ∀ x, 0 ≤ (bw x).lower) :
    ∀ (path : List Nat) (s : (Nat → Bool) × (Nat → Rat)), path.Pairwise (· > ·) → BackOK eps bw path s (backMasks eps bw path s) := by
  intro path
  induction path with
  | nil =>
    intro s _
    exact ⟨fun _ h => h, fun _ _ => rfl, fun x hx => by simp at hx, fun _ h => .inl h, fun h => h⟩
  | cons v vs ih =>
    intro s hs
    rw [List.pairwise_cons] at hs
    obtain ⟨hv, hs⟩ := hs
    have hnv : v ∉ vs := fun h => by have := hv v h; omega
    rw [backMasks]
    split
    · next hm =>
      have h := ih (setAll s.1 ((kept eps (bw v)).map (·.parent)), fupd s.2 v (bw v).lower) hs
      refine ⟨?_, ?_, ?_, ?_, ?_⟩
      · intro x hx; exact h.mono x ((setAll_iff _ _ _).2 (.inl hx))
      · intro x hx
        rw [List.mem_cons, not_or] at hx
        rw [h.pot x hx.2]
        exact fupd_of_ne _ _ hx.1
      · intro x hx hr
        rw [List.mem_cons] at hx
        rcases hx with rfl | hx
        · refine ⟨?_, ?_⟩
          · rw [h.pot _ hnv]; exact fupd_same _ _ _
          · intro l hlk
            exact h.mono _ ((setAll_iff _ _ _).2 (.inr (List.mem_map.2 ⟨l, hlk, rfl⟩)))
        · exact h.hit x hx hr
      · intro x hx
        rcases h.new x hx with h1 | ⟨y, h1, h2⟩
        · rcases (setAll_iff _ _ _).1 h1 with h1 | h1
          · exact .inl h1
          · obtain ⟨l, h2, rfl⟩ := List.mem_map.1 h1
            exact .inr ⟨v, by simp, hl v l (mem_kept.1 h2).1⟩
        · exact .inr ⟨y, by simp [h1], h2⟩
      · intro hp
        apply h.pos
        intro x
        simp only [fupd]
        split
        · exact hpos v
        · exact hp x
    · next hm =>
      have h := ih s hs
      refine ⟨h.mono, ?_, ?_, ?_, h.pos⟩
      · intro x hx
        rw [List.mem_cons, not_or] at hx
        exact h.pot x hx.2
      · intro x hx hr
        rw [List.mem_cons] at hx
        rcases hx with rfl | hx
        · rcases h.new x hr with h1 | ⟨y, h1, h2⟩
          · exact absurd h1 hm
          · have := hv y h1; omega
        · exact h.hit x hx hr
      · intro x hx
        rcases h.new x hx with h1 | ⟨y, h1, h2⟩
        · exact .inl h1
        · exact .inr ⟨y, by simp [h1], h2⟩

/-! ## Forward -/

structure LabelsOK (fw : Nodes) (rev : Rat) (ls : List Label) (s r : FMasks) : Prop where
  mono : ∀ x, s.mask x = true → r.mask x = true
  new : ∀ x, r.mask x = true → s.mask x = true ∨ ∃ l ∈ ls, l.parent = x
  rel : ∀ i, s.rel i = true → r.rel i = true
  pot : ∀ x, r.lbt x ≤ s.lbt x
  same : ∀ x, (∀ l ∈ ls, l.parent ≠ x) → r.lbt x = s.lbt x
  pos : 0 ≤ rev → (∀ l ∈ ls, (fw l.parent).lower ≤ l.lower) → (∀ x, 0 ≤ s.lbt x) → ∀ x, 0 ≤ r.lbt x
  hit : ∀ l ∈ ls, r.mask l.parent = true ∧ r.rel l.id = true ∧ r.lbt l.parent ≤ rev + l.lower - (fw l.parent).lower

theorem labels_spec (fw : Nodes) (rev : Rat) : ∀ (ls : List Label) (s : FMasks), LabelsOK fw rev ls s (ls.foldl (foreLabel fw rev) s) := by
  intro ls
  induction ls with
  | nil =>
    intro s
    exact ⟨fun _ h => h, fun _ h => .inl h, fun _ h => h, fun _ => le_refl _, fun _ _ => rfl, fun _ _ h => h, fun l hl => by simp at hl⟩
  | cons l ls ih =>
    intro s
    have h := ih (foreLabel fw rev s l)
    rw [List.foldl_cons]
    have hlb : ∀ x, (foreLabel fw rev s l).lbt x ≤ s.lbt x := by
      intro x; unfold foreLabel fupd; simp only; split
      · next e => subst e; exact min_le_left _ _
      · exact le_refl _
    refine ⟨?_, ?_, ?_, ?_, ?_, ?_, ?_⟩
    · intro x hx
      apply h.mono
      unfold foreLabel fupd; simp only; split
      · rfl
      · exact hx
    · intro x hx
      rcases h.new x hx with h1 | ⟨l', h1, h2⟩
      · unfold foreLabel fupd at h1; simp only at h1; split at h1
        · next e => exact .inr ⟨l, by simp, e.symm⟩
        · exact .inl h1
      · exact .inr ⟨l', by simp [h1], h2⟩
    · intro i hi
      apply h.rel
      unfold foreLabel fupd; simp only; split
      · rfl
      · exact hi
    · intro x; exact le_trans (h.pot x) (hlb x)
    · intro x hx
      rw [h.same x (fun l' hl' => hx l' (by simp [hl']))]
      unfold foreLabel
      simp only
      exact fupd_of_ne _ _ (Ne.symm (hx l (by simp)))
    · intro hr hl hp
      apply h.pos hr (fun l' hl' => hl l' (by simp [hl']))
      intro x
      unfold foreLabel fupd; simp only; split
      · have := hl l (by simp)
        exact le_min (hp _) (by linarith)
      · exact hp x
    · intro l' hl'
      rw [List.mem_cons] at hl'
      rcases hl' with rfl | hl'
      · refine ⟨h.mono _ (by simp [foreLabel]), h.rel _ (by simp [foreLabel]), le_trans (h.pot _) ?_⟩
        simp only [foreLabel, fupd_same]
        exact min_le_right _ _
      · exact h.hit l' hl'

structure ForeOK (eps : Rat) (fw : Nodes) (path : List Nat) (s r : FMasks) : Prop where
  mono : ∀ x, s.mask x = true → r.mask x = true
  rel : ∀ i, s.rel i = true → r.rel i = true
  pot : ∀ x, r.lbt x ≤ s.lbt x
  same : ∀ x, (∀ y ∈ path, ¬ x < y) → r.lbt x = s.lbt x ∧ (r.mask x = true → s.mask x = true)
  pos : (∀ x, 0 ≤ s.lbt x) → ∀ x, 0 ≤ r.lbt x
  hit : ∀ x ∈ path, r.mask x = true → ∀ l ∈ kept eps (fw x), r.mask l.parent = true ∧ r.rel l.id = true ∧
    r.lbt l.parent ≤ r.lbt x + l.lower - (fw l.parent).lower

theorem foreMasks_spec {eps : Rat} {fw : Nodes} (hl : ∀ x, ∀ l ∈ (fw x).labels, l.parent < x ∧ (fw l.parent).lower ≤ l.lower) :
    ∀ (path : List Nat) (s : FMasks), path.Pairwise (· > ·) → ForeOK eps fw path s (foreMasks eps fw path s) := by
  intro path
  induction path with
  | nil =>
    intro s _
    exact ⟨fun _ h => h, fun _ h => h, fun _ => le_refl _, fun _ _ => ⟨rfl, fun h => h⟩, fun h => h, fun x hx => by simp at hx⟩
  | cons v vs ih =>
    intro s hs
    rw [List.pairwise_cons] at hs
    obtain ⟨hv, hs⟩ := hs
    have hge : ∀ y ∈ vs, ¬ v < y := fun y hy => by have := hv y hy; omega
    rw [foreMasks]
    split
    · next hm =>
      have hk := labels_spec fw (s.lbt v) (kept eps (fw v)) s
      have h := ih ((kept eps (fw v)).foldl (foreLabel fw (s.lbt v)) s) hs
      have hkl : ∀ l ∈ kept eps (fw v), l.parent < v ∧ (fw l.parent).lower ≤ l.lower := fun l h1 => hl v l (mem_kept.1 h1).1
      refine ⟨fun x hx => h.mono x (hk.mono x hx), fun x hx => h.rel x (hk.rel x hx), fun x => le_trans (h.pot x) (hk.pot x), ?_, ?_, ?_⟩
      · intro x hx
        obtain ⟨h1, h2⟩ := h.same x (fun y hy => hx y (by simp [hy]))
        have hxv := hx v (by simp)
        have hne : ∀ l ∈ kept eps (fw v), l.parent ≠ x := fun l hl' e => by have := (hkl l hl').1; omega
        refine ⟨h1.trans (hk.same x hne), fun h3 => ?_⟩
        rcases hk.new x (h2 h3) with h4 | ⟨l, h4, h5⟩
        · exact h4
        · exact absurd h5 (hne l h4)
      · intro hp
        exact h.pos (hk.pos (hp v) (fun l h1 => (hkl l h1).2) hp)
      · intro x hx hr
        rw [List.mem_cons] at hx
        rcases hx with rfl | hx
        · intro l hlk
          obtain ⟨h1, h2, h3⟩ := hk.hit l hlk
          have h4 := (h.same x hge).1
          have h5 := hk.same x (fun l hl' e => by have := (hkl l hl').1; omega)
          refine ⟨h.mono _ h1, h.rel _ h2, le_trans (h.pot _) ?_⟩
          rw [h4, h5]; exact h3
        · exact h.hit x hx hr
    · next hm =>
      have h := ih s hs
      refine ⟨h.mono, h.rel, h.pot, fun x hx => h.same x (fun y hy => hx y (by simp [hy])), h.pos, ?_⟩
      intro x hx hr
      rw [List.mem_cons] at hx
      rcases hx with rfl | hx
      · exact absurd ((h.same x hge).2 hr) hm
      · exact h.hit x hx hr

end Verif.Catchup
