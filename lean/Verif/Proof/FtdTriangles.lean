import Verif.Model.FtdCustomize
import Verif.Spec.FtdInput
set_option linter.unusedSimpArgs false
set_option linter.unusedVariables false
/- The lower triangles of an arc. -/
namespace Verif.Ftd
open Spec Catchup

theorem mem_inverted {arcs : List (Nat × Nat)} {v x i : Nat} : (x, i) ∈ inverted arcs v ↔ arcs[i]? = some (x, v) := by
  unfold inverted
  simp only [List.mem_map, List.mem_filter, beq_iff_eq, Prod.mk.injEq]
  constructor
  · rintro ⟨⟨⟨x', v'⟩, i'⟩, ⟨h1, h2⟩, h3, h4⟩
    simp only at h2 h3 h4
    subst h2; subst h3; subst h4
    exact List.mem_zipIdx_iff_getElem?.1 h1
  · intro h
    exact ⟨((x, v), i), ⟨List.mem_zipIdx_iff_getElem?.2 h, rfl⟩, rfl, rfl⟩

theorem mem_arcsOf {arcs : List (Nat × Nat)} {v i : Nat} : i ∈ arcsOf arcs v ↔ ∃ a, arcs[i]? = some a ∧ a.1 = v := by
  unfold arcsOf
  simp only [List.mem_map, List.mem_filter, beq_iff_eq]
  constructor
  · rintro ⟨⟨a, i'⟩, ⟨h1, h2⟩, h3⟩
    simp only at h2 h3
    subst h3
    exact ⟨a, List.mem_zipIdx_iff_getElem?.1 h1, h2⟩
  · rintro ⟨a, h, e⟩
    exact ⟨(a, i), ⟨List.mem_zipIdx_iff_getElem?.2 h, e⟩, rfl⟩

theorem arcsOf_nodup (arcs : List (Nat × Nat)) (v : Nat) : (arcsOf arcs v).Nodup := by
  unfold arcsOf
  unfold List.Nodup
  rw [List.pairwise_map, List.pairwise_filter]
  rw [List.pairwise_iff_getElem]
  intro i j hi hj hij _ _
  simp only [List.getElem_zipIdx]
  omega

variable {arcs : List (Nat × Nat)} {n : Nat} {par : Nat → Option Nat}

theorem inverted_sorted (hT : HierarchyOK arcs n par) (v : Nat) : (inverted arcs v).Pairwise (fun p q => p.1 < q.1) := by
  unfold inverted
  rw [List.pairwise_map, List.pairwise_filter, List.pairwise_iff_getElem]
  intro i j hi hj hij h1 h2
  simp only [List.getElem_zipIdx, beq_iff_eq, Nat.zero_add] at h1 h2 ⊢
  simp only [List.length_zipIdx] at hi hj
  have e1 : arcs[i]? = some arcs[i] := List.getElem?_eq_getElem hi
  have e2 : arcs[j]? = some arcs[j] := List.getElem?_eq_getElem hj
  have := hT.sorted i j _ _ hij e1 e2
  rcases Nat.lt_or_eq_of_le this with h | h
  · exact h
  · have : arcs[i] = arcs[j] := Prod.ext h (by rw [h1, h2])
    rw [this] at e1
    have := hT.unique i j _ e1 e2
    omega

theorem common_sound : ∀ (fuel : Nat) (a b : List (Nat × Nat)) {i j : Nat}, (i, j) ∈ common fuel a b → ∃ x, (x, i) ∈ a ∧ (x, j) ∈ b
  | 0, a, b, i, j, h => by simp [common] at h
  | fuel + 1, [], b, i, j, h => by simp [common] at h
  | fuel + 1, p :: a, [], i, j, h => by simp [common] at h
  | fuel + 1, (x, k) :: a, (y, l) :: b, i, j, h => by
    rw [common] at h
    split at h
    · obtain ⟨z, h1, h2⟩ := common_sound fuel _ _ h
      exact ⟨z, List.mem_cons_of_mem _ h1, h2⟩
    · split at h
      · obtain ⟨z, h1, h2⟩ := common_sound fuel _ _ h
        exact ⟨z, h1, List.mem_cons_of_mem _ h2⟩
      · rw [List.mem_cons] at h
        rcases h with h | h
        · injection h with h1 h2
          subst h1; subst h2
          have : x = y := by omega
          subst this
          exact ⟨x, by simp, by simp⟩
        · obtain ⟨z, h1, h2⟩ := common_sound fuel _ _ h
          exact ⟨z, List.mem_cons_of_mem _ h1, List.mem_cons_of_mem _ h2⟩

theorem common_complete : ∀ (fuel : Nat) (a b : List (Nat × Nat)) {x i j : Nat}, a.Pairwise (fun p q => p.1 < q.1) → b.Pairwise (fun p q => p.1 < q.1) →
    a.length + b.length ≤ fuel → (x, i) ∈ a → (x, j) ∈ b → (i, j) ∈ common fuel a b
  | 0, a, b, x, i, j, _, _, hf, h1, h2 => by
    have : a.length = 0 := by omega
    rw [List.length_eq_zero_iff] at this; subst this; simp at h1
  | fuel + 1, [], b, x, i, j, _, _, hf, h1, h2 => by simp at h1
  | fuel + 1, p :: a, [], x, i, j, _, _, hf, h1, h2 => by simp at h2
  | fuel + 1, (y, k) :: a, (z, l) :: b, x, i, j, ha, hb, hf, h1, h2 => by
    rw [common]
    have ha' := List.pairwise_cons.1 ha
    have hb' := List.pairwise_cons.1 hb
    simp only [List.length_cons] at hf
    have ga : ∀ q ∈ a, y < q.1 := ha'.1
    have gb : ∀ q ∈ b, z < q.1 := hb'.1
    split
    · refine common_complete fuel _ _ ha'.2 hb (by simp only [List.length_cons]; omega) ?_ h2
      rw [List.mem_cons] at h1
      rcases h1 with h1 | h1
      · injection h1 with h1 _
        rw [List.mem_cons] at h2
        rcases h2 with h2 | h2
        · injection h2 with h2 _; omega
        · have := gb _ h2; simp only at this; omega
      · exact h1
    · split
      · refine common_complete fuel _ _ ha hb'.2 (by simp only [List.length_cons]; omega) h1 ?_
        rw [List.mem_cons] at h2
        rcases h2 with h2 | h2
        · injection h2 with h2 _
          rw [List.mem_cons] at h1
          rcases h1 with h1 | h1
          · injection h1 with h1 _; omega
          · have := ga _ h1; simp only at this; omega
        · exact h2
      · rw [List.mem_cons] at h1 h2 ⊢
        rcases h1 with h1 | h1
        · injection h1 with h1 h1'
          rcases h2 with h2 | h2
          · injection h2 with h2 h2'
            left; rw [h1', h2']
          · have := gb _ h2; simp only at this; omega
        · rcases h2 with h2 | h2
          · injection h2 with h2 h2'
            have := ga _ h1; simp only at this; omega
          · right
            exact common_complete fuel _ _ ha'.2 hb'.2 (by omega) h1 h2

/-- the triangles are the pairs of arcs from a common lower node -/
theorem mem_triangles (hT : HierarchyOK arcs n par) {u v i j : Nat} : (i, j) ∈ triangles arcs u v ↔ ∃ x, arcs[i]? = some (x, u) ∧ arcs[j]? = some (x, v) := by
  constructor
  · intro h
    obtain ⟨x, h1, h2⟩ := common_sound _ _ _ h
    exact ⟨x, mem_inverted.1 h1, mem_inverted.1 h2⟩
  · rintro ⟨x, h1, h2⟩
    exact common_complete _ _ _ (inverted_sorted hT u) (inverted_sorted hT v) (le_refl _) (mem_inverted.2 h1) (mem_inverted.2 h2)

end Verif.Ftd
