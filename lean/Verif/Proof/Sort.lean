import Verif.Model.Sort
import Verif.Model.GraphOps
set_option linter.unusedSimpArgs false
set_option linter.unusedVariables false
namespace Verif

/-- Insertion sort meets the assumption on sorting. -/
theorem isort_ok {α : Type} : SortOK (α := α) isort := by
  have hins : ∀ (key : α → Nat) x l, (insertSorted key x l).Perm (x :: l) := by
    intro key x l
    induction l with
    | nil => exact List.Perm.refl _
    | cons y l ih =>
      unfold insertSorted
      split
      · exact List.Perm.refl _
      · exact (List.Perm.cons _ ih).trans (List.Perm.swap _ _ _)
  intro key l
  constructor
  · induction l with
    | nil => exact List.Perm.refl _
    | cons x l ih => exact (hins key x _).trans (List.Perm.cons _ ih)
  · induction l with
    | nil => exact List.Pairwise.nil
    | cons x l ih =>
      show (insertSorted key x (isort key l)).Pairwise _
      generalize isort key l = m at ih
      induction m with
      | nil => simp [insertSorted]
      | cons y m ihm =>
        unfold insertSorted
        split
        · rename_i h
          refine List.Pairwise.cons ?_ ih
          intro z hz
          rcases List.mem_cons.1 hz with rfl | hz
          · exact h
          · have := List.rel_of_pairwise_cons ih hz; omega
        · rename_i h
          refine List.Pairwise.cons ?_ (ihm ih.tail)
          intro z hz
          rcases List.mem_cons.1 ((hins key x m).mem_iff.1 hz) with rfl | hz
          · omega
          · exact List.rel_of_pairwise_cons ih hz

theorem mem_dedup {α : Type} [DecidableEq α] (l : List α) (x : α) : x ∈ dedup l ↔ x ∈ l := by
  fun_induction dedup l with
  | case1 => simp
  | case2 => simp
  | case3 a l ih => rw [ih]; simp
  | case4 a b l h ih => simp only [List.mem_cons] at ih ⊢; rw [ih]

theorem dedup_sorted (l : List Nat) (h : l.Pairwise (· ≤ ·)) : (dedup l).Pairwise (· < ·) := by
  fun_induction dedup l with
  | case1 => simp
  | case2 => simp
  | case3 a l ih => exact ih h.tail
  | case4 a b l hab ih =>
    refine List.Pairwise.cons ?_ (ih h.tail)
    intro z hz
    rw [mem_dedup] at hz
    have h1 := List.rel_of_pairwise_cons h (List.mem_cons_self)
    rcases List.mem_cons.1 hz with rfl | hz
    · omega
    · have := List.rel_of_pairwise_cons h.tail hz
      omega

end Verif
