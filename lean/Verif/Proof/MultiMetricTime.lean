import Verif.Proof.MultiMetricGraph
import Verif.Props.TdDijkstra
set_option linter.unusedSimpArgs false
set_option linter.unusedVariables false
/- Timed paths that reach each of their nodes as early as possible. -/
namespace Verif
namespace MultiMetric
open Spec

/-- a path from `v` at time `x` that is at each node at the earliest time -/
structure OptPath (F : Nat → Nat → (Nat → Nat) → Prop) (v x : Nat) (k : Nat) (q a : Nat → Nat) : Prop where
  q0 : q 0 = v
  a0 : a 0 = x
  arc : ∀ l, l < k → ∃ f, F (q l) (q (l + 1)) f ∧ a (l + 1) = f (a l)
  min : ∀ i z, i ≤ k → TWalk F v x (q i) z → a i ≤ z

section
variable {F : Nat → Nat → (Nat → Nat) → Prop} {v x k : Nat} {q a : Nat → Nat}

theorem OptPath.walk (h : OptPath F v x k q a) : ∀ i, i ≤ k → TWalk F v x (q i) (a i) := by
  intro i
  induction i with
  | zero => intro _; rw [h.q0, h.a0]; exact .nil
  | succ i ih =>
    intro hi
    obtain ⟨f, h1, h2⟩ := h.arc i (by omega)
    rw [h2]; exact .snoc (ih (by omega)) h1

theorem twalk_trans {u y t z : Nat} (h1 : TWalk F v x u y) (h2 : TWalk F u y t z) : TWalk F v x t z := by
  induction h2 with
  | nil => exact h1
  | snoc _ hf ih => exact .snoc ih hf

theorem twalk_le (hF : ∀ u v f, F u v f → ∀ t, t ≤ f t) {u y : Nat} (h : TWalk F v x u y) : x ≤ y := by
  induction h with
  | nil => exact Nat.le_refl _
  | snoc _ hf ih => exact Nat.le_trans ih (hF _ _ _ hf _)

theorem opt_aux (hge : ∀ u v f, F u v f → ∀ t, t ≤ f t) (hmono : ∀ u v f, F u v f → ∀ t t', t ≤ t' → f t ≤ f t') : ∀ Z u z, TWalk F v x u z → z ≤ Z →
    (∀ z', TWalk F v x u z' → z ≤ z') → ∃ k q a, OptPath F v x k q a ∧ q k = u ∧ a k = z := by
  intro Z
  induction Z using Nat.strongRecOn with
  | ind Z ihZ =>
    intro u z h
    induction h with
    | nil =>
      intro _ _
      refine ⟨0, fun _ => v, fun _ => x, ⟨rfl, rfl, by omega, ?_⟩, rfl, rfl⟩
      intro i z _ hz; exact twalk_le hge hz
    | @snoc c u zc f hc hf ih =>
      intro hz hmin
      classical
      have hzc : zc ≤ f zc := hge _ _ _ hf zc
      have hex : ∃ e, TWalk F v x c e := ⟨zc, hc⟩
      have hb := Nat.find_spec hex
      have hbmin : ∀ z', TWalk F v x c z' → Nat.find hex ≤ z' := fun z' h' => Nat.find_min' hex h'
      have hle : Nat.find hex ≤ zc := hbmin zc hc
      obtain ⟨k, q, a, h1, h2, h3⟩ : ∃ k q a, OptPath F v x k q a ∧ q k = c ∧ a k = Nat.find hex := by
        by_cases he : Nat.find hex = zc
        · rw [he]
          exact ih (by omega) (fun z' h' => by rw [← he]; exact hbmin z' h')
        · exact ihZ (Nat.find hex) (by omega) c _ hb (Nat.le_refl _) hbmin
      have hval : f (Nat.find hex) = f zc := Nat.le_antisymm (hmono _ _ _ hf _ _ hle) (hmin _ (.snoc hb hf))
      refine ⟨k + 1, fupd q (k + 1) u, fupd a (k + 1) (f zc), ⟨?_, ?_, ?_, ?_⟩, by simp [fupd], by simp [fupd]⟩
      · rw [fupd_of_ne _ _ (by omega)]; exact h1.q0
      · rw [fupd_of_ne _ _ (by omega)]; exact h1.a0
      · intro l hl
        by_cases hlk : l = k
        · subst hlk
          refine ⟨f, ?_, ?_⟩
          · rw [fupd_of_ne _ _ (by omega)]; simp only [fupd, if_true]; rw [h2]; exact hf
          · rw [show fupd a (l + 1) (f zc) l = a l from fupd_of_ne _ _ (by omega), h3, hval]; simp [fupd]
        · obtain ⟨g, g1, g2⟩ := h1.arc l (by omega)
          refine ⟨g, ?_, ?_⟩
          · rw [fupd_of_ne _ _ (by omega), fupd_of_ne _ _ (by omega)]; exact g1
          · rw [fupd_of_ne _ _ (by omega), fupd_of_ne _ _ (by omega)]; exact g2
      · intro i z hi hz'
        by_cases hik : i = k + 1
        · subst hik
          simp only [fupd, if_true] at hz' ⊢
          exact hmin z hz'
        · rw [fupd_of_ne _ _ hik] at hz' ⊢
          exact h1.min i z (by omega) hz'

theorem opt_path (hge : ∀ u v f, F u v f → ∀ t, t ≤ f t) (hmono : ∀ u v f, F u v f → ∀ t t', t ≤ t' → f t ≤ f t') {t y : Nat} (h : TWalk F v x t y) :
    ∃ k q a, OptPath F v x k q a ∧ q k = t ∧ a k ≤ y := by
  classical
  have hex : ∃ e, TWalk F v x t e := ⟨y, h⟩
  obtain ⟨k, q, a, h1, h2, h3⟩ := opt_aux hge hmono _ t _ (Nat.find_spec hex) (Nat.le_refl _) (fun z' h' => Nat.find_min' hex h')
  exact ⟨k, q, a, h1, h2, by rw [h3]; exact Nat.find_min' hex h⟩

/-- Walks of upper bounds can be travelled. -/
theorem upper_walk (hmono : ∀ u v f, F u v f → ∀ t t', t ≤ t' → f t ≤ f t') {U : Nat → Nat → Nat → Prop} (hU : ∀ u v d, U u v d → ∃ f, F u v f ∧ ∀ t, f t ≤ t + d)
    {u t d : Nat} (h : Walk U u t d) : ∀ y, ∃ z, z ≤ y + d ∧ TWalk F u y t z := by
  induction h with
  | nil u => intro y; exact ⟨y, by omega, .nil⟩
  | @cons u w t l d h1 h2 ih =>
    intro y
    obtain ⟨f, h3, h4⟩ := hU _ _ _ h1
    obtain ⟨z, h5, h6⟩ := ih (f y)
    exact ⟨z, by have := h4 y; omega, .cons h3 h6⟩
end

end MultiMetric
end Verif
