import Verif.Spec.CCH
set_option linter.unusedSimpArgs false
set_option linter.unusedVariables false
/- Up-down paths in hierarchies. -/
namespace Verif
open Spec

theorem _root_.Verif.Spec.UpWalk.snoc {A : Nat → Nat → Nat → Prop} {s u v d w : Nat} (h : UpWalk A s u d) (ha : A u v w) (hlt : u < v) :
    UpWalk A s v (d + w) := by
  induction h with
  | nil u => have := UpWalk.cons ha hlt (.nil v); simpa using this
  | cons h1 h2 _ ih => rw [Nat.add_assoc]; exact .cons h1 h2 (ih ha hlt)

theorem _root_.Verif.Spec.UpWalk.mono {A B : Nat → Nat → Nat → Prop} (h : ∀ u v w, u < v → A u v w → B u v w) {s t d : Nat} (hw : UpWalk A s t d) : UpWalk B s t d := by
  induction hw with
  | nil u => exact .nil u
  | cons h1 h2 _ ih => exact .cons (h _ _ _ h2 h1) h2 ih

theorem _root_.Verif.Spec.UpWalk.le {A : Nat → Nat → Nat → Prop} {s t d : Nat} (hw : UpWalk A s t d) : s ≤ t := by
  induction hw with
  | nil u => exact Nat.le_refl _
  | cons _ _ _ ih => omega

theorem _root_.Verif.Spec.UpWalk.append {A : Nat → Nat → Nat → Prop} {s u t d e : Nat} (h : UpWalk A s u d) (h' : UpWalk A u t e) : UpWalk A s t (d + e) := by
  induction h with
  | nil u => simpa using h'
  | cons h1 h2 _ ih => rw [Nat.add_assoc]; exact .cons h1 h2 (ih h')

/-- an up-down path with weight at most `d` -/
def UD (F B : Nat → Nat → Nat → Prop) (s t d : Nat) : Prop := ∃ m a b, UpWalk F s m a ∧ UpWalk B t m b ∧ a + b ≤ d

theorem UD.iff {F B : Nat → Nat → Nat → Prop} {s t d : Nat} : UD F B s t d ↔ ∃ d', d' ≤ d ∧ UpDown F B s t d' := by
  constructor
  · rintro ⟨m, a, b, h1, h2, h3⟩; exact ⟨a + b, h3, m, a, b, h1, h2, rfl⟩
  · rintro ⟨d', h, m, a, b, h1, h2, rfl⟩; exact ⟨m, a, b, h1, h2, h⟩

/-- Arcs in both directions that satisfy the lower triangle inequality: an arc can be put in front of an up-down path. -/
theorem UD.prepend {A : Nat → Nat → Nat → Prop}
    (tri : ∀ s v v' w w', A s v w → A v v' w' → v < s → v < v' → s ≠ v' → ∃ w'', w'' ≤ w + w' ∧ A s v' w'')
    {s v t w d : Nat} (ha : A s v w) (hne : s ≠ v) (h : UD A (fun x y w => A y x w) v t d) :
    UD A (fun x y w => A y x w) s t (w + d) := by
  obtain ⟨m, a, b, h1, h2, h3⟩ := h
  rcases Nat.lt_or_gt_of_ne hne with hlt | hgt
  · exact ⟨m, w + a, b, .cons ha hlt h1, h2, by omega⟩
  · have key : ∀ {v m a}, UpWalk A v m a → ∀ {w d}, A s v w → v < s → UpWalk (fun x y w => A y x w) t m b → a + b ≤ d →
        UD A (fun x y w => A y x w) s t (w + d) := by
      intro v m a h
      induction h with
      | nil v =>
        intro w d ha hgt h2 h3
        exact ⟨s, 0, b + w, .nil s, UpWalk.snoc h2 ha hgt, by omega⟩
      | @cons v v' m w' d' h4 h5 h6 ih =>
        intro w d ha hgt h2 h3
        by_cases he : s = v'
        · subst he
          exact ⟨m, d', b, h6, h2, by omega⟩
        · obtain ⟨w'', hle, hA⟩ := tri s v v' w w' ha h4 hgt h5 he
          rcases Nat.lt_or_gt_of_ne he with hlt' | hgt'
          · exact ⟨m, w'' + d', b, .cons hA hlt' h6, h2, by omega⟩
          · obtain ⟨m', a', b', k1, k2, k3⟩ := ih hA hgt' h2 (Nat.le_refl _)
            exact ⟨m', a', b', k1, k2, by omega⟩
    exact key h1 ha hgt h2 h3

/-- Every walk is matched by an up-down path. -/
theorem UD.of_walk {O A : Nat → Nat → Nat → Prop}
    (tri : ∀ s v v' w w', A s v w → A v v' w' → v < s → v < v' → s ≠ v' → ∃ w'', w'' ≤ w + w' ∧ A s v' w'')
    (hO : ∀ x y w, O x y w → x ≠ y → ∃ w', w' ≤ w ∧ A x y w') {s t d : Nat} (h : Walk O s t d) :
    UD A (fun x y w => A y x w) s t d := by
  induction h with
  | nil u => exact ⟨u, 0, 0, .nil u, .nil u, by omega⟩
  | @cons u v t w d ha _ ih =>
    by_cases he : u = v
    · subst he
      obtain ⟨m, a, b, h1, h2, h3⟩ := ih
      exact ⟨m, a, b, h1, h2, by omega⟩
    · obtain ⟨w', hle, hA⟩ := hO u v w ha he
      obtain ⟨m, a, b, h1, h2, h3⟩ := UD.prepend tri hA he ih
      exact ⟨m, a, b, h1, h2, by omega⟩

/-- Up-down paths shorter than the bound consist of arcs that are walks of the input. -/
theorem _root_.Verif.Spec.UpWalk.walk {O A : Nat → Nat → Nat → Prop} {I : Nat} (hA : ∀ x y w, A x y w → w < I → Walk O x y w) {s t d : Nat}
    (h : UpWalk A s t d) (hd : d < I) : Walk O s t d := by
  induction h with
  | nil u => exact .nil u
  | cons h1 _ _ ih => exact (hA _ _ _ h1 (by omega)).append (ih (by omega))

theorem _root_.Verif.Spec.UpWalk.walk_rev {O B : Nat → Nat → Nat → Prop} {I : Nat} (hB : ∀ x y w, B x y w → w < I → Walk O y x w) {s t d : Nat}
    (h : UpWalk B s t d) (hd : d < I) : Walk O t s d := by
  induction h with
  | nil u => exact .nil u
  | @cons u v t w d h1 _ _ ih =>
    have := (ih (by omega)).append (hB _ _ _ h1 (by omega))
    rwa [Nat.add_comm] at this

theorem _root_.Verif.Spec.UpDown.walk {O F B : Nat → Nat → Nat → Prop} {I : Nat} (hF : ∀ x y w, F x y w → w < I → Walk O x y w)
    (hB : ∀ x y w, B x y w → w < I → Walk O y x w) {s t d : Nat} (h : UpDown F B s t d) (hd : d < I) : Walk O s t d := by
  obtain ⟨m, a, b, h1, h2, rfl⟩ := h
  exact (h1.walk hF (by omega)).append (UpWalk.walk_rev hB h2 (by omega))

end Verif
