import Verif.Spec.CCH
/- What it means that two upward graphs are a correct hierarchy for a graph. -/
namespace Verif.Spec

/-- The arcs `F` (upward) and `B` (downward, stored at the lower end) between ranks are a hierarchy for the graph with arcs `A`:
they lead to larger ranks, weights are at most `INFINITY`, for every walk of the graph there is an up-down path between the ranks
of its ends that is not longer, and every up-down path shorter than `INFINITY` has the length of a walk. -/
structure HierarchyOf (A : Nat → Nat → Nat → Prop) (rank : Nat → Option Nat) (F B : Nat → Nat → Nat → Prop) : Prop where
  fUp : ∀ u v w, F u v w → u < v ∧ w ≤ INFINITY
  bUp : ∀ u v w, B u v w → u < v ∧ w ≤ INFINITY
  covers : ∀ s t x y d, rank s = some x → rank t = some y → Walk A s t d → ∃ d', d' ≤ d ∧ UpDown F B x y d'
  sound : ∀ s t x y d, rank s = some x → rank t = some y → UpDown F B x y d → d < INFINITY → Walk A s t d

/-- A hierarchy without arcs of infinite weight: every up-down path has the length of a walk, however long it is. -/
structure ExactHierarchyOf (A : Nat → Nat → Nat → Prop) (rank : Nat → Option Nat) (F B : Nat → Nat → Nat → Prop) : Prop where
  fUp : ∀ u v w, F u v w → u < v
  bUp : ∀ u v w, B u v w → u < v
  covers : ∀ s t x y d, rank s = some x → rank t = some y → Walk A s t d → ∃ d', d' ≤ d ∧ UpDown F B x y d'
  sound : ∀ s t x y d, rank s = some x → rank t = some y → UpDown F B x y d → Walk A s t d

/-- The reversed arcs. -/
def Rev (A : Nat → Nat → Nat → Prop) (u v w : Nat) : Prop := A v u w

theorem UpDown.flip {F B : Nat → Nat → Nat → Prop} {s t d : Nat} (h : UpDown F B s t d) : UpDown B F t s d := by
  obtain ⟨m, a, b, h1, h2, rfl⟩ := h
  exact ⟨m, b, a, h2, h1, Nat.add_comm _ _⟩

theorem Walk.snoc' {A : Nat → Nat → Nat → Prop} {s u v d w : Nat} (h : Walk A s u d) (ha : A u v w) : Walk A s v (d + w) := by
  induction h with
  | nil u => have := Walk.cons ha (.nil v); simpa using this
  | cons h1 _ ih => rw [Nat.add_assoc]; exact .cons h1 (ih ha)

theorem Walk.rev {A : Nat → Nat → Nat → Prop} {s t d : Nat} (h : Walk A s t d) : Walk (Rev A) t s d := by
  induction h with
  | nil u => exact .nil u
  | cons h1 _ ih => rw [Nat.add_comm]; exact ih.snoc' h1

theorem walk_rev {A : Nat → Nat → Nat → Prop} {s t d : Nat} : Walk (Rev A) s t d ↔ Walk A t s d := ⟨fun h => h.rev, fun h => h.rev⟩

theorem answer_rev {A : Nat → Nat → Nat → Prop} {s t : Nat} {r : Option Nat} : Answer (Rev A) s t r ↔ Answer A t s r := by
  unfold Answer IsDist
  simp only [walk_rev]

/-- The same hierarchy for the reversed graph. -/
theorem HierarchyOf.flip {A : Nat → Nat → Nat → Prop} {rank : Nat → Option Nat} {F B : Nat → Nat → Nat → Prop} (h : HierarchyOf A rank F B) :
    HierarchyOf (Rev A) rank B F where
  fUp := h.bUp
  bUp := h.fUp
  covers s t x y d hx hy hw := by
    obtain ⟨d', h1, h2⟩ := h.covers t s y x d hy hx (walk_rev.1 hw)
    exact ⟨d', h1, h2.flip⟩
  sound s t x y d hx hy hu hd := walk_rev.2 (h.sound t s y x d hy hx hu.flip hd)

end Verif.Spec
