import Verif.Proof.SubPathsUbs
import Verif.Proof.CCHExact
set_option linter.unusedSimpArgs false
set_option linter.unusedVariables false
/- The lengths of a path in a graph. -/
namespace Verif.UBS
open Spec

theorem minEdge_spec {g : FOGraph} (hg : g.WF) {u v : Nat} (hu : u < g.numNodes) :
    ∃ m, minEdge g u v = some m ∧ (∀ w, g.Arc u v w → m ≤ w) ∧ (m < INFINITY → g.Arc u v m) := by
  obtain ⟨es, h1, h2⟩ := CCH.edgeIndices_spec hg (v := v) hu
  have key : ∀ (l : List Nat) (m0 : Nat), (∀ e ∈ l, ∃ w, EdgeAt g.firstOut g.head g.weight e u v w) →
      ∃ m, l.foldlM (fun m e => do let l ← g.link e; return min m l.weight) m0 = some m ∧ m ≤ m0 ∧
        (∀ e ∈ l, ∀ w, EdgeAt g.firstOut g.head g.weight e u v w → m ≤ w) ∧ (m = m0 ∨ ∃ e ∈ l, EdgeAt g.firstOut g.head g.weight e u v m) := by
    intro l
    induction l with
    | nil => intro m0 _; exact ⟨m0, rfl, Nat.le_refl _, by simp, .inl rfl⟩
    | cons e l ih =>
      intro m0 hl
      obtain ⟨w, he⟩ := hl e (by simp)
      have he' := he
      obtain ⟨a, b, _, _, _, _, h3, h4⟩ := he
      have hlink : g.link e = some ⟨v, w⟩ := by simp [FOGraph.link, h3, h4]
      obtain ⟨m, e1, e2, e3, e4⟩ := ih (min m0 w) (fun e he => hl e (by simp [he]))
      refine ⟨m, by simpa [hlink] using e1, by omega, ?_, ?_⟩
      · intro e1 he1 w1 hw1
        simp at he1
        rcases he1 with rfl | he1
        · obtain ⟨_, _, _, _, _, _, _, h5⟩ := hw1
          rw [h4] at h5; simp at h5; omega
        · exact e3 e1 he1 w1 hw1
      · rcases e4 with rfl | ⟨e1, h5, h6⟩
        · by_cases hm : m0 ≤ w
          · left; omega
          · right; exact ⟨e, by simp, by rw [Nat.min_eq_right (by omega)]; exact he'⟩
        · exact .inr ⟨e1, by simp [h5], h6⟩
  obtain ⟨m, e1, e2, e3, e4⟩ := key es INFINITY (fun e he => (h2 e).1 he)
  refine ⟨m, by simp only [minEdge, h1, Option.bind_eq_bind, Option.bind_some]; exact e1, ?_, ?_⟩
  · intro w hw
    obtain ⟨i, hi⟩ := (CCH.edgeAt_arc hg).1 hw
    exact e3 i ((h2 i).2 ⟨w, hi⟩) w hi
  · intro hm
    rcases e4 with rfl | ⟨e, _, h6⟩
    · omega
    · exact (CCH.edgeAt_arc hg).2 ⟨e, h6⟩

theorem pathDistsFrom_spec {g : FOGraph} (hg : g.WF) (dbg : Bool) : ∀ (path : List Nat) (st d : Nat), PathOf g.Arc path d → st + d < INFINITY →
    ∃ ds, pathDistsFrom dbg g st path = some ds ∧ Steps g.Arc path (st :: ds) ∧ ∀ x ∈ ds, x ≤ st + d := by
  intro path
  induction path with
  | nil => intro st d h; cases h
  | cons u path ih =>
    intro st d h hd
    cases path with
    | nil =>
      refine ⟨[], rfl, ⟨by simp, ?_, ?_⟩, by simp⟩
      · intro i a b x y _ h2; simp at h2
      · intro i x hi hx
        simp at hi; subst hi
        simp at hx; omega
    | cons v rest =>
      obtain ⟨w, d', h1, h2, rfl⟩ := PathOf.unique_head h
      have hu : u < g.numNodes := by obtain ⟨ls, h5, _⟩ := h1; exact hg.tail_lt h5
      obtain ⟨m, e1, e2, e3⟩ := minEdge_spec hg (v := v) hu
      have hm := e2 w h1
      obtain ⟨ds, f1, f2, f3⟩ := ih (st + m) d' h2 (by omega)
      have hadd : add32 st m = some (st + m) := add32_of_lt (by simp only [INFINITY, U32] at *; omega)
      have hchk : check dbg (decide (m ≠ INFINITY)) = some () := by
        have : m ≠ INFINITY := by omega
        simp [check, this]
      refine ⟨(st + m) :: ds, ?_, ⟨by have := f2.len; simp at this ⊢; omega, ?_, ?_⟩, ?_⟩
      · simp only [pathDistsFrom, e1, hchk, hadd, f1, Option.bind_eq_bind, Option.bind_some, Option.pure_def]
      · intro i a b x y g1 g2 g3 g4
        cases i with
        | zero =>
          simp at g1 g2 g3 g4
          subst g1 g2 g3 g4
          refine ⟨by omega, by rw [Nat.add_sub_cancel_left]; exact e3 (by omega), fun w hw => by have := e2 w hw; omega⟩
        | succ i => exact f2.step i a b x y (by simpa using g1) (by simpa using g2) (by simpa using g3) (by simpa using g4)
      · intro i x hi hx
        cases i with
        | zero => simp at hx; omega
        | succ i => exact f2.fin i x (by simpa using hi) (by simpa using hx)
      · intro x hx
        simp at hx
        rcases hx with rfl | hx
        · omega
        · have := f3 x hx; omega

theorem pathDists_spec {g : FOGraph} (hg : g.WF) (dbg : Bool) {path : List Nat} {d : Nat} (h : PathOf g.Arc path d) (hd : d < INFINITY) :
    ∃ dists, pathDists dbg g path = some dists ∧ Steps g.Arc path dists := by
  obtain ⟨ds, e1, e2, _⟩ := pathDistsFrom_spec hg dbg path 0 d h (by omega)
  exact ⟨0 :: ds, by simp [pathDists, e1], e2⟩

theorem pathDists_nil {g : FOGraph} (dbg : Bool) : ∃ dists, pathDists dbg g [] = some dists ∧ Steps g.Arc [] dists :=
  ⟨[0], rfl, by simp, by simp, by simp⟩

theorem walk_pos {g : FOGraph} (hg : g.WF) (hpos : ∀ w ∈ g.weight, 0 < w) {u v d : Nat} (hne : u ≠ v) (h : Walk g.Arc u v d) : 0 < d := by
  cases h with
  | nil => exact absurd rfl hne
  | cons ha _ =>
    obtain ⟨ls, h1, h2⟩ := ha
    have := hpos _ (hg.mem_weights h1 h2)
    simp only at this; omega

end Verif.UBS
