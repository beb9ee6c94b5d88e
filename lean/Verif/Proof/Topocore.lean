import Verif.Model.Topocore
import Verif.Proof.GraphOps2
import Verif.Proof.Sort
set_option linter.unusedSimpArgs false
set_option linter.unusedVariables false
/- Proofs about the preprocessing of the topocore (C57, C58). -/
namespace Verif

theorem FOGraph.mono_of_check {fo : List Nat} (h : ∀ i, i < fo.length - 1 → fo.getD i 0 ≤ fo.getD (i + 1) 0) :
    ∀ i a b, fo[i]? = some a → fo[i + 1]? = some b → a ≤ b := by
  intro i a b h1 h2
  have := (List.getElem?_eq_some_iff.1 h2).1
  have := h i (by omega)
  simpa [List.getD_eq_getElem?_getD, h1, h2] using this

namespace Topo

/-! ### Symmetric degrees -/

theorem symLoop_total : ∀ (fuel : Nat) (fw bw : List Nat) (deg : Nat), fw.length + bw.length ≤ fuel → ∃ d, symLoop fuel fw bw deg = some d := by
  intro fuel
  induction fuel with
  | zero => intro fw bw deg h; cases fw <;> cases bw <;> simp [symLoop] at h ⊢
  | succ f ih =>
    intro fw bw deg h
    match fw, bw with
    | [], [] => exact ⟨deg, by rw [symLoop]⟩
    | x :: fw, [] => rw [symLoop]; exact ih _ _ _ (by simp at h ⊢; omega)
    | [], y :: bw => rw [symLoop]; exact ih _ _ _ (by simp at h ⊢; omega)
    | x :: fw, y :: bw =>
      rw [symLoop]
      simp only [List.length_cons] at h
      split
      · exact ih _ _ _ (by omega)
      · split
        · exact ih _ _ _ (by simp; omega)
        · exact ih _ _ _ (by simp; omega)

/-- Whatever is in one of the lists accounts for one unit besides the other elements of the first list. -/
theorem symLoop_ge (u : Nat) : ∀ (fuel : Nat) (fw bw : List Nat) (deg d : Nat), symLoop fuel fw bw deg = some d →
    deg + (fw.filter (fun x => decide (x ≠ u))).length + (if u ∈ fw ∨ u ∈ bw then 1 else 0) ≤ d := by
  intro fuel
  induction fuel with
  | zero =>
    intro fw bw deg d h
    cases fw <;> cases bw <;> simp [symLoop] at h ⊢
    omega
  | succ f ih =>
    intro fw bw deg d h
    match fw, bw with
    | [], [] => rw [symLoop] at h; simp at h ⊢; omega
    | x :: fw, [] =>
      rw [symLoop] at h
      have := ih _ _ _ _ h
      by_cases hx : x = u
      · subst hx; simp at this ⊢; omega
      · have hx' : u ≠ x := fun h => hx h.symm
        by_cases hu : u ∈ fw <;> simp [hx, hx', hu] at this ⊢ <;> omega
    | [], y :: bw =>
      rw [symLoop] at h
      have := ih _ _ _ _ h
      by_cases hu : u = y <;> by_cases hu' : u ∈ bw <;> simp [hu, hu'] at this ⊢ <;> omega
    | x :: fw, y :: bw =>
      rw [symLoop] at h
      split at h
      · rename_i hxy
        subst hxy
        have := ih _ _ _ _ h
        by_cases hx : x = u
        · subst hx; simp at this ⊢; omega
        · have hx' : u ≠ x := fun h => hx h.symm
          by_cases hu : u ∈ fw ∨ u ∈ bw <;> simp [hx, hx', hu] at this ⊢ <;> omega
      · split at h
        · have := ih _ _ _ _ h
          by_cases hx : x = u
          · subst hx; simp at this ⊢; omega
          · have hx' : u ≠ x := fun h => hx h.symm
            simp only [List.mem_cons, hx', false_or, List.filter_cons, ne_eq, hx, not_false_eq_true, decide_true, if_true, List.length_cons] at this ⊢
            omega
        · have := ih _ _ _ _ h
          by_cases hy : y = u
          · subst hy; simp at this ⊢; omega
          · have hy' : u ≠ y := fun h => hy h.symm
            simp only [List.mem_cons, hy', false_or] at this ⊢
            omega

theorem symmetricDegree_spec (fw bw : List Nat) :
    ∃ d, symmetricDegree fw bw = some d ∧ d ≤ fw.length + bw.length ∧ ∀ u, u ∈ fw ∨ u ∈ bw → (fw.filter (fun x => decide (x ≠ u))).length + 1 ≤ d := by
  have hf := (isort_ok (α := Nat) id fw).1
  have hb := (isort_ok (α := Nat) id bw).1
  obtain ⟨d, hd⟩ := symLoop_total (fw.length + bw.length) (isort id fw) (isort id bw) 0 (by rw [hf.length_eq, hb.length_eq]; exact Nat.le_refl _)
  have hle : ∀ (fuel : Nat) (fw bw : List Nat) (deg d : Nat), symLoop fuel fw bw deg = some d → d ≤ deg + fuel := by
    intro fuel
    induction fuel with
    | zero =>
      intro fw bw deg d h
      cases fw <;> cases bw <;> simp [symLoop] at h ⊢
      omega
    | succ f ih =>
      intro fw bw deg d h
      rw [symLoop.eq_def] at h
      simp only at h
      split at h
      · split at h
        · have := ih _ _ _ _ h; omega
        · split at h
          · have := ih _ _ _ _ h; omega
          · have := ih _ _ _ _ h; omega
      · have := ih _ _ _ _ h; omega
      · have := ih _ _ _ _ h; omega
      · simp at h; omega
  refine ⟨d, hd, by have := hle _ _ _ _ _ hd; omega, ?_⟩
  intro u hu
  have := symLoop_ge u _ _ _ _ _ hd
  rw [if_pos (by rw [hf.mem_iff, hb.mem_iff]; exact hu), (hf.filter _).length_eq] at this
  omega

/-- the symmetric degree of a node, given the graph and the reversed graph -/
def degree (g r : FOGraph) (v : Nat) : Option Nat := do
  let fw ← headsOf g v
  let bw ← headsOf r v
  symmetricDegree fw bw

theorem headsOf_eq {g : FOGraph} {v : Nat} {ls : List Link} (h : g.linkIter v = some ls) : headsOf g v = some (ls.map Link.node) := by
  simp [headsOf, h]

/-- the reversed graph has the tails of incoming arcs -/
theorem reversed_heads {g r : FOGraph} (hcount : ∀ u v w, GraphOps.linkCount r.linkIter u v w = GraphOps.linkCount g.linkIter v u w)
    {u : Nat} {lu : List Link} {b : Link} (hlu : g.linkIter u = some lu) (hb : b ∈ lu) :
    ∃ lb, r.linkIter b.node = some lb ∧ u ∈ lb.map Link.node := by
  have h1 := hcount b.node u b.weight
  have h2 : 0 < GraphOps.linkCount g.linkIter u b.node b.weight := by
    simp only [GraphOps.linkCount, hlu, Option.getD_some]
    exact List.count_pos_iff.2 hb
  rw [← h1] at h2
  cases hr : r.linkIter b.node with
  | none => simp [GraphOps.linkCount, hr] at h2
  | some lb =>
    simp only [GraphOps.linkCount, hr, Option.getD_some, List.count_pos_iff] at h2
    exact ⟨lb, rfl, List.mem_map.2 ⟨_, h2, rfl⟩⟩

theorem degree_spec {g r : FOGraph} (hg : g.WF) (hr : r.WF) (hn : r.numNodes = g.numNodes)
    (hcount : ∀ u v w, GraphOps.linkCount r.linkIter u v w = GraphOps.linkCount g.linkIter v u w) {v : Nat} (hv : v < g.numNodes) :
    ∃ d, degree g r v = some d ∧ ∀ u lu b lv, g.linkIter u = some lu → b ∈ lu → b.node = v → g.linkIter v = some lv →
      (lv.filter (fun e => decide (e.node ≠ u))).length + 1 ≤ d := by
  obtain ⟨lv, h1⟩ : ∃ lv, g.linkIter v = some lv := ⟨_, GraphOps.WF_links hg hv⟩
  obtain ⟨lr, h2⟩ : ∃ lr, r.linkIter v = some lr := ⟨_, GraphOps.WF_links hr (by omega)⟩
  obtain ⟨d, h3, _, h4⟩ := symmetricDegree_spec (lv.map Link.node) (lr.map Link.node)
  refine ⟨d, by simp [degree, headsOf_eq h1, headsOf_eq h2, h3], ?_⟩
  rintro u lu b lv' hlu hb rfl hlv'
  obtain ⟨lb, h5, h6⟩ := reversed_heads hcount hlu hb
  rw [h2] at h5; injection h5 with h5; subst h5
  rw [h1] at hlv'; injection hlv' with h7; subst h7
  have := h4 u (Or.inr h6)
  rw [List.filter_map, List.length_map] at this
  exact this
end Topo
end Verif
