import Verif.Proof.CCHBuild
import Verif.Proof.Dijkstra
/- Properties of customizable contraction hierarchies: contraction and the elimination tree (C28, C29). -/
namespace Verif
open Spec CCH

/-- **C28.** `contract` either rejects the graph because the completion does not fit into 32 bit edge ids, or it returns a
graph on the ranks `0..n` such that: the neighbours of each node are listed in strictly increasing order and have higher
ranks; every input arc between different nodes is present; and any two upward neighbours of a node are connected. -/
theorem C28_chordal_supergraph (orig : FOGraph) (ho : orig.WF) (l : List Nat) (hl : l.length = orig.numNodes) (order : NodeOrder)
    (hord : NodeOrder.fromNodeOrder l = some order) :
    (build orig order = none ∧ TooLarge orig order) ∨
    ∃ c, build orig order = some c ∧ c.numNodes = orig.numNodes ∧
      (∀ x, x < orig.numNodes → ∃ up, heads c.topo x = some up ∧ up.Pairwise (· < ·) ∧ ∀ y ∈ up, x < y ∧ y < orig.numNodes) ∧
      (∀ u v w, orig.Arc u v w → u ≠ v → ∃ x y up, order.rank u = some x ∧ order.rank v = some y ∧
        heads c.topo (min x y) = some up ∧ max x y ∈ up) ∧
      (∀ x up y z, heads c.topo x = some up → y ∈ up → z ∈ up → y < z → ∃ up', heads c.topo y = some up' ∧ z ∈ up') := by
  have hok : order.OK orig.numNodes := by rw [← hl]; exact NodeOrder.ok_of_fromNodeOrder hord
  rcases build_spec ho hok with h | ⟨c, h1, hg, hb⟩
  · exact .inl h
  · refine .inr ⟨c, h1, hg.nn, ?_, ?_, ?_⟩
    · intro x hx
      obtain ⟨ls, h2, h3, h4⟩ := hg.heads hx
      refine ⟨ls, h2, h3, ?_⟩
      intro y hy
      obtain ⟨e, he⟩ := (h4 y).1 hy
      exact hg.up he
    · intro u v w harc huv
      obtain ⟨ls, ha1, ha2⟩ := harc
      obtain ⟨x, hx, hxr, _⟩ := hok.rank_lt (ho.tail_lt ha1)
      obtain ⟨y, hy, hyr, _⟩ := hok.rank_lt (ho.mem_heads ha1 ha2)
      have hxn := (hok.inv.inv _ _).2 hxr
      have hyn := (hok.inv.inv _ _).2 hyr
      have hne : x ≠ y := by
        rintro rfl
        rw [hxn] at hyn; simp at hyn; exact huv hyn
      have hadj : RankAdj orig.Arc order.node (min x y) (max x y) := by
        rcases Nat.lt_or_gt_of_ne hne with h | h
        · rw [Nat.min_eq_left (by omega), Nat.max_eq_right (by omega)]
          exact ⟨hne, u, v, w, hxn, hyn, .inl ⟨ls, ha1, ha2⟩⟩
        · rw [Nat.min_eq_right (by omega), Nat.max_eq_left (by omega)]
          exact ⟨fun h => hne h.symm, v, u, w, hyn, hxn, .inr ⟨ls, ha1, ha2⟩⟩
      obtain ⟨up, h2, h3, h4⟩ := hg.heads (x := min x y) (by omega)
      refine ⟨x, y, up, hxr, hyr, h2, ?_⟩
      rw [h4, hb.edge_iff]
      exact ⟨by omega, .one hadj⟩
    · intro x up y z h2 hy hz hyz
      have hx : x < orig.numNodes := by
        rw [← hg.nn]
        obtain ⟨w, ls, h, _⟩ := (heads_mem hg.wf h2 y).1 hy
        exact hg.wf.tail_lt h
      obtain ⟨ls, h3, h4, h5⟩ := hg.heads hx
      rw [h2] at h3; simp at h3; subst h3
      obtain ⟨e, he⟩ := (h5 y).1 hy
      obtain ⟨e', he'⟩ := (h5 z).1 hz
      obtain ⟨e'', he''⟩ := hg.chordal he he' hyz
      obtain ⟨up', h6, h7, h8⟩ := hg.heads (hg.up he).2
      exact ⟨up', h6, (h8 z).2 ⟨e'', he''⟩⟩

/-- **C28**, minimality: the completion contains the edge `x < y` exactly if the input graph connects the two nodes by a
path through nodes of lower rank than both. -/
theorem C28_no_superfluous_edges (orig : FOGraph) (ho : orig.WF) (l : List Nat) (hl : l.length = orig.numNodes) (order : NodeOrder)
    (hord : NodeOrder.fromNodeOrder l = some order) (c : Cch) (hc : build orig order = some c) (x y : Nat) (hxy : x < y) :
    (∃ up, heads c.topo x = some up ∧ y ∈ up) ↔ LowPath (RankAdj orig.Arc order.node) x x y := by
  have hok : order.OK orig.numNodes := by rw [← hl]; exact NodeOrder.ok_of_fromNodeOrder hord
  rcases build_spec ho hok with h | ⟨c', h1, hg, hb⟩
  · rw [hc] at h; simp at h
  · rw [hc] at h1; simp at h1; subst h1
    have := hb.edge_iff x y
    constructor
    · rintro ⟨up, h2, h3⟩
      have hx : x < orig.numNodes := by
        rw [← hg.nn]
        obtain ⟨w, ls, h, _⟩ := (heads_mem hg.wf h2 y).1 h3
        exact hg.wf.tail_lt h
      obtain ⟨ls, h4, _, h5⟩ := hg.heads hx
      rw [h2] at h4; simp at h4; subst h4
      exact (this.1 ((h5 y).1 h3)).2
    · intro h
      obtain ⟨e, he⟩ := this.2 ⟨hxy, h⟩
      obtain ⟨ls, h4, _, h5⟩ := hg.heads (hg.edge_lt he)
      exact ⟨ls, h4, (h5 y).2 ⟨e, he⟩⟩

/-- **C29.** In the elimination tree, parents have higher ranks, and every upward neighbour of a node is its ancestor. -/
theorem C29_neighbours_are_ancestors (orig : FOGraph) (ho : orig.WF) (l : List Nat) (hl : l.length = orig.numNodes) (order : NodeOrder)
    (hord : NodeOrder.fromNodeOrder l = some order) (c : Cch) (hc : build orig order = some c) :
    c.elimTree.length = orig.numNodes ∧
    (∀ x p, c.elimTree[x]? = some (some p) → x < p ∧ p < orig.numNodes) ∧
    (∀ x up y, heads c.topo x = some up → y ∈ up → Anc (fun v => (c.elimTree[v]?).getD none) x y) := by
  have hok : order.OK orig.numNodes := by rw [← hl]; exact NodeOrder.ok_of_fromNodeOrder hord
  rcases build_spec ho hok with h | ⟨c', h1, hg, hb⟩
  · rw [hc] at h; simp at h
  · rw [hc] at h1; simp at h1; subst h1
    refine ⟨hg.treeLen, ?_, ?_⟩
    · intro x p hp
      have hpar : c.parent x = some p := by simp [Cch.parent, hp]
      obtain ⟨⟨e, he⟩, _⟩ := hg.parent_edge hpar
      exact hg.up he
    · intro x up y h2 hy
      have hx : x < orig.numNodes := by
        rw [← hg.nn]
        obtain ⟨w, ls, h, _⟩ := (heads_mem hg.wf h2 y).1 hy
        exact hg.wf.tail_lt h
      obtain ⟨ls, h3, h4, h5⟩ := hg.heads hx
      rw [h2] at h3; simp at h3; subst h3
      obtain ⟨e, he⟩ := (h5 y).1 hy
      exact hg.anc he

/-- **C29**, a consequence: every node that can be reached by upward edges is an ancestor. -/
theorem C29_upward_reachable (orig : FOGraph) (ho : orig.WF) (l : List Nat) (hl : l.length = orig.numNodes) (order : NodeOrder)
    (hord : NodeOrder.fromNodeOrder l = some order) (c : Cch) (hc : build orig order = some c) (s t d : Nat)
    (hw : UpWalk (fun x y w => w = 1 ∧ ∃ up, heads c.topo x = some up ∧ y ∈ up) s t d) :
    Anc (fun v => (c.elimTree[v]?).getD none) s t := by
  obtain ⟨_, _, h⟩ := C29_neighbours_are_ancestors orig ho l hl order hord c hc
  induction hw with
  | nil u => exact .refl u
  | cons ha _ _ ih =>
    obtain ⟨_, up, h1, h2⟩ := ha
    exact (h _ up _ h1 h2).trans ih

/-! The hypotheses are met: a graph with six nodes, 1 ↔ 4, 4 ↔ 0, 4 ↔ 2, 2 ↔ 5, 5 ↔ 3, and an order that needs shortcuts. -/
namespace CCHExample

/-- arcs 0→4 (3), 1→4 (2), 2→4 (2), 2→5 (1), 3→5 (7), 4→0 (3), 4→1 (1), 4→2 (5), 5→2 (1), 5→3 (6) -/
def orig : FOGraph := ⟨[0, 1, 2, 4, 5, 8, 10], [4, 4, 4, 5, 5, 0, 1, 2, 2, 3], [3, 2, 2, 1, 7, 3, 1, 5, 1, 6]⟩
def nodes : List Nat := [4, 5, 0, 1, 2, 3]
def order : NodeOrder := ⟨nodes, [2, 3, 4, 5, 0, 1]⟩

theorem orig_wf : orig.WF := by
  refine ⟨by decide, by decide, by decide, by decide, ?_, by decide⟩
  intro i a b h1 h2
  have hi : i < 6 := by
    have := (List.getElem?_eq_some_iff.1 h2).1
    simp [orig] at this; omega
  match i, hi with
  | 0, _ | 1, _ | 2, _ | 3, _ | 4, _ | 5, _ => simp [orig] at h1 h2; omega

theorem order_ok : NodeOrder.fromNodeOrder nodes = some order := by decide +kernel

/-- The completion has shortcuts: rank 0 (node 4) connects ranks 2, 3 and 4. -/
theorem built : (build orig order).map (fun c => (c.head, c.elimTree, heads c.topo 2)) =
    some ([2, 3, 4, 4, 5, 3, 4, 4, 5], [some 2, some 4, some 3, some 4, some 5, none], some [3, 4]) := by
  decide +kernel

example : ∃ c, build orig order = some c ∧ heads c.topo 2 = some [3, 4] ∧ LowPath (RankAdj orig.Arc order.node) 2 2 4 := by
  have h := built
  rw [Option.map_eq_some_iff] at h
  obtain ⟨c, h1, h2⟩ := h
  simp only [Prod.mk.injEq] at h2
  exact ⟨c, h1, h2.2.2, (C28_no_superfluous_edges orig orig_wf nodes rfl order order_ok c h1 2 4 (by decide)).1
    ⟨_, h2.2.2, by decide⟩⟩

end CCHExample
end Verif
