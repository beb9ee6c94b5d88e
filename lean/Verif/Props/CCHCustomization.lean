import Verif.Proof.CCHExact
import Verif.Props.CCH
/- Properties of the customization of CCHs (C30, C33). -/
namespace Verif
open Spec CCH

/-- **C30**, edge weights. Let `metric` assign new weights to the arcs of the contracted graph. Customization succeeds, and
for the edges of the customized graphs: weights are at most `INFINITY`; a smaller weight is the length of a walk in the
input; arcs of the input are not shorter than the corresponding edge; and no edge is longer than a detour over a node of lower
rank. -/
theorem C30_edge_weights (orig : FOGraph) (ho : orig.WF) (l : List Nat) (hl : l.length = orig.numNodes) (order : NodeOrder)
    (hord : NodeOrder.fromNodeOrder l = some order) (c : Cch) (hc : build orig order = some c)
    (metric : FOGraph) (hm : metric.WF) (hfo : metric.firstOut = orig.firstOut) (hhd : metric.head = orig.head) :
    ∃ w, customize c metric = some w ∧ (fwGraph c w).WF ∧ (bwGraph c w).WF ∧
      (∀ x y u v, order.node x = some u → order.node y = some v → ∀ a, (fwGraph c w).Arc x y a →
        a ≤ INFINITY ∧ (a < INFINITY → Walk metric.Arc u v a) ∧ ∀ b, metric.Arc u v b → a ≤ b) ∧
      (∀ x y u v, order.node x = some u → order.node y = some v → ∀ a, (bwGraph c w).Arc x y a →
        a ≤ INFINITY ∧ (a < INFINITY → Walk metric.Arc v u a) ∧ ∀ b, metric.Arc v u b → a ≤ b) ∧
      (∀ z x y a b, z < x → x < y → (bwGraph c w).Arc z x a → (fwGraph c w).Arc z y b → ∃ d, (fwGraph c w).Arc x y d ∧ d ≤ a + b) ∧
      (∀ z x y a b, z < x → x < y → (fwGraph c w).Arc z x a → (bwGraph c w).Arc z y b → ∃ d, (bwGraph c w).Arc x y d ∧ d ≤ a + b) := by
  have hok : order.OK orig.numNodes := by rw [← hl]; exact NodeOrder.ok_of_fromNodeOrder hord
  rcases build_spec ho hok with h | ⟨c', h1, hg, hb⟩
  · rw [hc] at h; simp at h
  · rw [hc] at h1; simp at h1; subst h1
    have hmo : MetricOf orig metric := ⟨hm, hfo, hhd⟩
    obtain ⟨w0, h2, h3⟩ := initWeights_spec ho hmo hok hg hb
    obtain ⟨w, h4, h5, h6⟩ := custNodes_spec hg.toBase h3.ok (topo_range hg.toBase)
    refine ⟨w, by simp only [customize, h2, Option.bind_eq_bind, Option.bind_some, show c.numNodes = orig.numNodes from hg.nn]; exact h4,
      fwGraph_wf hg.toBase h5, bwGraph_wf hg.toBase h5, ?_, ?_, ?_, ?_⟩
    · intro x y u v hu hv a ha
      obtain ⟨e, he, rfl⟩ := (fwGraph_arc hg.toBase h5).1 ha
      refine ⟨h5.ub e (Edge.lt he), fun hlt => walk_inRanks (Solved.sound hg.toBase h3 h6 (.inl ⟨e, he, rfl⟩) hlt) hu hv, ?_⟩
      intro b hb
      have h7 := (h6.bestUp x e y (hg.edge_lt he) he).le_init
      have h8 := h3.upLe he b ⟨u, v, hu, hv, hb⟩
      simp only at h7; omega
    · intro x y u v hu hv a ha
      obtain ⟨e, he, rfl⟩ := (bwGraph_arc hg.toBase h5).1 ha
      refine ⟨h5.db e (Edge.lt he), fun hlt => walk_inRanks (Solved.sound hg.toBase h3 h6 (.inr ⟨e, he, rfl⟩) hlt) hv hu, ?_⟩
      intro b hb
      have h7 := (h6.bestDown x e y (hg.edge_lt he) he).le_init
      have h8 := h3.downLe he b ⟨v, u, hv, hu, hb⟩
      simp only at h7; omega
    · intro z x y a b hzx hxy ha hb
      obtain ⟨e1, he1, rfl⟩ := (bwGraph_arc hg.toBase h5).1 ha
      obtain ⟨e2, he2, rfl⟩ := (fwGraph_arc hg.toBase h5).1 hb
      obtain ⟨d, h7, h8⟩ := Solved.tri hg h6 x z y _ _ (.inr ⟨e1, he1, rfl⟩) (.inl ⟨e2, he2, rfl⟩) hzx (by omega) (by omega)
      exact ⟨d, (fwGraph_arc hg.toBase h5).2 (h8.up hg.toBase hxy), h7⟩
    · intro z x y a b hzx hxy ha hb
      obtain ⟨e1, he1, rfl⟩ := (fwGraph_arc hg.toBase h5).1 ha
      obtain ⟨e2, he2, rfl⟩ := (bwGraph_arc hg.toBase h5).1 hb
      obtain ⟨d, h7, h8⟩ := Solved.tri hg h6 y z x _ _ (.inr ⟨e2, he2, rfl⟩) (.inl ⟨e1, he1, rfl⟩) (by omega) hzx (by omega)
      exact ⟨d, (bwGraph_arc hg.toBase h5).2 (h8.down hg.toBase hxy), by omega⟩

/-- **C30.** The minimum over the up-down paths of the customized CCH is the shortest distance in the input graph: every walk
of the input has an up-down path that is not longer, and every up-down path shorter than `INFINITY` has the length of a walk. -/
theorem C30_updown_distances (orig : FOGraph) (ho : orig.WF) (l : List Nat) (hl : l.length = orig.numNodes) (order : NodeOrder)
    (hord : NodeOrder.fromNodeOrder l = some order) (c : Cch) (hc : build orig order = some c)
    (metric : FOGraph) (hm : metric.WF) (hfo : metric.firstOut = orig.firstOut) (hhd : metric.head = orig.head)
    (w : Weights) (hw : customize c metric = some w) (s t x y : Nat) (hs : order.rank s = some x) (ht : order.rank t = some y) :
    (∀ d, Walk metric.Arc s t d → ∃ d', d' ≤ d ∧ UpDown (fwGraph c w).Arc (bwGraph c w).Arc x y d') ∧
    (∀ d, UpDown (fwGraph c w).Arc (bwGraph c w).Arc x y d → d < INFINITY → Walk metric.Arc s t d) := by
  have hok : order.OK orig.numNodes := by rw [← hl]; exact NodeOrder.ok_of_fromNodeOrder hord
  rcases build_spec ho hok with h | ⟨c', h1, hg, hb⟩
  · rw [hc] at h; simp at h
  · rw [hc] at h1; simp at h1; subst h1
    have hmo : MetricOf orig metric := ⟨hm, hfo, hhd⟩
    obtain ⟨w0, h2, h3⟩ := initWeights_spec ho hmo hok hg hb
    obtain ⟨w', h4, h5, h6⟩ := custNodes_spec hg.toBase h3.ok (topo_range hg.toBase)
    simp only [customize, h2, Option.bind_eq_bind, Option.bind_some, show c.numNodes = orig.numNodes from hg.nn, h4, Option.some.injEq] at hw
    subst hw
    obtain ⟨h7, h8⟩ := Solved.updown hg h5 h3 h6 (hb.hO hmo ho) x y
    have hx := (hok.inv.inv _ _).2 hs
    have hy := (hok.inv.inv _ _).2 ht
    refine ⟨fun d hd => h7 d (inRanks_walk hok ?_ hd hx hy), fun d hd hlt => walk_inRanks (h8 d hd hlt) hx hy⟩
    intro u v w ha
    have hn : metric.numNodes = orig.numNodes := by simp [FOGraph.numNodes, hfo]
    have := FOGraph.WF.arc_lt hm ha
    omega

/-! The hypotheses are met: customizing the example with other weights than those used for contraction. -/
namespace CCHExample

def metric : FOGraph := ⟨orig.firstOut, orig.head, [5, 1, 2, 9, 4, 3, 2147483647, 6, 1, 8]⟩

theorem metric_wf : metric.WF := by
  refine ⟨by decide, by decide, by decide, by decide, ?_, by decide⟩
  intro i a b h1 h2
  exact orig_wf.mono i a b h1 h2

/-- For example, node 0 (rank 2) reaches node 2 (rank 4) over node 4 (rank 0) with weight 5 + 6, and node 1 (rank 3) cannot be
reached from node 0, because the only way has an infinite arc. -/
theorem customized : ((build orig order).bind (fun c => customize c metric)).map (fun w => (w.up, w.down)) =
    some ([3, 2147483647, 6, 1, 8, 2147483647, 11, 7, 17], [5, 1, 2, 9, 4, 4, 5, 2147483647, 5]) := by
  decide +kernel

end CCHExample
end Verif
