import Verif.Proof.CHPotential
import Verif.Props.CCHQuery
import Verif.Props.Potential
import Verif.Spec.Hierarchy
set_option linter.unusedSimpArgs false
set_option linter.unusedVariables false
/- Property C40: potentials from contraction hierarchies. -/
namespace Verif
open Spec CCH

/-- from the state of an object to all histories -/
private theorem implements_of {σ : Type} {P : Potential σ} {n : Nat} {R : Nat → Nat → Option Nat → Prop} {I : σ → Prop} {J : Nat → σ → Prop}
    (hJ : ∀ t s, J t s → I s) (hi : ∀ s t, I s → t < n → ∃ s', P.init s t = some s' ∧ J t s')
    (hg : ∀ s t v, J t s → v < n → ∃ s' x, P.get s v = some (s', x) ∧ J t s' ∧ R t v x) {s0 : σ} (h0 : I s0) : Implements P n s0 R := by
  have key : ∀ (cs : List PotCall) (t : Nat) (s : σ), J t s → (∀ c ∈ cs, PotCall.node c < n) → ∃ outs s', P.run s cs = some (outs, s') ∧
      List.Forall₂ (fun q o => R q.1 q.2 o) (asked t cs) outs := by
    intro cs
    induction cs with
    | nil => intro t s _ _; exact ⟨[], s, rfl, .nil⟩
    | cons c cs ih =>
      intro t s hs hc
      have hc0 := hc c (by simp)
      have hc' : ∀ c ∈ cs, PotCall.node c < n := fun c' h' => hc c' (by simp [h'])
      cases c with
      | init t' =>
        obtain ⟨s1, e1, e2⟩ := hi s t' (hJ t s hs) hc0
        obtain ⟨outs, s2, e3, e4⟩ := ih t' s1 e2 hc'
        exact ⟨outs, s2, by simp [Potential.run, e1, e3], e4⟩
      | get v =>
        obtain ⟨s1, x, e1, e2, e3⟩ := hg s t v hs hc0
        obtain ⟨outs, s2, e4, e5⟩ := ih t s1 e2 hc'
        exact ⟨x :: outs, s2, by simp [Potential.run, e1, e4], .cons e3 e5⟩
  intro t cs ht hcs
  obtain ⟨s1, e1, e2⟩ := hi s0 t h0 ht
  obtain ⟨outs, s', e3, e4⟩ := key cs t s1 e2 hcs
  exact ⟨outs, s', by simp [Potential.run, e1, e3], e4⟩

theorem hierarchy_answer {A : Nat → Nat → Nat → Prop} {rank : Nat → Option Nat} {F B : Nat → Nat → Nat → Prop} (h : HierarchyOf A rank F B) {s t x y d : Nat}
    (hx : rank s = some x) (hy : rank t = some y) (hd : CapMin (UpDown F B x y) d) : Answer A s t (if d < INFINITY then some d else none) := by
  apply answer_of_capMin
  refine ⟨hd.ub, fun hlt => h.sound s t x y d hx hy (hd.sound hlt) hlt, ?_⟩
  intro d' hw
  obtain ⟨d2, h1, h2⟩ := h.covers s t x y d' hx hy hw
  exact Nat.le_trans (hd.le d2 h2) h1

/-- A customized CCH is a hierarchy for the metric. -/
theorem cch_hierarchy (orig : FOGraph) (ho : orig.WF) (l : List Nat) (hl : l.length = orig.numNodes) (order : NodeOrder)
    (hord : NodeOrder.fromNodeOrder l = some order) (c : Cch) (hc : build orig order = some c)
    (metric : FOGraph) (hm : metric.WF) (hfo : metric.firstOut = orig.firstOut) (hhd : metric.head = orig.head) :
    ∃ w, customize c metric = some w ∧ TreeOK orig.numNodes c.elimTree ∧ DirOK orig.numNodes c.elimTree (fwGraph c w) ∧ DirOK orig.numNodes c.elimTree (bwGraph c w) ∧
      c.order = order ∧ HierarchyOf metric.Arc order.rank (fwGraph c w).Arc (bwGraph c w).Arc := by
  have hok : order.OK orig.numNodes := by rw [← hl]; exact NodeOrder.ok_of_fromNodeOrder hord
  rcases build_spec ho hok with h | ⟨c', h1, hg, hb⟩
  · rw [hc] at h; simp at h
  · rw [hc] at h1; simp at h1; subst h1
    have hmo : MetricOf orig metric := ⟨hm, hfo, hhd⟩
    obtain ⟨w0, h2, h3⟩ := initWeights_spec ho hmo hok hg hb
    obtain ⟨w, h4, h5, h6⟩ := custNodes_spec hg.toBase h3.ok (topo_range hg.toBase)
    have hcust : customize c metric = some w := by
      simp only [customize, h2, Option.bind_eq_bind, Option.bind_some, show c.numNodes = orig.numNodes from hg.nn]; exact h4
    have hf := fw_dirOK hg h5
    have hbd := bw_dirOK hg h5
    refine ⟨w, hcust, hg.treeOK, hf, hbd, hb.order_eq, ⟨fun u v x h => ⟨hf.up h, hf.bound h⟩, fun u v x h => ⟨hbd.up h, hbd.bound h⟩, ?_, ?_⟩⟩
    · intro s t x y d hx hy hw
      exact (C30_updown_distances orig ho l hl order hord c hc metric hm hfo hhd w hcust s t x y hx hy).1 d hw
    · intro s t x y d hx hy hu hd
      exact (C30_updown_distances orig ho l hl order hord c hc metric hm hfo hhd w hcust s t x y hx hy).2 d hu hd

/-- `CCHPotential` on any hierarchy whose arcs lead to ancestors in the elimination tree -/
theorem cchPot_implements {n : Nat} {A : Nat → Nat → Nat → Prop} {c : Cch} (hok : c.order.OK n) {fw bw : FOGraph} (ht : TreeOK n c.elimTree) (hf : DirOK n c.elimTree fw)
    (hb : DirOK n c.elimTree bw) (hh : HierarchyOf A c.order.rank fw.Arc bw.Arc) :
    Implements (cchPot c fw bw) n (PotState.new n) (fun t v x => Answer A v t x) := by
  apply implements_of (I := PotReady n) (J := fun t s => ∃ r, c.order.rank t = some r ∧ PotOK n c.elimTree fw bw r s)
  · rintro t s ⟨r, _, h⟩; exact h.ready
  · intro s t hs ht'
    obtain ⟨r, h1, h2, _⟩ := hok.rank_lt ht'
    obtain ⟨s', h3, h4⟩ := potInit_spec (fw := fw) ht hb hs h1
    exact ⟨s', by simp only [cchPot, h2, Option.bind_eq_bind, Option.bind_some]; exact h3, r, h2, h4⟩
  · rintro s t v ⟨r, hr, hs⟩ hv
    obtain ⟨r', h1, h2, _⟩ := hok.rank_lt hv
    obtain ⟨s', x, h3, h4, h5⟩ := potGet_spec ht hf hs h1
    exact ⟨s', _, by simp only [cchPot, h2, Option.bind_eq_bind, Option.bind_some]; exact h3, ⟨r, hr, h4⟩, hierarchy_answer hh h2 hr h5⟩
  · exact potReady_new

section
variable (orig : FOGraph) (ho : orig.WF) (l : List Nat) (hl : l.length = orig.numNodes) (order : NodeOrder)
  (hord : NodeOrder.fromNodeOrder l = some order) (c : Cch) (hc : build orig order = some c)
  (metric : FOGraph) (hm : metric.WF) (hfo : metric.firstOut = orig.firstOut) (hhd : metric.head = orig.head)
include ho hl hord hc hm hfo hhd

/-- **C40.** On one object, for every history of targets and questions, the CCH potential of a node is its exact distance to the
target in the input graph with the customized metric, or `None` if that is not below `INFINITY`. No call panics or overflows. -/
theorem C40_cch_potential : ∃ w, customize c metric = some w ∧
    Implements (cchPot c (fwGraph c w) (bwGraph c w)) orig.numNodes (PotState.new orig.numNodes) (fun t v x => Answer metric.Arc v t x) := by
  obtain ⟨w, h1, h2, h3, h4, h5, h6⟩ := cch_hierarchy orig ho l hl order hord c hc metric hm hfo hhd
  refine ⟨w, h1, cchPot_implements ?_ h2 h3 h4 (by rw [h5]; exact h6)⟩
  rw [h5, ← hl]; exact NodeOrder.ok_of_fromNodeOrder hord

/-- **C40**, the backward potential (the two graphs are exchanged): the exact distance from the given node. -/
theorem C40_cch_backward_potential : ∃ w, customize c metric = some w ∧
    Implements (cchPot c (bwGraph c w) (fwGraph c w)) orig.numNodes (PotState.new orig.numNodes) (fun t v x => Answer metric.Arc t v x) := by
  obtain ⟨w, h1, h2, h3, h4, h5, h6⟩ := cch_hierarchy orig ho l hl order hord c hc metric hm hfo hhd
  refine ⟨w, h1, ?_⟩
  have := cchPot_implements (A := Rev metric.Arc) (c := c) (by rw [h5, ← hl]; exact NodeOrder.ok_of_fromNodeOrder hord) h2 h4 h3 (by rw [h5]; exact h6.flip)
  simp only [answer_rev] at this
  exact this

end

/-- **C40**, `CHPotential`: on any hierarchy for a graph, for every history, the exact distance to the target; the loop over the
stack ends within a number of turns that does not depend on the history. -/
theorem C40_ch_potential (n : Nat) (l : List Nat) (hl : l.length = n) (order : NodeOrder) (hord : NodeOrder.fromNodeOrder l = some order)
    (A : Nat → Nat → Nat → Prop) (fw bw : FOGraph) (hfw : fw.WF) (hbw : bw.WF) (hnf : fw.numNodes = n) (hnb : bw.numNodes = n)
    (hh : HierarchyOf A order.rank fw.Arc bw.Arc) :
    ∃ fuel0, ∀ fuel, fuel0 ≤ fuel → Implements (chPot fuel order fw bw) n (ChPotState.new n) (fun t v x => Answer A v t x) := by
  have hok : order.OK n := by rw [← hl]; exact NodeOrder.ok_of_fromNodeOrder hord
  have hf : UpDir n fw := ⟨hfw, hnf, fun h => (hh.fUp _ _ _ h).1, fun h => (hh.fUp _ _ _ h).2⟩
  have hb : UpDir n bw := ⟨hbw, hnb, fun h => (hh.bUp _ _ _ h).1, fun h => (hh.bUp _ _ _ h).2⟩
  obtain ⟨K, hK⟩ := clears_one hf n
  refine ⟨K, fun fuel hfuel => ?_⟩
  apply implements_of (I := ChPotReady n) (J := fun t s => ∃ r, order.rank t = some r ∧ ChPotOK n fw bw r s)
  · rintro t s ⟨r, _, h⟩; exact h.ready
  · intro s t hs ht'
    obtain ⟨r, h1, h2, _⟩ := hok.rank_lt ht'
    obtain ⟨s', h3, h4⟩ := chPotInit_spec (fw := fw) hb hs h1
    exact ⟨s', by simp only [chPot, h2, Option.bind_eq_bind, Option.bind_some]; exact h3, r, h2, h4⟩
  · rintro s t v ⟨r, hr, hs⟩ hv
    obtain ⟨r', h1, h2, _⟩ := hok.rank_lt hv
    obtain ⟨s', x, h3, h4, h5⟩ := chPotGet_spec hf (fun v hv => hK v hv (by omega)) hfuel hs h1
    exact ⟨s', _, by simp only [chPot, h2, Option.bind_eq_bind, Option.bind_some]; exact h3, ⟨r, hr, h4⟩, hierarchy_answer hh h2 hr h5⟩
  · exact chPotReady_new

namespace CCHExample

/-- Potentials to nodes 2 and 3 on one object; node 1 cannot be reached from node 0 by a finite path. -/
example : ((build orig order).bind (fun c => (customize c metric).bind (fun w =>
    (cchPot c (fwGraph c w) (bwGraph c w)).run (PotState.new 6) [.init 2, .get 0, .get 3, .get 2, .init 1, .get 0, .get 5, .init 3, .get 4]))).map (·.1) =
    some [some 11, some 5, some 0, none, none, some 23] := by
  decide +kernel

example : ((build orig order).bind (fun c => (customize c metric).bind (fun w =>
    (chPot 100 order (fwGraph c w) (bwGraph c w)).run (ChPotState.new 6) [.init 2, .get 0, .get 3, .get 2, .init 1, .get 0, .get 5, .init 3, .get 4]))).map (·.1) =
    some [some 11, some 5, some 0, none, none, some 23] := by
  decide +kernel

/-- The hypotheses of C40 hold here, and those of `C40_ch_potential` for the customized CCH. -/
example : ∃ c fw bw, build orig order = some c ∧ FOGraph.WF fw ∧ FOGraph.WF bw ∧ HierarchyOf metric.Arc order.rank fw.Arc bw.Arc := by
  obtain ⟨c, hc⟩ : ∃ c, build orig order = some c := by
    have := built
    cases h : build orig order with
    | none => rw [h] at this; simp at this
    | some c => exact ⟨c, rfl⟩
  obtain ⟨w, h1, h2, h3, h4, h5, h6⟩ := cch_hierarchy orig orig_wf nodes rfl order order_ok c hc metric metric_wf rfl rfl
  exact ⟨c, _, _, hc, h3.wf, h4.wf, h6⟩

end CCHExample
end Verif
