import Verif.Proof.HubLabels
import Verif.Props.CCHPotential
set_option linter.unusedSimpArgs false
set_option linter.unusedVariables false
/- Property C43: hub labels. -/
namespace Verif
open Spec CCH HL

private theorem triangle {n : Nat} {A F B : Nat → Nat → Nat → Prop} {order : NodeOrder} (ho : order.OK n) (hh : ExactHierarchyOf A order.rank F B) :
    ∀ u m v a b, u < n → m < n → v < n → UpDown F B u m a → UpDown F B m v b → ∃ d, d ≤ a + b ∧ UpDown F B u v d := by
  intro u m v a b hu hm hv h1 h2
  obtain ⟨s, e1, _, e2⟩ := ho.node_lt hu
  obtain ⟨x, e3, _, e4⟩ := ho.node_lt hm
  obtain ⟨t, e5, _, e6⟩ := ho.node_lt hv
  exact hh.covers s t u v (a + b) e2 e6 ((hh.sound s x u m a e2 e4 h1).append (hh.sound x t m v b e4 e6 h2))

/-- **C43.** For every hierarchy without infinite arcs whose upward paths are not longer than `INFINITY`, the construction does not fail, and for
every pair of nodes the labels give the exact shortest distance, and no distance if and only if there is no walk. -/
theorem C43_hub_labels (n : Nat) (l : List Nat) (hl : l.length = n) (order : NodeOrder) (hord : NodeOrder.fromNodeOrder l = some order)
    (A : Nat → Nat → Nat → Prop) (fw bw : FOGraph) (hfw : fw.WF) (hbw : bw.WF) (hnf : fw.numNodes = n) (hnb : bw.numNodes = n)
    (hh : ExactHierarchyOf A order.rank fw.Arc bw.Arc) (hfin : ∀ u v d, UpWalk fw.Arc u v d → d ≤ INFINITY) (hfin' : ∀ u v d, UpWalk bw.Arc u v d → d ≤ INFINITY) :
    ∃ hl, HL.build fw bw = some hl ∧ ∀ s t x y, order.rank s = some x → order.rank t = some y → ∃ r, HL.dist hl x y = some r ∧
      (∀ d, r = some d ↔ IsDist A s t d) ∧ (r = none ↔ ∀ d, ¬ Walk A s t d) := by
  have hok : order.OK n := by rw [← hl]; exact NodeOrder.ok_of_fromNodeOrder hord
  have hu : UpFin n fw := ⟨hfw, hnf, hh.fUp, hfin⟩
  have hd : UpFin n bw := ⟨hbw, hnb, hh.bUp, hfin'⟩
  obtain ⟨st, h1, h2⟩ := build_hl_spec hu hd (triangle hok hh)
  refine ⟨st, h1, ?_⟩
  intro s t x y hx hy
  obtain ⟨r, h3, h4⟩ := hub_spec hu hd h2 (hok.rank_range hx) (hok.rank_range hy)
  refine ⟨r.map (·.2), by simp [HL.dist, h3], ?_⟩
  rcases h4 with ⟨rfl, h4⟩ | ⟨h, a, b, rfl, h5, h6, h7⟩
  · have hno : ∀ d, ¬ Walk A s t d := fun d hw => by
      obtain ⟨d', _, e⟩ := hh.covers s t x y d hx hy hw
      exact h4 d' e
    exact ⟨fun d => ⟨fun e => by simp at e, fun e => absurd e.1 (hno d)⟩, by simp [hno]⟩
  · have hw := hh.sound s t x y _ hx hy ⟨h, a, b, h5, h6, rfl⟩
    have hmin : ∀ d, Walk A s t d → a + b ≤ d := fun d hw => by
      obtain ⟨d', e1, e2⟩ := hh.covers s t x y d hx hy hw
      exact Nat.le_trans (h7 d' e2) e1
    refine ⟨fun d => ⟨fun e => ?_, fun e => ?_⟩, ?_⟩
    · simp at e; subst e; exact ⟨hw, hmin⟩
    · simp only [Option.map_some, Option.some.injEq]
      exact Nat.le_antisymm (hmin d e.1) (e.2 _ hw)
    · simp only [Option.map_some, reduceCtorEq, false_iff]
      exact fun e => e _ hw

/-- **C43**, second part: the hub that is returned lies on a shortest walk. -/
theorem C43_hub_on_shortest_walk (n : Nat) (l : List Nat) (hl : l.length = n) (order : NodeOrder) (hord : NodeOrder.fromNodeOrder l = some order)
    (A : Nat → Nat → Nat → Prop) (fw bw : FOGraph) (hfw : fw.WF) (hbw : bw.WF) (hnf : fw.numNodes = n) (hnb : bw.numNodes = n)
    (hh : ExactHierarchyOf A order.rank fw.Arc bw.Arc) (hfin : ∀ u v d, UpWalk fw.Arc u v d → d ≤ INFINITY) (hfin' : ∀ u v d, UpWalk bw.Arc u v d → d ≤ INFINITY) :
    ∃ hl, HL.build fw bw = some hl ∧ ∀ s t x y h d, order.rank s = some x → order.rank t = some y → HL.hubAndDist hl x y = some (some (h, d)) →
      ∃ m a b, order.rank m = some h ∧ Walk A s m a ∧ Walk A m t b ∧ d = a + b ∧ IsDist A s t d := by
  obtain ⟨st, h1, h2⟩ := C43_hub_labels n l hl order hord A fw bw hfw hbw hnf hnb hh hfin hfin'
  have hok : order.OK n := by rw [← hl]; exact NodeOrder.ok_of_fromNodeOrder hord
  have hu : UpFin n fw := ⟨hfw, hnf, hh.fUp, hfin⟩
  have hd : UpFin n bw := ⟨hbw, hnb, hh.bUp, hfin'⟩
  obtain ⟨st', h3, h4⟩ := build_hl_spec hu hd (triangle hok hh)
  rw [h1] at h3; simp at h3; subst h3
  refine ⟨st, h1, ?_⟩
  intro s t x y h d hx hy hr
  obtain ⟨r, h5, h6⟩ := hub_spec hu hd h4 (hok.rank_range hx) (hok.rank_range hy)
  rw [hr] at h5; simp at h5; subst h5
  obtain ⟨r, h7, h8, _⟩ := h2 s t x y hx hy
  have hdist := (h8 d).1 (by simp [HL.dist, hr] at h7; exact h7.symm)
  rcases h6 with ⟨h6, _⟩ | ⟨h', a, b, h6, h9, h10, _⟩
  · simp at h6
  · simp at h6
    obtain ⟨rfl, rfl⟩ := h6
    obtain ⟨m, e1, _, e2⟩ := hok.node_lt (hu.lt h9 (hok.rank_range hx))
    exact ⟨m, a, b, e2, hh.sound s m x h a hx e2 ⟨h, a, 0, h9, .nil h, by omega⟩, hh.sound m t h y b e2 hy ⟨h, 0, b, .nil h, h10, by omega⟩, rfl, hdist⟩

private theorem upwalk_bound {g : FOGraph} {n W : Nat} (hg : g.WF) (hn : g.numNodes = n) (hw : ∀ w ∈ g.weight, w ≤ W) {u v d : Nat} (h : UpWalk g.Arc u v d) (hu : u < n) :
    d ≤ W * (v - u) ∧ u ≤ v ∧ v < n := by
  induction h with
  | nil => exact ⟨by omega, by omega, hu⟩
  | @cons u v t w d h1 h2 h3 ih =>
    obtain ⟨ls, e1, e2⟩ := h1
    have e3 := hg.mem_heads e1 e2
    have e4 := hw _ (hg.mem_weights e1 e2)
    simp only at e3 e4
    obtain ⟨i1, i2, i3⟩ := ih (by omega)
    refine ⟨?_, by omega, i3⟩
    have : W * (t - v) + W ≤ W * (t - u) := by
      rw [← Nat.mul_succ]; exact Nat.mul_le_mul_left _ (by omega)
    omega

private theorem upwalk_small {g : FOGraph} {n W : Nat} (hg : g.WF) (hn : g.numNodes = n) (hw : ∀ w ∈ g.weight, w ≤ W) (hW : 2 * (W * n) < INFINITY) {u v d : Nat} (h : UpWalk g.Arc u v d) :
    2 * d < INFINITY := by
  by_cases hu : u < n
  · obtain ⟨h1, h2, h3⟩ := upwalk_bound hg hn hw h hu
    have : W * (v - u) ≤ W * n := Nat.mul_le_mul_left _ (by omega)
    omega
  · cases h with
    | nil => simp only [INFINITY]; omega
    | cons h1 _ _ =>
      exfalso
      obtain ⟨ls, e1, _⟩ := h1
      rw [hg.linkIter] at e1
      have := (List.getElem?_eq_some_iff.1 e1).1
      rw [FOGraph.adj_length] at this
      omega

/-- **C43** for a customized CCH whose arcs all have small finite weights. -/
theorem C43_hub_labels_cch (orig : FOGraph) (ho : orig.WF) (l : List Nat) (hl : l.length = orig.numNodes) (order : NodeOrder)
    (hord : NodeOrder.fromNodeOrder l = some order) (c : Cch) (hc : CCH.build orig order = some c)
    (metric : FOGraph) (hm : metric.WF) (hfo : metric.firstOut = orig.firstOut) (hhd : metric.head = orig.head) (w : Weights) (hw : customize c metric = some w)
    (W : Nat) (hW : 2 * (W * orig.numNodes) < INFINITY) (hwf : ∀ x ∈ (fwGraph c w).weight, x ≤ W) (hwb : ∀ x ∈ (bwGraph c w).weight, x ≤ W) :
    ∃ hl, HL.build (fwGraph c w) (bwGraph c w) = some hl ∧ ∀ s t x y, order.rank s = some x → order.rank t = some y → ∃ r, HL.dist hl x y = some r ∧
      (∀ d, r = some d ↔ IsDist metric.Arc s t d) ∧ (r = none ↔ ∀ d, ¬ Walk metric.Arc s t d) := by
  obtain ⟨w', h1, h2, h3, h4, h5, h6⟩ := cch_hierarchy orig ho l hl order hord c hc metric hm hfo hhd
  rw [hw] at h1; simp at h1; subst h1
  have k1 : ∀ u v d, UpWalk (fwGraph c w).Arc u v d → 2 * d < INFINITY := fun u v d h => upwalk_small h3.wf h3.nn hwf hW h
  have k2 : ∀ u v d, UpWalk (bwGraph c w).Arc u v d → 2 * d < INFINITY := fun u v d h => upwalk_small h4.wf h4.nn hwb hW h
  refine C43_hub_labels orig.numNodes l hl order hord metric.Arc _ _ h3.wf h4.wf h3.nn h4.nn ⟨fun u v w h => (h6.fUp u v w h).1, fun u v w h => (h6.bUp u v w h).1, h6.covers, ?_⟩ ?_ ?_
  · rintro s t x y d hx hy hu
    refine h6.sound s t x y d hx hy hu ?_
    obtain ⟨m, a, b, e1, e2, rfl⟩ := hu
    have := k1 _ _ _ e1
    have := k2 _ _ _ e2
    omega
  · intro u v d h; have := k1 u v d h; omega
  · intro u v d h; have := k2 u v d h; omega

namespace CCHExample

/-- The hypotheses hold for the example graph with its own weights, all of which stay below 100. -/
example : ((CCH.build orig order).bind (fun c => (customize c orig).map (fun w => (fwGraph c w).weight.all (· ≤ 100) && (bwGraph c w).weight.all (· ≤ 100)))) = some true := by
  decide +kernel
/-- The distances from ranks 2 and 5 to all others -/
example : ((CCH.build orig order).bind (fun c => (customize c orig).bind (fun w => (HL.build (fwGraph c w) (bwGraph c w)).bind (fun hl =>
    [0, 1, 2, 3, 4, 5].mapM (fun y => (HL.dist hl 2 y).bind (fun a => (HL.dist hl 5 y).map (fun b => (a, b)))))))) =
    some [(some 3, some 10), (some 9, some 7), (some 0, some 13), (some 4, some 11), (some 8, some 8), (some 15, some 0)] := by
  decide +kernel
/-- Pruning at work: in the triangle 0 → 1 (1), 1 → 2 (1), 0 → 2 (5) the hub 2 would be in the label of 0 with distance 5 before the minimum is taken,
and when 2 is only reached over a detour (0 → 2 (1), 2 ⇄ 1 (1)) hub 1 is removed from the label of 0. -/
example : HL.build ⟨[0, 2, 3, 3], [1, 2, 2], [1, 5, 1]⟩ ⟨[0, 0, 0, 0], [], []⟩ = some ([[(0, 0), (1, 1), (2, 2)], [(1, 0), (2, 1)], [(2, 0)]], [[(0, 0)], [(1, 0)], [(2, 0)]]) := by
  decide +kernel
example : (HL.build ⟨[0, 2, 3, 3], [1, 2, 2], [5, 1, 1]⟩ ⟨[0, 0, 1, 1], [2], [1]⟩).map (·.1) = some [[(0, 0), (2, 1)], [(1, 0), (2, 1)], [(2, 0)]] := by
  decide +kernel

end CCHExample
end Verif
