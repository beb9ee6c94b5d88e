import Verif.Proof.MultiMetricPre
import Verif.Props.Perfect
set_option linter.unusedSimpArgs false
set_option linter.unusedVariables false
/- What `MultiMetricPreprocessed::new` and `MultiMetric::new` build. -/
namespace Verif
namespace MultiMetric
open Spec CCH

/-- The parts of a `MultiMetric`. -/
structure Built (n : Nat) (g : TD.Graph) (B : Nat) (c : Cch) (mm : MM) (metrics : List (List Nat)) (u : List Nat) (W0 W : Nat → Weights) (iG : Nat) (w0U wU : Weights)
    (pU : PW) : Prop where
  good : Good n c
  ord : c.order.OK n
  table : Table g B mm.ranges metrics
  ul : u.length = g.head.length
  usmall : ∀ w ∈ u, w ≤ B
  uge : ∀ e w t, u[e]? = some w → g.val e t ≤ w
  perf : Perf n c (InRanks (FOGraph.mk g.firstOut g.head u).Arc c.order.node) w0U wU pU
  upper : mm.upper = perfSides n c wU pU
  cust : ∀ i x, metrics[i]? = some x → Customized n c (InRanks (FOGraph.mk g.firstOut g.head x).Arc c.order.node) (W0 i) (W i)
  glob : ∃ x, metrics[iG]? = some x ∧ ∀ e w t, x[e]? = some w → t < INFINITY → w ≤ g.val e t
  fw : ∀ i x, metrics[i]? = some x → ∃ y, metricAt mm.fwMetrics mm.fwHead.length i = some y ∧ DirOK n c.elimTree ⟨mm.fwFo, mm.fwHead, y⟩ ∧
    ∀ a b w, KUp c (W iG) pU (W i) a b w → (FOGraph.mk mm.fwFo mm.fwHead y).Arc a b w
  bw : ∀ i x, metrics[i]? = some x → ∃ y, metricAt mm.bwMetrics mm.bwHead.length i = some y ∧ DirOK n c.elimTree ⟨mm.bwFo, mm.bwHead, y⟩ ∧
    ∀ a b w, KDown c (W iG) pU (W i) a b w → (FOGraph.mk mm.bwFo mm.bwHead y).Arc a b w

section
variable {bs : List Nat → Nat → Lookup} {g : TD.Graph} {n : Nat} {c : Cch}

theorem metric_wf (hg : g.Valid) {x : List Nat} (hx : x.length = g.head.length) : (FOGraph.mk g.firstOut g.head x).WF := by
  have h := hg.topo
  exact ⟨h.small, h.first, h.last, hx, h.mono, h.heads⟩

theorem new_spec (hb : BinarySearch bs) (hg : g.Valid) {orig : FOGraph} (ho : orig.WF) (hfo : orig.firstOut = g.firstOut) (hhd : orig.head = g.head)
    {order : NodeOrder} (hord : order.OK orig.numNodes) (hgood : Good orig.numNodes c) (hbf : BuiltFrom orig order c) {B : Nat}
    (hB : ∀ e t, e < g.head.length → g.val e t ≤ B) {times : List TRange}
    (ht : ∀ r ∈ times, r.start < r.fin ∧ r.fin < 2 * PERIOD) (hfew : times.length + 1 < 65536) (pick : Nat → Nat) (reduce : Option Nat)
    (hred : reduce ≠ none → g.head.length * (B * B) < 18446744073709551616 ∧ g.head.length < 2147483648)
    {k : Nat} (hk : 0 < k) (hm : (k - 1) * ((c.head.length + k - 1) / k) < c.head.length) (h0 : c.tail[0]? = some 0) :
    ∃ pre mm, Pre.new bs pick c k times g reduce = some pre ∧ MM.new c k pre = some mm ∧
      ∃ metrics u W0 W iG w0U wU pU, Built orig.numNodes g B c mm metrics u W0 W iG w0U wU pU := by
  obtain ⟨M0, ranges, metrics, t1, t2, tab⟩ := table_spec hb hg hB ht hfew pick reduce hred
  obtain ⟨u, u1, u2, u3, u4⟩ := upperMetric_spec hb hg hB
  have hmo : ∀ x : List Nat, x.length = g.head.length → MetricOf orig (FOGraph.mk g.firstOut g.head x) := fun x hx => ⟨metric_wf hg hx, hfo.symm, hhd.symm⟩
  obtain ⟨wU, fb, pU, w0U, p1, p2, p3, p4, p5, hp⟩ := perfect_ready ho hord hgood hbf (hmo u u2)
  obtain ⟨i1, i2⟩ := hp.inOK
  have p6 : rebuildPar c (pU.sides wU).1 (pU.sides wU).2 k = some (perfSides orig.numNodes c wU pU) := rebuildPar_spec hgood.toBase i1 i2 hk hm h0
  have hcust : ∀ x : List Nat, x ∈ metrics → ∃ w, customize c (FOGraph.mk g.firstOut g.head x) = some w ∧
      Ready orig.numNodes c (FOGraph.mk g.firstOut g.head x).Arc w := fun x hx => customize_ready ho hord hgood hbf (hmo x (tab.len x hx))
  obtain ⟨ws, hws⟩ := mapM_exists (fun x hx => (hcust x hx).imp (fun _ h => h.1))
  obtain ⟨hwl, hwi⟩ := mapM_index hws
  -- the weights by index
  have hW : ∀ i : Nat, ∃ (w0 w : Weights), ∀ x, metrics[i]? = some x → ws[i]? = some w ∧
      Customized orig.numNodes c (InRanks (FOGraph.mk g.firstOut g.head x).Arc c.order.node) w0 w := by
    intro i
    by_cases hi : i < metrics.length
    · obtain ⟨w, k1, k2⟩ := hwi i metrics[i] (List.getElem?_eq_getElem hi)
      obtain ⟨w', k3, k4⟩ := hcust metrics[i] (List.getElem_mem hi)
      rw [k2] at k3; injection k3 with k3; subst k3
      obtain ⟨w0, k5⟩ := k4.cust
      refine ⟨w0, w, fun x hx => ?_⟩
      rw [List.getElem?_eq_getElem hi] at hx; injection hx with hx; subst hx
      exact ⟨k1, k5⟩
    · refine ⟨wU, wU, fun x hx => ?_⟩
      rw [List.getElem?_eq_none (by omega)] at hx; exact absurd hx (by simp)
  obtain ⟨W0, hW0⟩ := Classical.axiomOfChoice hW
  obtain ⟨W, hW'⟩ := Classical.axiomOfChoice hW0
  have hwok : ∀ w ∈ ws, WOK c w := by
    intro w hw
    obtain ⟨x, hx, hxw⟩ := (mem_of_mapM hws w).1 hw
    obtain ⟨w', k3, k4⟩ := hcust x hx
    rw [hxw] at k3; injection k3 with k3; subst k3
    obtain ⟨w0, k5⟩ := k4.cust
    exact k5.ok
  -- the range of all times
  obtain ⟨r0, hr0, hr1, hr2⟩ := tab.ok.all
  obtain ⟨rG, hrG⟩ := Option.isSome_iff_exists.1 (List.find?_isSome (p := fun r : Entry => !r.2.2 && decide (r.1.start = 0) && decide (r.1.fin = INFINITY)) |>.2
    ⟨r0, hr0, by simp [hr1, hr2]⟩)
  have hrGm := List.mem_of_find?_eq_some hrG
  have hrGp := List.find?_some hrG
  simp only [Bool.and_eq_true, Bool.not_eq_true', decide_eq_true_eq] at hrGp
  obtain ⟨xG, xg1, xg2⟩ := tab.low rG hrGm
  obtain ⟨wg1, wg2⟩ := hW' rG.2.1 xG xg1
  have hupl : ∀ x ∈ ws.map Weights.up, x.length = c.head.length := by
    intro x hx; obtain ⟨w, hw, rfl⟩ := List.mem_map.1 hx; exact (hwok w hw).ul
  have hdol : ∀ x ∈ ws.map Weights.down, x.length = c.head.length := by
    intro x hx; obtain ⟨w, hw, rfl⟩ := List.mem_map.1 hx; exact (hwok w hw).dl
  have m1 : metricAt (ws.map Weights.up).flatten c.head.length rG.2.1 = some (W rG.2.1).up :=
    metricAt_flatten _ hupl _ _ (by simp [wg1])
  have m2 : metricAt (ws.map Weights.down).flatten c.head.length rG.2.1 = some (W rG.2.1).down :=
    metricAt_flatten _ hdol _ _ (by simp [wg1])
  obtain ⟨f1, f2, f3, f4, f5⟩ := filterSide_spec hgood.toBase hk hm h0 (lower := (W rG.2.1).up) (upper := pU.up) wg2.ok.ul hp.pok.ul hupl
  obtain ⟨b1, b2, b3, b4, b5⟩ := filterSide_spec hgood.toBase hk hm h0 (lower := (W rG.2.1).down) (upper := pU.down) wg2.ok.dl hp.pok.dl hdol
  refine ⟨⟨ranges, (ws.map Weights.up).flatten, (ws.map Weights.down).flatten, pU.up, pU.down, perfSides orig.numNodes c wU pU⟩,
    ⟨ranges, f1, f2, b1, b2, f3, b3, perfSides orig.numNodes c wU pU⟩, ?_, ?_, metrics, u, W0, W, rG.2.1, w0U, wU, pU, ?_⟩
  · simp only [Pre.new, t1, t2, u1, p1, p3, hws, p6, Option.bind_eq_bind, Option.bind_some, Option.pure_def]
  · simp only [MM.new, hrG, m1, m2, f4, b4, Option.bind_eq_bind, Option.bind_some, Option.pure_def]
  · have ho' := hbf.order_eq
    refine ⟨hgood, by rw [ho']; exact hord, tab, u2, u3, u4, by rw [ho']; exact hp, rfl, fun i x hx => (hW' i x hx).2, ⟨xG, xg1, ?_⟩, ?_, ?_⟩
    · intro e w t hw htlt
      exact xg2 e w t hw (by omega) (by omega)
    · intro i x hx
      obtain ⟨e1, e2⟩ := hW' i x hx
      obtain ⟨y, y1, y2⟩ := f5 i (W i).up (by simp [e1])
      obtain ⟨y3, y4⟩ := kept_graph hgood wg2.ok.ul hp.pok.ul e2.ok.ul (by
        intro w hw
        obtain ⟨e, he, rfl⟩ := List.getElem_of_mem hw
        have := e2.ok.ub e (by rw [← e2.ok.ul]; exact he)
        simpa [Weights.u, List.getElem?_eq_getElem he] using this) y2
      refine ⟨y, y1, y3, ?_⟩
      rintro a b w ⟨e, k1, k2, rfl⟩
      have he := Edge.lt k1
      exact y4 e a b _ _ _ k1 (wg2.ok.up_get he) (hp.pok.up_get he) k2 (e2.ok.up_get he)
    · intro i x hx
      obtain ⟨e1, e2⟩ := hW' i x hx
      obtain ⟨y, y1, y2⟩ := b5 i (W i).down (by simp [e1])
      obtain ⟨y3, y4⟩ := kept_graph hgood wg2.ok.dl hp.pok.dl e2.ok.dl (by
        intro w hw
        obtain ⟨e, he, rfl⟩ := List.getElem_of_mem hw
        have := e2.ok.db e (by rw [← e2.ok.dl]; exact he)
        simpa [Weights.d, List.getElem?_eq_getElem he] using this) y2
      refine ⟨y, y1, y3, ?_⟩
      rintro a b w ⟨e, k1, k2, rfl⟩
      have he := Edge.lt k1
      exact y4 e a b _ _ _ k1 (wg2.ok.down_get he) (hp.pok.down_get he) k2 (e2.ok.down_get he)

end
end MultiMetric
end Verif
