import Verif.Proof.DirectedBuild
import Verif.Props.CCHQuery
import Verif.Props.Perfect
set_option linter.unusedVariables false
set_option linter.unusedSimpArgs false
/- Property C36: leaving out edges that are infinite under every metric. -/
namespace Verif
open Spec CCH

/-- the metric with all weights 0 -/
def zeroMetric (orig : FOGraph) : FOGraph := ⟨orig.firstOut, orig.head, List.replicate orig.head.length 0⟩

theorem zeroMetric_of {orig : FOGraph} (ho : orig.WF) : MetricOf orig (zeroMetric orig) :=
  ⟨⟨ho.small, ho.first, ho.last, by simp [zeroMetric], ho.mono, ho.heads⟩, rfl, rfl⟩

theorem prepare_zero {orig : FOGraph} (ho : orig.WF) {l : List (List Nat)} {ws : List Nat} (h : prepareWeights l (zeroMetric orig) = some ws)
    (hl : ∀ es ∈ l, ∀ i ∈ es, i < orig.head.length) : ws = zeroWeights l := by
  obtain ⟨ws', h1, h2, h3⟩ := prepareWeights_spec (zeroMetric_of ho).wf (arcs := l) hl
  rw [h] at h1; simp at h1; subst h1
  apply List.ext_getElem?
  intro e
  by_cases he : e < l.length
  · obtain ⟨r, k1, k2, k3, k4⟩ := h3 e l[e] (List.getElem?_eq_getElem he)
    have hz : ∀ i ∈ l[e], (zeroMetric orig).weight[i]? = some 0 := by
      intro i hi
      have := hl _ (List.getElem_mem he) i hi
      simp [zeroMetric, this]
    rw [k1]
    simp only [zeroWeights, List.getElem?_map, List.getElem?_eq_getElem he, Option.map_some]
    cases hc : l[e] with
    | nil =>
      rcases k4 with k4 | ⟨i, hi, _⟩
      · rw [k4]; simp
      · rw [hc] at hi; simp at hi
    | cons i es =>
      have := k3 i (by rw [hc]; simp) 0 (hz i (by rw [hc]; simp))
      simp; omega
  · rw [List.getElem?_eq_none (by omega), List.getElem?_eq_none (by simp [zeroWeights]; omega)]

theorem customize_zero {orig : FOGraph} {order : NodeOrder} {c : Cch} (ho : orig.WF) (hb : BuiltFrom orig order c) {z w : Weights} (hz : alwaysInfinity c = some z)
    (hl : (∀ es ∈ c.fwOrig, ∀ i ∈ es, i < orig.head.length) ∧ ∀ es ∈ c.bwOrig, ∀ i ∈ es, i < orig.head.length)
    (hw : customize c (zeroMetric orig) = some w) : w = z := by
  simp only [customize, Option.bind_eq_bind, Option.bind_eq_some_iff] at hw
  obtain ⟨w0, h1, h2⟩ := hw
  obtain ⟨p1, p2⟩ := initWeights_parts h1
  have e1 := prepare_zero ho p1 hl.1
  have e2 := prepare_zero ho p2 hl.2
  simp only [initWeights, p1, p2, Option.bind_eq_bind, Option.bind_some, Option.pure_def] at h1
  simp at h1
  rw [e1, e2] at h1
  rw [← h1] at h2
  simp only [alwaysInfinity] at hz
  rw [hz] at h2
  simpa using h2.symm

/-- arcs in a list of edges with weights -/
theorem red_arcs {n : Nat} {c F B : Cch} {um dm : Nat → Nat} {w0 w w0' w' : Weights} (h : Red n c F B um dm w0 w w0' w') (hw : WOK c w) {x y a : Nat}
    (ha : a < INFINITY) : ((FOGraph.mk F.firstOut F.head w'.up).Arc x y a ↔ (fwGraph c w).Arc x y a) ∧
      ((FOGraph.mk B.firstOut B.head w'.down).Arc x y a ↔ (bwGraph c w).Arc x y a) := by
  have wfc : ∀ {ws : List Nat}, ws.length = c.head.length → (FOGraph.mk c.firstOut c.head ws).WF := fun hl => arr_wf h.base hl
  constructor
  · rw [edgeAt_arc (arr_wf h.bF h.dok.ul), show fwGraph c w = ⟨c.firstOut, c.head, w.up⟩ from rfl, edgeAt_arc (arr_wf h.base hw.ul)]
    constructor
    · rintro ⟨j, hj⟩
      obtain ⟨k1, k2⟩ := (arr_E h.bF h.dok.ul).1 hj
      exact ⟨um j, (arr_E h.base hw.ul).2 ⟨h.fe k1, by rw [k2]; exact ((h.values _ _ _).1 k1).1⟩⟩
    · rintro ⟨e, he⟩
      obtain ⟨k1, k2⟩ := (arr_E h.base hw.ul).1 he
      obtain ⟨j, k3, k4⟩ := h.fk k1 (by rw [k2] at ha; exact ha)
      refine ⟨j, (arr_E h.bF h.dok.ul).2 ⟨k3, ?_⟩⟩
      have := ((h.values _ _ _).1 k3).1
      rw [k4] at this
      rw [k2]; exact this.symm
  · rw [edgeAt_arc (arr_wf h.bB h.dok.dl), show bwGraph c w = ⟨c.firstOut, c.head, w.down⟩ from rfl, edgeAt_arc (arr_wf h.base hw.dl)]
    constructor
    · rintro ⟨j, hj⟩
      obtain ⟨k1, k2⟩ := (arr_E h.bB h.dok.dl).1 hj
      exact ⟨dm j, (arr_E h.base hw.dl).2 ⟨h.be k1, by rw [k2]; exact ((h.values _ _ _).2 k1).1⟩⟩
    · rintro ⟨e, he⟩
      obtain ⟨k1, k2⟩ := (arr_E h.base hw.dl).1 he
      obtain ⟨j, k3, k4⟩ := h.bk k1 (by rw [k2] at ha; exact ha)
      refine ⟨j, (arr_E h.bB h.dok.dl).2 ⟨k3, ?_⟩⟩
      have := ((h.values _ _ _).2 k3).1
      rw [k4] at this
      rw [k2]; exact this.symm

theorem metric_arc {orig metric : FOGraph} (hm : MetricOf orig metric) : ∀ u v l, metric.Arc u v l → u < orig.numNodes ∧ v < orig.numNodes := by
  intro u v l ha
  have hn : metric.numNodes = orig.numNodes := by simp [FOGraph.numNodes, hm.fo]
  have := FOGraph.WF.arc_lt hm.wf ha
  omega

/-- What sessions need: customization of a metric succeeds and the result serves queries. -/
theorem sessionRemoved_spec {orig : FOGraph} {order : NodeOrder} {d : Cch} (hord : order.OK orig.numNodes) (hdo : d.order = order)
    (hr : ∀ metric, MetricOf orig metric → ∃ w', customize d metric = some w' ∧
      Serves orig.numNodes (InRanks metric.Arc order.node) (fwGraph d w') (bwGraph d w') d.elimTree d.tail w') :
    ∀ (ops : List Op), ValidOps orig ops → ∀ {metric : FOGraph} {w' : Weights} {srv : Server}, MetricOf orig metric → customize d metric = some w' →
      Clean orig.numNodes srv → ∃ rs, session d w' srv ops = some rs ∧ SessionOf (fun m => ReplyOK m.Arc) metric ops rs
  | [], _, metric, w', srv, _, _, _ => ⟨[], rfl, .nil _⟩
  | .query s t k :: ops, hv, metric, w', srv, hm, hw, hcl => by
    obtain ⟨hs, ht⟩ := hv _ (List.mem_cons_self)
    obtain ⟨w'', k1, hS⟩ := hr metric hm
    rw [hw] at k1; simp at k1; subst k1
    obtain ⟨r, h1, h2⟩ := serveOn_spec hord (metric_arc hm) hS hs ht k
    obtain ⟨srv', h3, h4⟩ := h2 srv hcl
    obtain ⟨rs, h6, h8⟩ := sessionRemoved_spec hord hdo hr ops (fun op hop => hv op (List.mem_cons_of_mem _ hop)) hm hw h4
    refine ⟨r :: rs, ?_, .query h1 h8⟩
    have h3' : serve d w' srv s t k = some (r, srv') := by
      simp only [serve, hdo]; exact h3
    simp only [session, h3', h6, Option.bind_eq_bind, Option.bind_some, Option.pure_def]
  | .update m :: ops, hv, metric, w', srv, hm, hw, hcl => by
    obtain ⟨h1, h2, h3⟩ := hv _ (List.mem_cons_self)
    obtain ⟨w'', k1, hS⟩ := hr m ⟨h1, h2, h3⟩
    obtain ⟨rs, h6, h8⟩ := sessionRemoved_spec hord hdo hr ops (fun op hop => hv op (List.mem_cons_of_mem _ hop)) ⟨h1, h2, h3⟩ k1 hcl
    exact ⟨rs, by simp only [session, k1, h6, Option.bind_eq_bind, Option.bind_some], .update h8⟩

/-- The same for directed CCHs. -/
theorem sessionDirected_spec {orig : FOGraph} {order : NodeOrder} {d : DirCch} (hord : order.OK orig.numNodes) (hdo : d.order = order)
    (hr : ∀ metric, MetricOf orig metric → ∃ w', customizeDirected d metric = some w' ∧
      Serves orig.numNodes (InRanks metric.Arc order.node) (d.fw.graph w'.up) (d.bw.graph w'.down) d.elimTree d.bw.tail w') :
    ∀ (ops : List Op), ValidOps orig ops → ∀ {metric : FOGraph} {w' : Weights} {srv : Server}, MetricOf orig metric → customizeDirected d metric = some w' →
      Clean orig.numNodes srv → ∃ rs, sessionDirected d w' srv ops = some rs ∧ SessionOf (fun m => ReplyOK m.Arc) metric ops rs
  | [], _, metric, w', srv, _, _, _ => ⟨[], rfl, .nil _⟩
  | .query s t k :: ops, hv, metric, w', srv, hm, hw, hcl => by
    obtain ⟨hs, ht⟩ := hv _ (List.mem_cons_self)
    obtain ⟨w'', k1, hS⟩ := hr metric hm
    rw [hw] at k1; simp at k1; subst k1
    obtain ⟨r, h1, h2⟩ := serveOn_spec hord (metric_arc hm) hS hs ht k
    obtain ⟨srv', h3, h4⟩ := h2 srv hcl
    obtain ⟨rs, h6, h8⟩ := sessionDirected_spec hord hdo hr ops (fun op hop => hv op (List.mem_cons_of_mem _ hop)) hm hw h4
    refine ⟨r :: rs, ?_, .query h1 h8⟩
    have h3' : serveDirected d w' srv s t k = some (r, srv') := by
      simp only [serveDirected, hdo]; exact h3
    simp only [sessionDirected, h3', h6, Option.bind_eq_bind, Option.bind_some, Option.pure_def]
  | .update m :: ops, hv, metric, w', srv, hm, hw, hcl => by
    obtain ⟨h1, h2, h3⟩ := hv _ (List.mem_cons_self)
    obtain ⟨w'', k1, hS⟩ := hr m ⟨h1, h2, h3⟩
    obtain ⟨rs, h6, h8⟩ := sessionDirected_spec hord hdo hr ops (fun op hop => hv op (List.mem_cons_of_mem _ hop)) ⟨h1, h2, h3⟩ k1 hcl
    exact ⟨rs, by simp only [sessionDirected, k1, h6, Option.bind_eq_bind, Option.bind_some], .update h8⟩

theorem pathReply_of {metric : FOGraph} {s t k : Nat} {r : Option Nat × List (List Nat)} (h : ReplyOK metric.Arc s t k r) : PathReply metric s t k r := by
  cases hr : r.1 with
  | none => exact .inl ⟨hr, h.none hr⟩
  | some d => exact .inr ⟨d, hr, h.some d hr⟩

section
variable (orig : FOGraph) (ho : orig.WF) (l : List Nat) (hl : l.length = orig.numNodes) (order : NodeOrder)
  (hord : NodeOrder.fromNodeOrder l = some order) (c : Cch) (hc : build orig order = some c)
include ho hl hord hc

/-- **C36**, the report is right: `always_infinity` succeeds, and reports an edge (as infinite, upwards or downwards) exactly if customization
with every metric makes it infinite. -/
theorem C36_always_infinity : ∃ z, alwaysInfinity c = some z ∧ ∀ e, e < c.head.length →
    (z.up[e]? = some INFINITY ↔ ∀ metric, metric.WF → metric.firstOut = orig.firstOut → metric.head = orig.head → ∃ w, customize c metric = some w ∧ w.up[e]? = some INFINITY) ∧
    (z.down[e]? = some INFINITY ↔ ∀ metric, metric.WF → metric.firstOut = orig.firstOut → metric.head = orig.head → ∃ w, customize c metric = some w ∧ w.down[e]? = some INFINITY) := by
  have hok : order.OK orig.numNodes := by rw [← hl]; exact NodeOrder.ok_of_fromNodeOrder hord
  rcases build_spec ho hok with h | ⟨c', h1, hg, hb⟩
  · rw [hc] at h; simp at h
  · rw [hc] at h1; simp at h1; subst h1
    obtain ⟨z0, z, q1, q2, q3, q4, q5⟩ := alwaysInfinity_spec hg.toBase hb.fwLen hb.bwLen
    obtain ⟨z', d, r1, r2, r3, r4, r5, r6, r7⟩ := removed_ready ho hok hg hb
    rw [q1] at r1; simp at r1; subst r1
    have hlt : (∀ es ∈ c.fwOrig, ∀ i ∈ es, i < orig.head.length) ∧ ∀ es ∈ c.bwOrig, ∀ i ∈ es, i < orig.head.length := by
      constructor
      · intro es hes i hi
        obtain ⟨e, he⟩ := List.mem_iff_getElem?.1 hes
        have hel := (List.getElem?_eq_some_iff.1 he).1
        have hel' : e < c.head.length := by rw [← hb.fwLen]; exact hel
        obtain ⟨es', u, v, h1, _, _, h4⟩ := hb.fw (e := e) ⟨List.getElem?_eq_getElem (by rw [hg.tailLen]; exact hel'), List.getElem?_eq_getElem hel'⟩
        rw [he] at h1; simp at h1; subst h1
        obtain ⟨w, a, b, _, _, _, _, hw, _⟩ := (h4 i).1 hi
        exact (List.getElem?_eq_some_iff.1 hw).1
      · intro es hes i hi
        obtain ⟨e, he⟩ := List.mem_iff_getElem?.1 hes
        have hel := (List.getElem?_eq_some_iff.1 he).1
        have hel' : e < c.head.length := by rw [← hb.bwLen]; exact hel
        obtain ⟨es', u, v, h1, _, _, h4⟩ := hb.bw (e := e) ⟨List.getElem?_eq_getElem (by rw [hg.tailLen]; exact hel'), List.getElem?_eq_getElem hel'⟩
        rw [he] at h1; simp at h1; subst h1
        obtain ⟨w, a, b, _, _, _, _, hw, _⟩ := (h4 i).1 hi
        exact (List.getElem?_eq_some_iff.1 hw).1
    refine ⟨z, q1, fun e he => ?_⟩
    have hE : ∃ x y, c.Edge e x y := ⟨_, _, List.getElem?_eq_getElem (by rw [hg.tailLen]; exact he), List.getElem?_eq_getElem he⟩
    obtain ⟨x, y, hE⟩ := hE
    have gu : ∀ {w : Weights}, WOK c w → (w.up[e]? = some INFINITY ↔ w.u e = INFINITY) := by
      intro w hw
      have h1 := hw.ul
      rw [Weights.u, List.getElem?_eq_getElem (by omega)]; simp
    have gd : ∀ {w : Weights}, WOK c w → (w.down[e]? = some INFINITY ↔ w.d e = INFINITY) := by
      intro w hw
      have h1 := hw.dl
      rw [Weights.d, List.getElem?_eq_getElem (by omega)]; simp
    constructor
    · rw [gu q2]
      constructor
      · intro hz metric hm hfo hhd
        obtain ⟨w0, w, w0', w', um, t1, t2, t3, t4, t5, t6, t7, t8⟩ := r7 metric ⟨hm, hfo, hhd⟩
        exact ⟨w, t2, (gu t5.ok).2 (t7 hE hz)⟩
      · intro h
        have hm := zeroMetric_of ho
        obtain ⟨w, t1, t2⟩ := h _ hm.wf hm.fo hm.hd
        have := customize_zero ho hb q1 hlt t1
        subst this
        exact (gu q2).1 t2
    · rw [gd q2]
      constructor
      · intro hz metric hm hfo hhd
        obtain ⟨w0, w, w0', w', um, t1, t2, t3, t4, t5, t6, t7, t8⟩ := r7 metric ⟨hm, hfo, hhd⟩
        exact ⟨w, t2, (gd t5.ok).2 (t8 hE hz)⟩
      · intro h
        have hm := zeroMetric_of ho
        obtain ⟨w, t1, t2⟩ := h _ hm.wf hm.fo hm.hd
        have := customize_zero ho hb q1 hlt t1
        subst this
        exact (gd q2).1 t2

/-- **C36**, removal. `remove_always_infinity` succeeds and leaves exactly the edges that are finite in some direction under some metric. For
every metric, customizing what is left gives the same finite arcs as customizing the full CCH. -/
theorem C36_remove_keeps_arcs : ∃ z d, alwaysInfinity c = some z ∧ removeAlwaysInfinity c = some d ∧
    (∀ x y, (∃ j, d.Edge j x y) ↔ ∃ e, c.Edge e x y ∧ ¬ (z.up[e]? = some INFINITY ∧ z.down[e]? = some INFINITY)) ∧
    ∀ metric, metric.WF → metric.firstOut = orig.firstOut → metric.head = orig.head → ∃ w w', customize c metric = some w ∧ customize d metric = some w' ∧
      ∀ x y a, a < INFINITY → ((fwGraph d w').Arc x y a ↔ (fwGraph c w).Arc x y a) ∧ ((bwGraph d w').Arc x y a ↔ (bwGraph c w).Arc x y a) := by
  have hok : order.OK orig.numNodes := by rw [← hl]; exact NodeOrder.ok_of_fromNodeOrder hord
  rcases build_spec ho hok with h | ⟨c', h1, hg, hb⟩
  · rw [hc] at h; simp at h
  · rw [hc] at h1; simp at h1; subst h1
    obtain ⟨z0, z, q1, q2, _⟩ := alwaysInfinity_spec hg.toBase hb.fwLen hb.bwLen
    obtain ⟨z', d, r1, r2, r3, r4, r5, r6, r7⟩ := removed_ready ho hok hg hb
    rw [q1] at r1; simp at r1; subst r1
    refine ⟨z, d, q1, r2, ?_, ?_⟩
    · intro x y
      rw [r4]
      refine exists_congr (fun e => and_congr_right (fun he => ?_))
      have he' := Edge.lt he
      have h1 := q2.ul; have h2 := q2.dl
      have h3 := q2.ub e he'; have h4 := q2.db e he'
      rw [Weights.u, List.getElem?_eq_getElem (by omega)] at h3
      rw [Weights.d, List.getElem?_eq_getElem (by omega)] at h4
      rw [Weights.u, Weights.d, List.getElem?_eq_getElem (by omega), List.getElem?_eq_getElem (by omega)]
      simp at h3 h4 ⊢
      omega
    · intro metric hm hfo hhd
      obtain ⟨w0, w, w0', w', um, t1, t2, t3, t4, t5, t6, _⟩ := r7 metric ⟨hm, hfo, hhd⟩
      exact ⟨w, w', t2, t4, fun x y a ha => red_arcs t6 t5.ok ha⟩

/-- **C36**, direction by direction: the same for `to_directed_cch`, which keeps an upward (downward) edge exactly if it is finite under some metric. -/
theorem C36_directed_keeps_arcs : ∃ z d, alwaysInfinity c = some z ∧ toDirected c = some d ∧
    (∀ x y, (∃ j : Nat, d.fw.tail[j]? = some x ∧ d.fw.head[j]? = some y) ↔ ∃ e, c.Edge e x y ∧ z.up[e]? ≠ some INFINITY) ∧
    (∀ x y, (∃ j : Nat, d.bw.tail[j]? = some x ∧ d.bw.head[j]? = some y) ↔ ∃ e, c.Edge e x y ∧ z.down[e]? ≠ some INFINITY) ∧
    ∀ metric, metric.WF → metric.firstOut = orig.firstOut → metric.head = orig.head → ∃ w w', customize c metric = some w ∧ customizeDirected d metric = some w' ∧
      ∀ x y a, a < INFINITY → ((d.fw.graph w'.up).Arc x y a ↔ (fwGraph c w).Arc x y a) ∧ ((d.bw.graph w'.down).Arc x y a ↔ (bwGraph c w).Arc x y a) := by
  have hok : order.OK orig.numNodes := by rw [← hl]; exact NodeOrder.ok_of_fromNodeOrder hord
  rcases build_spec ho hok with h | ⟨c', h1, hg, hb⟩
  · rw [hc] at h; simp at h
  · rw [hc] at h1; simp at h1; subst h1
    obtain ⟨z0, z, q1, q2, _⟩ := alwaysInfinity_spec hg.toBase hb.fwLen hb.bwLen
    obtain ⟨z', d, r1, r2, r3, r3', r4, r4', r5, r6, r7⟩ := directed_ready ho hok hg hb
    rw [q1] at r1; simp at r1; subst r1
    refine ⟨z, d, q1, r2, ?_, ?_, ?_⟩
    · intro x y
      refine (r4 x y).trans (exists_congr (fun e => and_congr_right (fun he => ?_)))
      have he' := Edge.lt he
      have h1 := q2.ul
      have h3 := q2.ub e he'
      rw [Weights.u, List.getElem?_eq_getElem (by omega)] at h3
      rw [Weights.u, List.getElem?_eq_getElem (by omega)]
      simp at h3 ⊢
      omega
    · intro x y
      refine (r4' x y).trans (exists_congr (fun e => and_congr_right (fun he => ?_)))
      have he' := Edge.lt he
      have h1 := q2.dl
      have h3 := q2.db e he'
      rw [Weights.d, List.getElem?_eq_getElem (by omega)] at h3
      rw [Weights.d, List.getElem?_eq_getElem (by omega)]
      simp at h3 ⊢
      omega
    · intro metric hm hfo hhd
      obtain ⟨w0, w, w0', w', um, dm, t1, t2, t3, t3', t4, t5, t6⟩ := r7 metric ⟨hm, hfo, hhd⟩
      exact ⟨w, w', t2, t4, fun x y a ha => red_arcs t6 t5.ok ha⟩

section
variable (metric : FOGraph) (hm : metric.WF) (hfo : metric.firstOut = orig.firstOut) (hhd : metric.head = orig.head) (ops : List Op) (hops : ValidOps orig ops) (m0 : Nat)
include hm hfo hhd hops

/-- **C36**, queries after the removal: every query of every history, with path extractions and changes of the metric, is answered with the
shortest distance of the input graph, and every path is a shortest path of the input graph. No step panics. -/
theorem C36_remove_queries : ∃ d w rs, removeAlwaysInfinity c = some d ∧ customize d metric = some w ∧ session d w (Server.new d.numNodes m0) ops = some rs ∧
    SessionOf ExactReply metric ops rs ∧ SessionOf PathReply metric ops rs := by
  have hok : order.OK orig.numNodes := by rw [← hl]; exact NodeOrder.ok_of_fromNodeOrder hord
  rcases build_spec ho hok with h | ⟨c', h1, hg, hb⟩
  · rw [hc] at h; simp at h
  · rw [hc] at h1; simp at h1; subst h1
    obtain ⟨z, d, r1, r2, r3, r4, r5, r6, r7⟩ := removed_ready ho hok hg hb
    have hr : ∀ metric, MetricOf orig metric → ∃ w', customize d metric = some w' ∧
        Serves orig.numNodes (InRanks metric.Arc order.node) (fwGraph d w') (bwGraph d w') d.elimTree d.tail w' := by
      intro metric hm
      obtain ⟨w0, w, w0', w', um, t1, t2, t3, t4, t5, t6, _⟩ := r7 metric hm
      exact ⟨w', t4, by rw [r6]; exact t6.serves t5⟩
    obtain ⟨w', k1, _⟩ := hr metric ⟨hm, hfo, hhd⟩
    obtain ⟨rs, h6, h8⟩ := sessionRemoved_spec hok r5 hr ops hops ⟨hm, hfo, hhd⟩ k1 (srv := Server.new d.numNodes m0) (by
      have := clean_new d.numNodes m0
      rw [show d.numNodes = orig.numNodes from r3.nn] at this ⊢; exact this)
    exact ⟨d, w', rs, r2, k1, h6, h8.mono (fun m s t k r h => h.ans), h8.mono (fun m s t k r h => pathReply_of h)⟩

/-- **C36**, queries on the directed CCH. -/
theorem C36_directed_queries : ∃ d w rs, toDirected c = some d ∧ customizeDirected d metric = some w ∧ sessionDirected d w (Server.new d.numNodes m0) ops = some rs ∧
    SessionOf ExactReply metric ops rs ∧ SessionOf PathReply metric ops rs := by
  have hok : order.OK orig.numNodes := by rw [← hl]; exact NodeOrder.ok_of_fromNodeOrder hord
  rcases build_spec ho hok with h | ⟨c', h1, hg, hb⟩
  · rw [hc] at h; simp at h
  · rw [hc] at h1; simp at h1; subst h1
    obtain ⟨z, d, r1, r2, r3, r3', r4, r4', r5, r6, r7⟩ := directed_ready ho hok hg hb
    have hr : ∀ metric, MetricOf orig metric → ∃ w', customizeDirected d metric = some w' ∧
        Serves orig.numNodes (InRanks metric.Arc order.node) (d.fw.graph w'.up) (d.bw.graph w'.down) d.elimTree d.bw.tail w' := by
      intro metric hm
      obtain ⟨w0, w, w0', w', um, dm, t1, t2, t3, t3', t4, t5, t6⟩ := r7 metric hm
      exact ⟨w', t4, by rw [r6]; exact t6.serves t5⟩
    obtain ⟨w', k1, _⟩ := hr metric ⟨hm, hfo, hhd⟩
    obtain ⟨rs, h6, h8⟩ := sessionDirected_spec hok r5 hr ops hops ⟨hm, hfo, hhd⟩ k1 (srv := Server.new d.numNodes m0) (by
      have := clean_new d.numNodes m0
      rw [show d.numNodes = orig.numNodes from r3.nn] at this ⊢; exact this)
    exact ⟨d, w', rs, r2, k1, h6, h8.mono (fun m s t k r h => h.ans), h8.mono (fun m s t k r h => pathReply_of h)⟩

end

/-- **C36**, schedules: the customization of a directed CCH has the same result for every order of the nodes in which lower neighbours in
the undirected CCH come first, and for any contents of the workspaces. -/
theorem C36_directed_any_order (metric : FOGraph) (hm : metric.WF) (hfo : metric.firstOut = orig.firstOut) (hhd : metric.head = orig.head) :
    ∃ d w0 w, toDirected c = some d ∧ dirInit d metric = some w0 ∧ customizeDirected d metric = some w ∧
      ∀ (S : List (Nat × (WS × WS))), TopoOrder orig.numNodes c (S.map Prod.fst) → (∀ p ∈ S, p.2.1.length = orig.numNodes ∧ p.2.2.length = orig.numNodes) →
        runDirected d S w0 = some w := by
  have hok : order.OK orig.numNodes := by rw [← hl]; exact NodeOrder.ok_of_fromNodeOrder hord
  rcases build_spec ho hok with h | ⟨c', h1, hg, hb⟩
  · rw [hc] at h; simp at h
  · rw [hc] at h1; simp at h1; subst h1
    obtain ⟨z, d, r1, r2, r3, r3', r4, r4', r5, r6, r7⟩ := directed_ready ho hok hg hb
    obtain ⟨w0, w, w0', w', um, dm, t1, t2, t3, t3', t4, t5, t6⟩ := r7 metric ⟨hm, hfo, hhd⟩
    refine ⟨d, w0', w', r2, t3, t4, ?_⟩
    intro S hS hws
    obtain ⟨w'', k1, k2, k3⟩ := runDirected_spec r3 r3' t3' (S := S) (by
        refine ⟨hS.nodup, hS.mem, fun P x Q hE e z he => ?_⟩
        obtain ⟨e', h1, _⟩ := (r4 z x).1 ⟨e, he⟩
        exact hS.before P x Q hE e' z h1) (by
        refine ⟨hS.nodup, hS.mem, fun P x Q hE e z he => ?_⟩
        obtain ⟨e', h1, _⟩ := (r4' z x).1 ⟨e, he⟩
        exact hS.before P x Q hE e' z h1) hws
    rw [k1, DSolved.eq r3 r3' k2 t6.dok k3 t6.dsolved]

end

/-! The hypotheses are met, with edges that are left out. -/
namespace DirectedExample

/-- arcs 0 → 1 (100), 0 → 2 (1), 2 → 3 (1), 3 → 1 (1); no arcs back -/
def orig : FOGraph := ⟨[0, 2, 2, 3, 4], [1, 2, 3, 1], [100, 1, 1, 1]⟩
def metric : FOGraph := ⟨[0, 2, 2, 3, 4], [1, 2, 3, 1], [2, 1, 1, 1]⟩
def nodes : List Nat := [0, 1, 2, 3]
def order : NodeOrder := ⟨nodes, [0, 1, 2, 3]⟩
def ops : List Op := [.query 0 1 1, .query 2 1 2, .update metric, .query 0 1 1, .query 1 0 1]

theorem wf_of {ws : List Nat} (h : ws.length = 4) : (FOGraph.mk [0, 2, 2, 3, 4] [1, 2, 3, 1] ws).WF := by
  refine ⟨by simp [U32], rfl, rfl, by simpa using h, ?_, by simp [FOGraph.numNodes]⟩
  intro i a b h1 h2
  have hi : i < 4 := by
    have := (List.getElem?_eq_some_iff.1 h2).1
    simp at this; omega
  match i, hi with
  | 0, _ | 1, _ | 2, _ | 3, _ => simp at h1 h2; omega

theorem order_ok : NodeOrder.fromNodeOrder nodes = some order := by decide +kernel

theorem ops_valid : ValidOps orig ops := by
  intro op hop
  simp only [ops, List.mem_cons, List.not_mem_nil, or_false] at hop
  rcases hop with rfl | rfl | rfl | rfl | rfl <;> simp only
  case inr.inr.inl => exact ⟨wf_of rfl, by simp [metric, orig]⟩
  all_goals decide

/-- The edge between ranks 1 and 2 is left out, and the directed CCH has 3 upward edges and 1 downward edge. -/
example : ((build orig order).bind fun c => (removeAlwaysInfinity c).bind fun d => (toDirected c).map fun t =>
    [c.head, c.tail, d.head, d.tail, t.fw.head, t.fw.tail, t.bw.head, t.bw.tail]) =
    some [[1, 2, 2, 3, 3], [0, 0, 1, 1, 2], [1, 2, 3, 3], [0, 0, 1, 2], [1, 2, 3], [0, 0, 2], [3], [1]] := by decide +kernel

example : ((build orig order).bind fun c => (removeAlwaysInfinity c).bind fun d => (customize d orig).bind fun w => session d w (Server.new 4 4) ops) =
    some [(some 3, [[0, 2, 3, 1]]), (some 2, [[2, 3, 1], [2, 3, 1]]), (some 2, [[0, 1]]), (none, [])] := by decide +kernel

example : ((build orig order).bind fun c => (toDirected c).bind fun d => (customizeDirected d orig).bind fun w => sessionDirected d w (Server.new 4 3) ops) =
    some [(some 3, [[0, 2, 3, 1]]), (some 2, [[2, 3, 1], [2, 3, 1]]), (some 2, [[0, 1]]), (none, [])] := by decide +kernel

example (c : Cch) (hc : build orig order = some c) : ∃ d w rs, toDirected c = some d ∧ customizeDirected d orig = some w ∧
    sessionDirected d w (Server.new d.numNodes 3) ops = some rs ∧ SessionOf ExactReply orig ops rs ∧ SessionOf PathReply orig ops rs :=
  C36_directed_queries orig (wf_of rfl) nodes rfl order order_ok c hc orig (wf_of rfl) rfl rfl ops ops_valid 3

example (c : Cch) (hc : build orig order = some c) := C36_always_infinity orig (wf_of rfl) nodes rfl order order_ok c hc
example (c : Cch) (hc : build orig order = some c) := C36_remove_keeps_arcs orig (wf_of rfl) nodes rfl order order_ok c hc
example (c : Cch) (hc : build orig order = some c) := C36_directed_any_order orig (wf_of rfl) nodes rfl order order_ok c hc

end DirectedExample
open DirectedExample

/-- **C36 does not extend to perfect customization**: after `remove_always_infinity` the perfect customization no longer gives every edge
the shortest distance between its ends. The shortest path from rank 0 to rank 1 uses the upper triangle with the edge from rank 1
to rank 2, which was removed. Without the removal the weight is 3, with it, it stays 100. -/
theorem C36_perfect_not_perfect : ∃ c d w p w' p', build orig order = some c ∧ removeAlwaysInfinity c = some d ∧
    customize c orig = some w ∧ perfect c (List.range 4).reverse w = some p ∧ customize d orig = some w' ∧ perfect d (List.range 4).reverse w' = some p' ∧
    c.Edge 0 0 1 ∧ d.Edge 0 0 1 ∧ p.up[0]? = some 3 ∧ p'.up[0]? = some 100 := by
  have key : ((build orig order).bind fun c => (removeAlwaysInfinity c).bind fun d => (customize c orig).bind fun w => (perfect c (List.range 4).reverse w).bind fun p =>
      (customize d orig).bind fun w' => (perfect d (List.range 4).reverse w').map fun p' =>
      [c.tail[0]?, c.head[0]?, d.tail[0]?, d.head[0]?, p.up[0]?, p'.up[0]?]) = some [some 0, some 1, some 0, some 1, some 3, some 100] := by decide +kernel
  simp only [Option.bind_eq_some_iff, Option.map_eq_some_iff, List.cons.injEq, and_true] at key
  obtain ⟨c, h1, d, h2, w, h3, p, h4, w', h5, p', h6, k1, k2, k3, k4, k5, k6⟩ := key
  exact ⟨c, d, w, p, w', p', h1, h2, h3, h4, h5, h6, ⟨k1, k2⟩, ⟨k3, k4⟩, k5, k6⟩

end Verif
