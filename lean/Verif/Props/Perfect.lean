import Verif.Proof.PerfectQuery
import Verif.Proof.Schedule
import Verif.Props.CCHPotential
set_option linter.unusedSimpArgs false
set_option linter.unusedVariables false
/- Properties of perfect customization (C34, C35). -/
namespace Verif
open Spec CCH

/-- All that is known after customization and perfect customization in any order from the top. -/
theorem perf_of {orig : FOGraph} {order : NodeOrder} {c : Cch} (ho : orig.WF) (hok : order.OK orig.numNodes) (hg : Good orig.numNodes c)
    (hb : BuiltFrom orig order c) {metric : FOGraph} (hm : MetricOf orig metric) :
    ∃ w, customize c metric = some w ∧ ∀ L, TopDown orig.numNodes c L →
      ∃ p w0, perfect c L w = some p ∧ Perf orig.numNodes c (InRanks metric.Arc order.node) w0 w p := by
  obtain ⟨w0, h2, h3⟩ := initWeights_spec ho hm hok hg hb
  obtain ⟨w, h4, h5, h6⟩ := custNodes_spec hg.toBase h3.ok (topo_range hg.toBase)
  refine ⟨w, by simp only [customize, h2, Option.bind_eq_bind, Option.bind_some, show c.numNodes = orig.numNodes from hg.nn]; exact h4, ?_⟩
  intro L hL
  obtain ⟨p, k1, k2⟩ := perfect_spec hg h5 hL
  exact ⟨p, w0, k1, ⟨hg, h5, h3, h6, hb.hO hm ho⟩, L, fun x hx => (hL.mem x).2 hx, k2⟩

theorem perf_same {n : Nat} {c : Cch} {O : Nat → Nat → Nat → Prop} {w0 w0' w : Weights} {p p' : PW} (h : Perf n c O w0 w p) (h' : Perf n c O w0' w p') : p = p' := by
  have hg := h.cust.good
  have hw := h.cust.ok
  have half : ∀ {w0 w0' : Weights} {p p' : PW}, Perf n c O w0 w p → Perf n c O w0' w p' → ∀ e x y, c.Edge e x y → p.u e ≤ p'.u e ∧ p.d e ≤ p'.d e := by
    intro w0 w0' p p' h h' e x y he
    obtain ⟨L, _, hr⟩ := h.run
    obtain ⟨L', _, hr'⟩ := h'.run
    have b1 := hw.ub e (Edge.lt he)
    have b2 := hw.db e (Edge.lt he)
    constructor
    · have h1 : p.u e ≤ w.u e := by rcases hr.up e with a | a <;> omega
      rcases hr'.up e with a | a
      · omega
      · exact (h.exact he).1 _ ((h'.sound he).1 (by omega))
    · have h1 : p.d e ≤ w.d e := by rcases hr.down e with a | a <;> omega
      rcases hr'.down e with a | a
      · omega
      · exact (h.exact he).2 _ ((h'.sound he).2 (by omega))
  have key : ∀ e, e < c.head.length → p.u e = p'.u e ∧ p.d e = p'.d e ∧ p.um e = p'.um e ∧ p.dm e = p'.dm e := by
    intro e hel
    have ht : e < c.tail.length := by rw [hg.tailLen]; exact hel
    have he : c.Edge e _ _ := ⟨List.getElem?_eq_getElem ht, List.getElem?_eq_getElem hel⟩
    have h1 := half h h' e _ _ he
    have h2 := half h' h e _ _ he
    obtain ⟨L, _, hr⟩ := h.run
    obtain ⟨L', _, hr'⟩ := h'.run
    refine ⟨by omega, by omega, ?_, ?_⟩
    · rcases hr.up e with ⟨a1, a2⟩ | ⟨a1, a2⟩ <;> rcases hr'.up e with ⟨b1, b2⟩ | ⟨b1, b2⟩ <;> first | (exfalso; omega) | (rw [a2, b2])
    · rcases hr.down e with ⟨a1, a2⟩ | ⟨a1, a2⟩ <;> rcases hr'.down e with ⟨b1, b2⟩ | ⟨b1, b2⟩ <;> first | (exfalso; omega) | (rw [a2, b2])
  have q := h.pok
  have q' := h'.pok
  have e1 : p.up = p'.up := ext_getD (d := 0) (by rw [q.ul, q'.ul]) (fun e he => (key e (by rw [← q.ul]; exact he)).1)
  have e2 : p.down = p'.down := ext_getD (d := 0) (by rw [q.dl, q'.dl]) (fun e he => (key e (by rw [← q.dl]; exact he)).2.1)
  have e3 : p.upMod = p'.upMod := ext_getD (d := false) (by rw [q.uml, q'.uml]) (fun e he => (key e (by rw [← q.uml]; exact he)).2.2.1)
  have e4 : p.downMod = p'.downMod := ext_getD (d := false) (by rw [q.dml, q'.dml]) (fun e he => (key e (by rw [← q.dml]; exact he)).2.2.2)
  cases p; cases p'; simp_all

/-- Walks in the customized CCH and walks of the metric. -/
theorem perf_capped {n : Nat} {c : Cch} {A : Nat → Nat → Nat → Prop} {order : NodeOrder} (hok : order.OK n) (hA : ∀ u v l, A u v l → u < n ∧ v < n)
    {w0 w : Weights} (h : Customized n c (InRanks A order.node) w0 w) {x y u v a : Nat} (hu : order.node x = some u) (hv : order.node y = some v)
    (hb : a ≤ INFINITY) (hs : a < INFINITY → Walk (CArc c w) x y a) (he : ∀ d, Walk (CArc c w) x y d → a ≤ d) : CappedDist A u v a := by
  refine ⟨hb, answer_inRanks hok hA hu hv ?_⟩
  have key : ∀ d, Walk (InRanks A order.node) x y d → a ≤ d := by
    intro d hd
    have : ∃ d', d' ≤ d ∧ Walk (CArc c w) x y d' := by
      clear hs he hu hv
      induction hd with
      | nil u => exact ⟨0, by omega, .nil u⟩
      | @cons s m t l d h1 _ ih =>
        obtain ⟨d', k1, k2⟩ := ih
        by_cases hsm : s = m
        · subst hsm; exact ⟨d', by omega, k2⟩
        · obtain ⟨l', k3, k4⟩ := h.covers _ _ _ h1 hsm
          exact ⟨l' + d', by omega, .cons k4 k2⟩
    obtain ⟨d', k1, k2⟩ := this
    have := he d' k2; omega
  intro d
  by_cases hlt : a < INFINITY
  · have hw : Walk (InRanks A order.node) x y a := by
      have h1 := hs hlt
      have : ∀ {x y d}, Walk (CArc c w) x y d → d < INFINITY → Walk (InRanks A order.node) x y d := by
        intro x y d h1
        induction h1 with
        | nil u => intro _; exact .nil u
        | cons h2 _ ih => intro hlt; exact (Solved.sound h.good.toBase h.init h.solved h2 (by omega)).append (ih (by omega))
      exact this h1 hlt
    simp only [hlt, if_true, Option.some.injEq]
    constructor
    · rintro rfl; exact ⟨⟨hw, key⟩, hlt⟩
    · rintro ⟨⟨k1, k2⟩, k3⟩
      have := key d k1; have := k2 a hw; omega
  · simp only [hlt, if_false, reduceCtorEq, false_iff]
    rintro ⟨⟨k1, k2⟩, k3⟩
    have := key d k1; omega

section
variable (orig : FOGraph) (ho : orig.WF) (l : List Nat) (hl : l.length = orig.numNodes) (order : NodeOrder)
  (hord : NodeOrder.fromNodeOrder l = some order) (c : Cch) (hc : build orig order = some c)
  (metric : FOGraph) (hm : metric.WF) (hfo : metric.firstOut = orig.firstOut) (hhd : metric.head = orig.head)
include ho hl hord hc hm hfo hhd

/-- **C34**, weights. Perfect customization succeeds, and afterwards the weight of every CCH edge, in either direction, is the shortest distance
between its end points in the input graph with the metric (`INFINITY` if there is none below). The flags tell which weights have been improved. -/
theorem C34_perfect_weights : ∃ w p, customize c metric = some w ∧ perfect c (List.range c.numNodes).reverse w = some p ∧
    ∀ (e x y u v : Nat), c.tail[e]? = some x → c.head[e]? = some y → order.node x = some u → order.node y = some v →
      ∃ a b a0 b0, p.up[e]? = some a ∧ p.down[e]? = some b ∧ CappedDist metric.Arc u v a ∧ CappedDist metric.Arc v u b ∧
        w.up[e]? = some a0 ∧ w.down[e]? = some b0 ∧ p.upMod[e]? = some (decide (a < a0)) ∧ p.downMod[e]? = some (decide (b < b0)) := by
  have hok : order.OK orig.numNodes := by rw [← hl]; exact NodeOrder.ok_of_fromNodeOrder hord
  rcases build_spec ho hok with h | ⟨c', h1, hg, hb⟩
  · rw [hc] at h; simp at h
  · rw [hc] at h1; simp at h1; subst h1
    have hmo : MetricOf orig metric := ⟨hm, hfo, hhd⟩
    obtain ⟨w, h2, h3⟩ := perf_of ho hok hg hb hmo
    obtain ⟨p, w0, h4, hp⟩ := h3 _ (topDown_range hg.toBase)
    have hA : ∀ u v l, metric.Arc u v l → u < orig.numNodes ∧ v < orig.numNodes := by
      intro u v l ha
      have hn : metric.numNodes = orig.numNodes := by simp [FOGraph.numNodes, hfo]
      have := FOGraph.WF.arc_lt hm ha
      omega
    refine ⟨w, p, h2, by rw [show c.numNodes = orig.numNodes from hg.nn]; exact h4, ?_⟩
    intro e x y u v hx hy hu hv
    have he : c.Edge e x y := ⟨hx, hy⟩
    have hel := Edge.lt he
    have q := hp.pok
    have hw := hp.cust.ok
    obtain ⟨L, _, hr⟩ := hp.run
    have g1 : p.up[e]? = some (p.u e) := by
      have : e < p.up.length := by rw [q.ul]; exact hel
      simp [PW.u, List.getElem?_eq_getElem this]
    have g2 : p.down[e]? = some (p.d e) := by
      have : e < p.down.length := by rw [q.dl]; exact hel
      simp [PW.d, List.getElem?_eq_getElem this]
    have g3 : p.upMod[e]? = some (p.um e) := by
      have : e < p.upMod.length := by rw [q.uml]; exact hel
      simp [PW.um, List.getElem?_eq_getElem this]
    have g4 : p.downMod[e]? = some (p.dm e) := by
      have : e < p.downMod.length := by rw [q.dml]; exact hel
      simp [PW.dm, List.getElem?_eq_getElem this]
    refine ⟨_, _, _, _, g1, g2, perf_capped hok hA hp.cust hu hv (q.ub e hel) (hp.sound he).1 (hp.exact he).1,
      perf_capped hok hA hp.cust hv hu (q.db e hel) (hp.sound he).2 (hp.exact he).2, hw.up_get hel, hw.down_get hel, ?_, ?_⟩
    · rw [g3]
      rcases hr.up e with ⟨a1, a2⟩ | ⟨a1, a2⟩
      · simp [a2]; omega
      · simp [a2]; omega
    · rw [g4]
      rcases hr.down e with ⟨a1, a2⟩ | ⟨a1, a2⟩
      · simp [a2]; omega
      · simp [a2]; omega

/-- **C34**, schedules. Perfect customization processes separators before the cells below them, and the cells in parallel. The result is that of
the sequential algorithm for every order of the steps in which all upward neighbours of a node come before it. In particular this holds for
the reverse of every execution of the tasks of the basic customization (which is how `customize_tree` proceeds) if the separator tree is
valid for parallelization. -/
theorem C34_schedule_independent : ∃ w p, customize c metric = some w ∧ perfect c (List.range c.numNodes).reverse w = some p ∧
    (∀ L : List Nat, L.Perm (List.range orig.numNodes) →
      (∀ P x Q, L = P ++ x :: Q → ∀ up y, heads c.topo x = some up → y ∈ up → y ∈ P) → perfect c L w = some p) ∧
    (∀ t, SepTree.new c.elimTree = some t → validate t = some () → ∀ thr task, plan c thr t 0 0 c.head.length = some task →
      ∀ S, task.Runs S → perfect c (S.map Step.node).reverse w = some p) := by
  have hok : order.OK orig.numNodes := by rw [← hl]; exact NodeOrder.ok_of_fromNodeOrder hord
  rcases build_spec ho hok with h | ⟨c', h1, hg, hb⟩
  · rw [hc] at h; simp at h
  · rw [hc] at h1; simp at h1; subst h1
    have hmo : MetricOf orig metric := ⟨hm, hfo, hhd⟩
    obtain ⟨w, h2, h3⟩ := perf_of ho hok hg hb hmo
    obtain ⟨p, w0, h4, hp⟩ := h3 _ (topDown_range hg.toBase)
    refine ⟨w, p, h2, by rw [show c.numNodes = orig.numNodes from hg.nn]; exact h4, ?_, ?_⟩
    · intro L hL hbef
      have hT : TopDown orig.numNodes c L := by
        refine ⟨hL.nodup_iff.2 List.nodup_range, fun x => by rw [hL.mem_iff, List.mem_range], ?_⟩
        intro P x Q hE e z he
        obtain ⟨up, k1, _, k2⟩ := hg.heads (hg.edge_lt he)
        exact hbef P x Q hE up z k1 ((k2 z).2 ⟨e, he⟩)
      obtain ⟨p', w0', k1, hp'⟩ := h3 L hT
      rw [k1, perf_same hp' hp]
    · intro t ht hv thr task hplan S hS
      obtain ⟨task', k1, _, k2⟩ := plan_spec hg hg.treeOK thr ht hv
      rw [hplan] at k1; simp at k1; subst k1
      have hseg := k2 S hS
      obtain ⟨p', w0', k3, hp'⟩ := h3 (S.map Step.node).reverse (topDown_of_reverse hg.toBase ⟨hseg.nodup, fun x => by rw [hseg.mem]; omega, hseg.before⟩)
      rw [k3, perf_same hp' hp]

end

/-! ### Queries -/

theorem perfect_ready {orig : FOGraph} {order : NodeOrder} {c : Cch} (ho : orig.WF) (hok : order.OK orig.numNodes) (hg : Good orig.numNodes c)
    (hb : BuiltFrom orig order c) {metric : FOGraph} (hm : MetricOf orig metric) :
    ∃ w fb p w0, customize c metric = some w ∧ customizePerfect c w = some fb ∧ perfect c (List.range c.numNodes).reverse w = some p ∧
      rebuildSeq c (p.sides w).1 (p.sides w).2 = some fb ∧ fb = perfSides orig.numNodes c w p ∧ Perf orig.numNodes c (InRanks metric.Arc order.node) w0 w p := by
  obtain ⟨w, h2, h3⟩ := perf_of ho hok hg hb hm
  obtain ⟨p, w0, h4, hp⟩ := h3 _ (topDown_range hg.toBase)
  obtain ⟨i1, i2⟩ := hp.inOK
  have hr := rebuildSeq_spec hg.toBase i1 i2
  have h4' : perfect c (List.range c.numNodes).reverse w = some p := by rw [show c.numNodes = orig.numNodes from hg.nn]; exact h4
  refine ⟨w, perfSides orig.numNodes c w p, p, w0, h2, ?_, h4', hr, rfl, hp⟩
  simp only [customizePerfect, h4', Option.bind_eq_bind, Option.bind_some]
  exact hr

theorem sessionPerfect_spec {orig : FOGraph} {order : NodeOrder} {c : Cch} (ho : orig.WF) (hord : order.OK orig.numNodes) (hg : Good orig.numNodes c)
    (hb : BuiltFrom orig order c) : ∀ (ops : List Op), ValidOps orig ops → ∀ {metric : FOGraph} {w : Weights} {fb : Side × Side} {srv : Server},
      MetricOf orig metric → customize c metric = some w → customizePerfect c w = some fb →
      Clean orig.numNodes srv → ∃ rs, sessionPerfect c fb srv ops = some rs ∧ SessionOf (fun m => ReplyOK m.Arc) metric ops rs
  | [], _, metric, w, fb, srv, _, _, _, _ => ⟨[], rfl, .nil _⟩
  | .query s t k :: ops, hv, metric, w, fb, srv, hm, hw, hfb, hcl => by
    obtain ⟨hs, ht⟩ := hv _ (List.mem_cons_self)
    obtain ⟨w', fb', p, w0, k1, k2, k3, k4, k5, hp⟩ := perfect_ready ho hord hg hb hm
    rw [hw] at k1; simp at k1; subst k1
    rw [hfb] at k2; simp at k2; subst k2
    have hS := hp.serves
    rw [← k5] at hS
    have harc : ∀ u v l, metric.Arc u v l → u < orig.numNodes ∧ v < orig.numNodes := by
      intro u v l ha
      have hn : metric.numNodes = orig.numNodes := by simp [FOGraph.numNodes, hm.fo]
      have := FOGraph.WF.arc_lt hm.wf ha
      omega
    obtain ⟨r, h1, h2⟩ := serveOn_spec hord harc hS hs ht k
    obtain ⟨srv', h3, h4⟩ := h2 srv hcl
    obtain ⟨rs, h6, h8⟩ := sessionPerfect_spec ho hord hg hb ops (fun op hop => hv op (List.mem_cons_of_mem _ hop)) hm hw hfb h4
    refine ⟨r :: rs, ?_, .query h1 h8⟩
    have h3' : servePerfect c fb srv s t k = some (r, srv') := by
      simp only [servePerfect, hb.order_eq]; exact h3
    simp only [sessionPerfect, h3', h6, Option.bind_eq_bind, Option.bind_some, Option.pure_def]
  | .update m :: ops, hv, metric, w, fb, srv, hm, hw, hfb, hcl => by
    obtain ⟨h1, h2, h3⟩ := hv _ (List.mem_cons_self)
    have hm' : MetricOf orig m := ⟨h1, h2, h3⟩
    obtain ⟨w', fb', p, w0, k1, k2, k3, k4, k5, hp⟩ := perfect_ready ho hord hg hb hm'
    obtain ⟨rs, h6, h8⟩ := sessionPerfect_spec ho hord hg hb ops (fun op hop => hv op (List.mem_cons_of_mem _ hop)) hm' k1 k2 hcl
    exact ⟨rs, by simp only [sessionPerfect, k1, k2, h6, Option.bind_eq_bind, Option.bind_some], .update h8⟩

section
variable (orig : FOGraph) (ho : orig.WF) (l : List Nat) (hl : l.length = orig.numNodes) (order : NodeOrder)
  (hord : NodeOrder.fromNodeOrder l = some order) (c : Cch) (hc : build orig order = some c)
  (metric : FOGraph) (hm : metric.WF) (hfo : metric.firstOut = orig.firstOut) (hhd : metric.head = orig.head)
include ho hl hord hc hm hfo hhd

/-- **C34**, queries. On the graphs without the improved edges every query of every history (with path extractions and changes of the metric)
is answered with the shortest distance of the input graph, and every path is a shortest path of the input graph. No step panics. -/
theorem C34_perfect_queries (ops : List Op) (hops : ValidOps orig ops) : ∃ w fb, customize c metric = some w ∧ customizePerfect c w = some fb ∧
    ∃ rs, sessionPerfect c fb (Server.new c.numNodes fb.1.head.length) ops = some rs ∧ SessionOf ExactReply metric ops rs ∧ SessionOf PathReply metric ops rs := by
  have hok : order.OK orig.numNodes := by rw [← hl]; exact NodeOrder.ok_of_fromNodeOrder hord
  rcases build_spec ho hok with h | ⟨c', h1, hg, hb⟩
  · rw [hc] at h; simp at h
  · rw [hc] at h1; simp at h1; subst h1
    have hmo : MetricOf orig metric := ⟨hm, hfo, hhd⟩
    obtain ⟨w, fb, p, w0, k1, k2, _⟩ := perfect_ready ho hok hg hb hmo
    obtain ⟨rs, h6, h8⟩ := sessionPerfect_spec ho hok hg hb ops hops hmo k1 k2 (srv := Server.new c.numNodes fb.1.head.length) (by
      have := clean_new c.numNodes fb.1.head.length
      rw [show c.numNodes = orig.numNodes from hg.nn] at this ⊢; exact this)
    refine ⟨w, fb, k1, k2, rs, h6, h8.mono (fun m s t k r h => h.ans), h8.mono (fun m s t k r h => ?_)⟩
    cases hr : r.1 with
    | none => exact .inl ⟨hr, h.none hr⟩
    | some d => exact .inr ⟨d, hr, h.some d hr⟩

/-- **C34**, the smaller graphs are a hierarchy for the metric, with arcs to ancestors in the elimination tree only, and have no arcs that the
basic graphs do not have. -/
theorem C34_perfect_hierarchy : ∃ w fb, customize c metric = some w ∧ customizePerfect c w = some fb ∧
    fb.1.graph.WF ∧ fb.2.graph.WF ∧ HierarchyOf metric.Arc order.rank fb.1.graph.Arc fb.2.graph.Arc ∧
    (∀ x y a, fb.1.graph.Arc x y a → (fwGraph c w).Arc x y a) ∧ (∀ x y a, fb.2.graph.Arc x y a → (bwGraph c w).Arc x y a) ∧
    TreeOK orig.numNodes c.elimTree ∧ DirOK orig.numNodes c.elimTree fb.1.graph ∧ DirOK orig.numNodes c.elimTree fb.2.graph ∧ c.order = order := by
  obtain ⟨w', hw', _, _, _, _, hh⟩ := cch_hierarchy orig ho l hl order hord c hc metric hm hfo hhd
  have hok : order.OK orig.numNodes := by rw [← hl]; exact NodeOrder.ok_of_fromNodeOrder hord
  rcases build_spec ho hok with h | ⟨c', h1, hg, hb⟩
  · rw [hc] at h; simp at h
  · rw [hc] at h1; simp at h1; subst h1
    have hmo : MetricOf orig metric := ⟨hm, hfo, hhd⟩
    obtain ⟨w, fb, p, w0, k1, k2, _, _, rfl, hp⟩ := perfect_ready ho hok hg hb hmo
    rw [hw'] at k1; simp at k1; subst k1
    have tF := hp.thinF INFINITY
    have tB := hp.thinB INFINITY
    have dF := DirOK.thin tF (fw_dirOK hg hp.cust.ok)
    have dB := DirOK.thin tB (bw_dirOK hg hp.cust.ok)
    refine ⟨_, _, hw', k2, tF.wf', tB.wf', ⟨fun u v a h => ⟨dF.up h, dF.bound h⟩, fun u v a h => ⟨dB.up h, dB.bound h⟩, ?_, ?_⟩,
      fun x y a h => tF.subArc h, fun x y a h => tB.subArc h, hg.treeOK, dF, dB, hb.order_eq⟩
    · intro s t x y d hx hy hwk
      obtain ⟨d1, e1, e2⟩ := hh.covers s t x y d hx hy hwk
      obtain ⟨d2, e3, e4, _⟩ := hp.cust.thin_updown (hp.thinF (d1 + 1)) (hp.thinB (d1 + 1)) (updown_walk tF tB e2) (by omega)
      exact ⟨d2, by omega, e4⟩
    · intro s t x y d hx hy hu hd
      exact hh.sound s t x y d hx hy (thin_sub tF tB hu) hd

/-- **C40** for perfectly customized CCHs: exact potentials for every history. -/
theorem C40_cch_potential_perfect : ∃ w fb, customize c metric = some w ∧ customizePerfect c w = some fb ∧
    Implements (cchPot c fb.1.graph fb.2.graph) orig.numNodes (PotState.new orig.numNodes) (fun t v x => Answer metric.Arc v t x) := by
  obtain ⟨w, fb, h1, h2, _, _, h3, _, _, h4, h5, h6, h7⟩ := C34_perfect_hierarchy orig ho l hl order hord c hc metric hm hfo hhd
  refine ⟨w, fb, h1, h2, cchPot_implements ?_ h4 h5 h6 (by rw [h7]; exact h3)⟩
  rw [h7, ← hl]; exact NodeOrder.ok_of_fromNodeOrder hord

/-- **C35**, the part that holds: with `k` tasks (`k` is four times the number of threads) the parallel rebuild gives the same graphs as the
sequential one, if there are enough edges for every task to get one, and the node of rank 0 is not isolated. What is missing are the
other graphs: there the parallel version fails, see below. -/
theorem C35_rebuild_partial (k : Nat) (hk : 0 < k) (hen : (k - 1) * ((c.head.length + k - 1) / k) < c.head.length) (h0 : c.tail[0]? = some 0) :
    ∃ w p fb, customize c metric = some w ∧ perfect c (List.range c.numNodes).reverse w = some p ∧
      rebuildSeq c (p.sides w).1 (p.sides w).2 = some fb ∧ rebuildPar c (p.sides w).1 (p.sides w).2 k = some fb := by
  have hok : order.OK orig.numNodes := by rw [← hl]; exact NodeOrder.ok_of_fromNodeOrder hord
  rcases build_spec ho hok with h | ⟨c', h1, hg, hb⟩
  · rw [hc] at h; simp at h
  · rw [hc] at h1; simp at h1; subst h1
    obtain ⟨w, fb, p, w0, k1, k2, k3, k4, k5, hp⟩ := perfect_ready ho hok hg hb ⟨hm, hfo, hhd⟩
    obtain ⟨i1, i2⟩ := hp.inOK
    refine ⟨w, p, fb, k1, k3, k4, ?_⟩
    rw [rebuildPar_spec hg.toBase i1 i2 hk hen h0, k5]; rfl

/-- **C35 fails** for all graphs with few edges: if not every task gets an edge, the parallel version panics, the sequential one does not. -/
theorem C35_rebuild_panics (k : Nat) (hk : 0 < k) (hen : c.head.length ≤ (k - 1) * ((c.head.length + k - 1) / k)) :
    ∃ w p fb, customize c metric = some w ∧ perfect c (List.range c.numNodes).reverse w = some p ∧
      rebuildSeq c (p.sides w).1 (p.sides w).2 = some fb ∧ rebuildPar c (p.sides w).1 (p.sides w).2 k = none := by
  have hok : order.OK orig.numNodes := by rw [← hl]; exact NodeOrder.ok_of_fromNodeOrder hord
  rcases build_spec ho hok with h | ⟨c', h1, hg, hb⟩
  · rw [hc] at h; simp at h
  · rw [hc] at h1; simp at h1; subst h1
    obtain ⟨w, fb, p, w0, k1, k2, k3, k4, k5, hp⟩ := perfect_ready ho hok hg hb ⟨hm, hfo, hhd⟩
    exact ⟨w, p, fb, k1, k3, k4, rebuildPar_none c _ _ hk hen⟩

end

/-! The hypotheses are met: a graph in which three of seven edges are improved. -/
namespace PerfectExample

/-- arcs in both directions: 0–1 (10), 0–2 (1), 1–2 (1), 1–3 (5), 2–3 (2), 2–4 (9), 3–4 (1) -/
def orig : FOGraph := ⟨[0, 2, 5, 9, 12, 14], [1, 2, 0, 2, 3, 0, 1, 3, 4, 1, 2, 4, 2, 3], [10, 1, 10, 1, 5, 1, 1, 2, 9, 5, 2, 1, 9, 1]⟩
def nodes : List Nat := [0, 1, 2, 3, 4]
def order : NodeOrder := ⟨nodes, [0, 1, 2, 3, 4]⟩
def ops : List Op := [.query 0 1 1, .query 4 0 2, .update orig, .query 1 4 1]

theorem orig_wf : orig.WF := by
  refine ⟨by decide, by decide, by decide, by decide, ?_, by decide⟩
  intro i a b h1 h2
  have hi : i < 5 := by
    have := (List.getElem?_eq_some_iff.1 h2).1
    simp [orig] at this; omega
  match i, hi with
  | 0, _ | 1, _ | 2, _ | 3, _ | 4, _ => simp [orig] at h1 h2; omega

theorem order_ok : NodeOrder.fromNodeOrder nodes = some order := by decide +kernel

theorem built : (build orig order).map (fun c => (c.head, c.tail)) = some ([1, 2, 2, 3, 3, 4, 4], [0, 0, 1, 1, 2, 2, 3]) := by decide +kernel

theorem ops_valid : ValidOps orig ops := by
  intro op hop
  simp only [ops, List.mem_cons, List.not_mem_nil, or_false] at hop
  rcases hop with rfl | rfl | rfl | rfl <;> simp only
  case inr.inr.inl => exact ⟨orig_wf, by simp⟩
  all_goals decide

example : ((build orig order).bind fun c => (customize c orig).bind fun w => (perfect c (List.range c.numNodes).reverse w).map fun p =>
    (w.up, p.up, p.upMod)) = some ([10, 1, 1, 5, 2, 9, 1], [2, 1, 1, 3, 2, 3, 1], [true, false, false, true, false, true, false]) := by decide +kernel

example : ((build orig order).bind fun c => (customize c orig).bind fun w => (customizePerfect c w).bind fun fb =>
    (sessionPerfect c fb (Server.new c.numNodes fb.1.head.length) ops).map fun rs => (fb.1.head, rs)) =
    some ([2, 2, 3, 4], [(some 2, [[0, 2, 1]]), (some 4, [[4, 3, 2, 0], [4, 3, 2, 0]]), (some 4, [[1, 2, 3, 4]])]) := by decide +kernel

example (c : Cch) (hc : build orig order = some c) : ∃ w fb, customize c orig = some w ∧ customizePerfect c w = some fb ∧
    ∃ rs, sessionPerfect c fb (Server.new c.numNodes fb.1.head.length) ops = some rs ∧ SessionOf ExactReply orig ops rs ∧ SessionOf PathReply orig ops rs :=
  C34_perfect_queries orig orig_wf nodes rfl order order_ok c hc orig orig_wf rfl rfl ops ops_valid

/-- One thread, four tasks: the condition of the parallel rebuild holds. -/
example (c : Cch) (hc : build orig order = some c) : ∃ w p fb, customize c orig = some w ∧ perfect c (List.range c.numNodes).reverse w = some p ∧
    rebuildSeq c (p.sides w).1 (p.sides w).2 = some fb ∧ rebuildPar c (p.sides w).1 (p.sides w).2 4 = some fb := by
  have h := built
  rw [hc] at h; simp at h
  exact C35_rebuild_partial orig orig_wf nodes rfl order order_ok c hc orig orig_wf rfl rfl 4 (by decide) (by rw [h.1]; decide) (by rw [h.2]; rfl)

/-- Two threads, eight tasks for seven edges: the parallel rebuild panics. -/
example (c : Cch) (hc : build orig order = some c) : ∃ w p fb, customize c orig = some w ∧ perfect c (List.range c.numNodes).reverse w = some p ∧
    rebuildSeq c (p.sides w).1 (p.sides w).2 = some fb ∧ rebuildPar c (p.sides w).1 (p.sides w).2 8 = none := by
  have h := built
  rw [hc] at h; simp at h
  exact C35_rebuild_panics orig orig_wf nodes rfl order order_ok c hc orig orig_wf rfl rfl 8 (by decide) (by rw [h.1]; decide)

/-- The path 1–2–3–4–5 and an isolated node 0 of lowest rank. -/
def iso : FOGraph := ⟨[0, 0, 1, 3, 5, 7, 8], [2, 1, 3, 2, 4, 3, 5, 4], [1, 1, 1, 1, 1, 1, 1, 1]⟩
def isoOrder : NodeOrder := ⟨[0, 1, 2, 3, 4, 5], [0, 1, 2, 3, 4, 5]⟩

end PerfectExample

/-- **C35 fails** in another way if the node of lowest rank is isolated: with one thread (four tasks) the parallel rebuild returns graphs
whose nodes have the edges of their successors (`first_out` is `[0, 1, 2, 3, 4, 0, 4]` instead of `[0, 0, 1, 2, 3, 4, 4]`). -/
theorem C35_not_independent : ∃ (orig : FOGraph) (order : NodeOrder) (c : Cch) (w : Weights) (p : PW) (a b : Side × Side),
    orig.WF ∧ NodeOrder.fromNodeOrder order.nodeOrder = some order ∧ build orig order = some c ∧ customize c orig = some w ∧
    perfect c (List.range c.numNodes).reverse w = some p ∧ rebuildSeq c (p.sides w).1 (p.sides w).2 = some a ∧
    rebuildPar c (p.sides w).1 (p.sides w).2 4 = some b ∧ a.1.fo = [0, 0, 1, 2, 3, 4, 4] ∧ b.1.fo = [0, 1, 2, 3, 4, 0, 4] := by
  have h : ((build PerfectExample.iso PerfectExample.isoOrder).bind fun c => (customize c PerfectExample.iso).bind fun w =>
      (perfect c (List.range c.numNodes).reverse w).bind fun p => (rebuildSeq c (p.sides w).1 (p.sides w).2).bind fun a =>
      (rebuildPar c (p.sides w).1 (p.sides w).2 4).map fun b => (a.1.fo, b.1.fo)) = some ([0, 0, 1, 2, 3, 4, 4], [0, 1, 2, 3, 4, 0, 4]) := by decide +kernel
  simp only [Option.bind_eq_some_iff, Option.map_eq_some_iff, Prod.mk.injEq] at h
  obtain ⟨c, h1, w, h2, p, h3, a, h4, b, h5, h6, h7⟩ := h
  refine ⟨_, _, c, w, p, a, b, ?_, by decide +kernel, h1, h2, h3, h4, h5, h6, h7⟩
  refine ⟨by decide, by decide, by decide, by decide, ?_, by decide⟩
  intro i a b h1 h2
  have hi : i < 6 := by
    have := (List.getElem?_eq_some_iff.1 h2).1
    simp [PerfectExample.iso] at this; omega
  match i, hi with
  | 0, _ | 1, _ | 2, _ | 3, _ | 4, _ | 5, _ => simp [PerfectExample.iso] at h1 h2; omega

end Verif
