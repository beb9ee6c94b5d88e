import Verif.Proof.CCHCustomize
import Verif.Proof.UpDown
import Verif.Proof.Unify
set_option linter.unusedSimpArgs false
set_option linter.unusedVariables false
/- Customization of all nodes, and why the customized CCH keeps the distances. -/
namespace Verif
namespace CCH
open Spec GraphOps FOGraph

variable {n : Nat} {c : Cch}

/-! ### Processing all nodes -/

/-- Customize nodes in the given order; each step finds its own workspace content. -/
def runSched (c : Cch) : List (Nat × (WS × WS)) → Weights → Option Weights
  | [], w => some w
  | p :: L, w => do
    let r ← custNode c p.1 p.2 w
    runSched c L r.1

/-- Every node once, and lower neighbours first. -/
structure TopoOrder (n : Nat) (c : Cch) (L : List Nat) : Prop where
  nodup : L.Nodup
  mem : ∀ x, x ∈ L ↔ x < n
  before : ∀ P x Q, L = P ++ x :: Q → ∀ e z, c.Edge e z x → z ∈ P

/-- State after some of the nodes are done. -/
structure RunInv (n : Nat) (c : Cch) (w0 w : Weights) (P : List Nat) : Prop where
  ok : WOK c w
  solved : Solved c w0 w (fun x => x ∈ P)
  rest : ∀ e x, c.tail[e]? = some x → x ∉ P → w.u e = w0.u e ∧ w.d e = w0.d e

theorem RunInv.init {w0 : Weights} (h : WOK c w0) : RunInv n c w0 w0 [] :=
  ⟨h, ⟨by simp, by simp⟩, fun _ _ _ _ => ⟨rfl, rfl⟩⟩

theorem RunInv.step (hg : Base n c) {L P Q : List Nat} {x : Nat} (hL : TopoOrder n c L) (hE : L = P ++ x :: Q) {w0 w : Weights}
    (h : RunInv n c w0 w P) {ws : WS × WS} (hws : ws.1.length = n ∧ ws.2.length = n) :
    ∃ w' ws', custNode c x ws w = some (w', ws') ∧ (ws'.1.length = n ∧ ws'.2.length = n) ∧ RunInv n c w0 w' (P ++ [x]) := by
  have hx : x < n := (hL.mem x).1 (by rw [hE]; simp)
  obtain ⟨w', ws', h1, h2, h3, h4⟩ := custNode_spec hg h.ok hx hws
  have hxP : x ∉ P := by
    intro hm
    have := hL.nodup
    rw [hE] at this
    exact (List.nodup_append.1 this).2.2 x hm x (by simp) rfl
  have hclosed : ∀ e z y, y ∈ P → c.Edge e z y → z ∈ P := by
    intro e z y hy he
    obtain ⟨P1, P2, rfl⟩ := List.append_of_mem hy
    have := hL.before P1 y (P2 ++ x :: Q) (by rw [hE]; simp) e z he
    exact List.mem_append_left _ this
  obtain ⟨h5, h6⟩ := Solved.step hg h.solved h.rest hxP (hL.before P x Q hE) hclosed h4
  refine ⟨w', ws', h1, h2, h3, ⟨?_, ?_⟩, ?_⟩
  · intro y e z hy; exact h5.bestUp y e z (by simpa using hy)
  · intro y e z hy; exact h5.bestDown y e z (by simpa using hy)
  · intro e y he hy; exact h6 e y he (by simpa using hy)

/-- Any order, any workspace contents: customization succeeds and solves the equations. -/
theorem runSched_spec (hg : Base n c) {w0 : Weights} (hw : WOK c w0) {S : List (Nat × (WS × WS))} (hL : TopoOrder n c (S.map Prod.fst))
    (hws : ∀ p ∈ S, p.2.1.length = n ∧ p.2.2.length = n) :
    ∃ w, runSched c S w0 = some w ∧ WOK c w ∧ Solved c w0 w (fun x => x < n) := by
  have key : ∀ (Q P : List (Nat × (WS × WS))), S = P ++ Q → ∀ w, RunInv n c w0 w (P.map Prod.fst) →
      ∃ w', runSched c Q w = some w' ∧ RunInv n c w0 w' (S.map Prod.fst) := by
    intro Q
    induction Q with
    | nil => intro P h w hi; simp at h; subst h; exact ⟨w, rfl, hi⟩
    | cons p Q ih =>
      intro P h w hi
      obtain ⟨w', ws', h1, _, h3⟩ := RunInv.step hg hL (P := P.map Prod.fst) (x := p.1) (Q := Q.map Prod.fst) (by rw [h]; simp) hi
        (hws p (by rw [h]; simp))
      obtain ⟨w'', h4, h5⟩ := ih (P ++ [p]) (by simpa using h) w' (by simpa using h3)
      exact ⟨w'', by simp only [runSched, h1, Option.bind_eq_bind, Option.bind_some]; exact h4, h5⟩
  obtain ⟨w, h1, h2⟩ := key S [] rfl w0 (RunInv.init hw)
  refine ⟨w, h1, h2.ok, ⟨?_, ?_⟩⟩
  · intro x e y hx; exact h2.solved.bestUp x e y ((hL.mem x).2 hx)
  · intro x e y hx; exact h2.solved.bestDown x e y ((hL.mem x).2 hx)

theorem topo_range (hg : Base n c) : TopoOrder n c (List.range n) := by
  refine ⟨List.nodup_range, by simp, ?_⟩
  intro P x Q hE e z he
  have hz := (hg.up he).1
  have hmem : z ∈ List.range n := by simp; exact hg.edge_lt he
  rw [hE, List.mem_append] at hmem
  rcases hmem with h | h
  · exact h
  · exfalso
    have hpw : (P ++ x :: Q).Pairwise (· < ·) := by rw [← hE]; exact List.pairwise_lt_range
    rcases List.mem_cons.1 h with rfl | h
    · omega
    · have := List.rel_of_pairwise_cons (List.pairwise_append.1 hpw).2.1 h; omega

/-- The sequential customization. -/
theorem custNodes_spec (hg : Base n c) {w0 : Weights} (hw : WOK c w0) {L : List Nat} (hL : TopoOrder n c L) :
    ∃ w, custNodes c L w0 = some w ∧ WOK c w ∧ Solved c w0 w (fun x => x < n) := by
  unfold custNodes
  have hnn : c.numNodes = n := hg.nn
  obtain ⟨st, h1, h2, h3⟩ := foldlM_inv (fun (st : Weights × (WS × WS)) v => custNode c v st.2 st.1)
    (fun P st => RunInv n c w0 st.1 P ∧ (st.2.1.length = n ∧ st.2.2.length = n)) L (by
      rintro P x Q ⟨w, ws⟩ hE ⟨hi, hl⟩
      obtain ⟨w', ws', h1, h2, h3⟩ := RunInv.step hg hL hE hi hl
      exact ⟨(w', ws'), h1, h3, h2⟩) (w0, freshWS c.numNodes) ⟨RunInv.init hw, by simp [freshWS, hnn]⟩
  refine ⟨st.1, by rw [h1]; rfl, h2.ok, ⟨?_, ?_⟩⟩
  · intro x e y hx; exact h2.solved.bestUp x e y ((hL.mem x).2 hx)
  · intro x e y hx; exact h2.solved.bestDown x e y ((hL.mem x).2 hx)

theorem ext_getD {α : Type} {l l' : List α} {d : α} (hl : l.length = l'.length) (h : ∀ e, e < l.length → (l[e]?).getD d = (l'[e]?).getD d) : l = l' := by
  apply List.ext_getElem hl
  intro i h1 h2
  have := h i h1
  rw [List.getElem?_eq_getElem h1, List.getElem?_eq_getElem h2] at this
  simpa using this

theorem Solved.eq (hg : Base n c) {w0 w w' : Weights} (hw : WOK c w) (hw' : WOK c w') (h : Solved c w0 w (fun x => x < n))
    (h' : Solved c w0 w' (fun x => x < n)) : w = w' := by
  have key : ∀ e, e < c.head.length → w.u e = w'.u e ∧ w.d e = w'.d e ∧ w.uu e = w'.uu e ∧ w.du e = w'.du e := by
    intro e he
    have ht : e < c.tail.length := by rw [hg.tailLen]; exact he
    exact Solved.unique hg h h' e _ _ ⟨List.getElem?_eq_getElem ht, List.getElem?_eq_getElem he⟩
  have h1 : w.up = w'.up := ext_getD (d := 0) (by rw [hw.ul, hw'.ul]) (fun e he => (key e (by rw [← hw.ul]; exact he)).1)
  have h2 : w.down = w'.down := ext_getD (d := 0) (by rw [hw.dl, hw'.dl]) (fun e he => (key e (by rw [← hw.dl]; exact he)).2.1)
  have h3 : w.upUnpack = w'.upUnpack := ext_getD (d := (none, none)) (by rw [hw.uul, hw'.uul]) (fun e he => (key e (by rw [← hw.uul]; exact he)).2.2.1)
  have h4 : w.downUnpack = w'.downUnpack := ext_getD (d := (none, none)) (by rw [hw.dul, hw'.dul]) (fun e he => (key e (by rw [← hw.dul]; exact he)).2.2.2)
  cases w; cases w'; simp at h1 h2 h3 h4; simp [h1, h2, h3, h4]

/-- Every order and every workspace content gives the result of the sequential customization. -/
theorem runSched_eq_seq (hg : Base n c) {w0 : Weights} (hw : WOK c w0) {S : List (Nat × (WS × WS))} (hL : TopoOrder n c (S.map Prod.fst))
    (hws : ∀ p ∈ S, p.2.1.length = n ∧ p.2.2.length = n) : ∃ w, runSched c S w0 = some w ∧ custNodes c (List.range n) w0 = some w := by
  obtain ⟨w, h1, h2, h3⟩ := runSched_spec hg hw hL hws
  obtain ⟨w', h4, h5, h6⟩ := custNodes_spec hg hw (topo_range hg)
  have := Solved.eq hg h2 h5 h3 h6
  subst this
  exact ⟨w, h1, h4⟩

/-! ### Initial weights -/

theorem prepareWeights_spec {arcs : List (List Nat)} {metric : FOGraph} (hm : metric.WF)
    (hA : ∀ es ∈ arcs, ∀ i ∈ es, i < metric.head.length) :
    ∃ ws, prepareWeights arcs metric = some ws ∧ ws.length = arcs.length ∧ ∀ (e : Nat) (es : List Nat) , arcs[e]? = some es →
      ∃ r, ws[e]? = some r ∧ r ≤ INFINITY ∧ (∀ i ∈ es, ∀ w, metric.weight[i]? = some w → r ≤ w) ∧
        (r = INFINITY ∨ ∃ i ∈ es, metric.weight[i]? = some r) := by
  have hone : ∀ es ∈ arcs, ∃ r, es.foldlM (fun w a => do
      let l ← metric.link a
      return min l.weight w) INFINITY = some r ∧ r ≤ INFINITY ∧ (∀ i ∈ es, ∀ w, metric.weight[i]? = some w → r ≤ w) ∧
        (r = INFINITY ∨ ∃ i ∈ es, metric.weight[i]? = some r) := by
    intro es hes
    exact foldlM_inv (fun (w : Nat) a => do
      let l ← metric.link a
      return min l.weight w) (fun P r => r ≤ INFINITY ∧ (∀ i ∈ P, ∀ w, metric.weight[i]? = some w → r ≤ w) ∧
        (r = INFINITY ∨ ∃ i ∈ P, metric.weight[i]? = some r)) es (by
      intro P i Q r hE ⟨h1, h2, h3⟩
      have hi : i < metric.head.length := hA es hes i (by rw [hE]; simp)
      have hi' : i < metric.weight.length := by rw [hm.weights]; exact hi
      refine ⟨min metric.weight[i] r, ?_, by omega, ?_, ?_⟩
      · simp [FOGraph.link, List.getElem?_eq_getElem hi, List.getElem?_eq_getElem hi']
      · intro j hj w hw
        rw [List.mem_append] at hj
        rcases hj with hj | hj
        · have := h2 j hj w hw; omega
        · simp at hj; subst hj
          rw [List.getElem?_eq_getElem hi'] at hw; simp at hw; omega
      · by_cases hle : metric.weight[i] ≤ r
        · right
          exact ⟨i, by simp, by rw [Nat.min_eq_left hle, List.getElem?_eq_getElem hi']⟩
        · rw [Nat.min_eq_right (by omega)]
          rcases h3 with h3 | ⟨j, hj, h3⟩
          · exact .inl h3
          · exact .inr ⟨j, by simp [hj], h3⟩) INFINITY ⟨Nat.le_refl _, by simp, .inl rfl⟩
  unfold prepareWeights
  obtain ⟨ws, hws⟩ := mapM_exists (fun es hes => let ⟨r, h, _⟩ := hone es hes; ⟨r, h⟩)
  obtain ⟨h1, h2⟩ := mapM_index hws
  refine ⟨ws, hws, h1, ?_⟩
  intro e es hes
  obtain ⟨r, h3, h4⟩ := h2 e es hes
  obtain ⟨r', h5, h6⟩ := hone es (List.mem_of_getElem? hes)
  rw [h5] at h4; simp at h4; subst h4
  exact ⟨r', h3, h6⟩

/-- A metric for a graph: the same topology with other weights. -/
structure MetricOf (orig metric : FOGraph) : Prop where
  wf : metric.WF
  fo : metric.firstOut = orig.firstOut
  hd : metric.head = orig.head

theorem edgeAt_arc {g : FOGraph} (hg : g.WF) {u v w : Nat} : g.Arc u v w ↔ ∃ i, EdgeAt g.firstOut g.head g.weight i u v w := by
  rw [hg.arc_iff]
  constructor
  · rintro ⟨a, b, e, h⟩; exact ⟨e, a, b, h⟩
  · rintro ⟨e, a, b, h⟩; exact ⟨a, b, e, h⟩

variable {orig metric : FOGraph} {order : NodeOrder}

/-- What the initial weights mean. -/
structure InitOK (c : Cch) (O : Nat → Nat → Nat → Prop) (w0 : Weights) : Prop where
  ok : WOK c w0
  upLe : ∀ {e x y}, c.Edge e x y → ∀ w, O x y w → w0.u e ≤ w
  downLe : ∀ {e x y}, c.Edge e x y → ∀ w, O y x w → w0.d e ≤ w
  upArc : ∀ {e x y}, c.Edge e x y → w0.u e < INFINITY → O x y (w0.u e)
  downArc : ∀ {e x y}, c.Edge e x y → w0.d e < INFINITY → O y x (w0.d e)

theorem initWeights_spec (ho : orig.WF) (hm : MetricOf orig metric) (hord : order.OK orig.numNodes) (hg : Good n c)
    (hb : BuiltFrom orig order c) :
    ∃ w0, initWeights c metric = some w0 ∧ InitOK c (InRanks metric.Arc order.node) w0 := by
  have hw : ∀ (i u v : Nat), (∃ w, EdgeAt orig.firstOut orig.head orig.weight i u v w) ↔
      ∃ w, EdgeAt metric.firstOut metric.head metric.weight i u v w := by
    intro i u v
    rw [hm.fo, hm.hd]
    constructor
    · rintro ⟨w, a, b, h1, h2, h3, h4, h5, h6⟩
      have : i < metric.weight.length := by rw [hm.wf.weights, hm.hd]; exact (List.getElem?_eq_some_iff.1 h5).1
      exact ⟨_, a, b, h1, h2, h3, h4, h5, List.getElem?_eq_getElem this⟩
    · rintro ⟨w, a, b, h1, h2, h3, h4, h5, h6⟩
      have : i < orig.weight.length := by rw [ho.weights]; exact (List.getElem?_eq_some_iff.1 h5).1
      exact ⟨_, a, b, h1, h2, h3, h4, h5, List.getElem?_eq_getElem this⟩
  have hloc : ∀ e, e < c.head.length → ∃ x y, c.Edge e x y := by
    intro e he
    exact ⟨_, _, List.getElem?_eq_getElem (by rw [hg.tailLen]; exact he), List.getElem?_eq_getElem he⟩
  have hbound : ∀ i u v w, EdgeAt orig.firstOut orig.head orig.weight i u v w → i < metric.head.length := by
    rintro i u v w ⟨a, b, _, _, _, _, h, _⟩
    rw [hm.hd]; exact (List.getElem?_eq_some_iff.1 h).1
  obtain ⟨up, h1, h2, h3⟩ := prepareWeights_spec (arcs := c.fwOrig) hm.wf (by
    intro es hes i hi
    obtain ⟨e, he⟩ := List.mem_iff_getElem?.1 hes
    have hel := (List.getElem?_eq_some_iff.1 he).1
    obtain ⟨x, y, hE⟩ := hloc e (by rw [← hb.fwLen]; exact hel)
    obtain ⟨es', u, v, h1, _, _, h4⟩ := hb.fw hE
    rw [he] at h1; simp at h1; subst h1
    obtain ⟨w, hw⟩ := (h4 i).1 hi
    exact hbound _ _ _ _ hw)
  obtain ⟨down, h4, h5, h6⟩ := prepareWeights_spec (arcs := c.bwOrig) hm.wf (by
    intro es hes i hi
    obtain ⟨e, he⟩ := List.mem_iff_getElem?.1 hes
    have hel := (List.getElem?_eq_some_iff.1 he).1
    obtain ⟨x, y, hE⟩ := hloc e (by rw [← hb.bwLen]; exact hel)
    obtain ⟨es', u, v, h1, _, _, h4⟩ := hb.bw hE
    rw [he] at h1; simp at h1; subst h1
    obtain ⟨w, hw⟩ := (h4 i).1 hi
    exact hbound _ _ _ _ hw)
  refine ⟨⟨up, down, List.replicate c.head.length (none, none), List.replicate c.head.length (none, none)⟩, ?_, ?_⟩
  · simp only [initWeights, h1, h4, Option.bind_eq_bind, Option.bind_some]; rfl
  · have hfw : ∀ {e x y}, c.Edge e x y → ∃ es u v r, c.fwOrig[e]? = some es ∧ order.node x = some u ∧ order.node y = some v ∧
        (∀ i, i ∈ es ↔ ∃ w, EdgeAt metric.firstOut metric.head metric.weight i u v w) ∧ up[e]? = some r ∧ r ≤ INFINITY ∧
        (∀ i ∈ es, ∀ w, metric.weight[i]? = some w → r ≤ w) ∧ (r = INFINITY ∨ ∃ i ∈ es, metric.weight[i]? = some r) := by
      intro e x y he
      obtain ⟨es, u, v, k1, k2, k3, k4⟩ := hb.fw he
      obtain ⟨r, k5, k6⟩ := h3 e es k1
      exact ⟨es, u, v, r, k1, k2, k3, fun i => by rw [k4, hw], k5, k6⟩
    have hbw : ∀ {e x y}, c.Edge e x y → ∃ es u v r, c.bwOrig[e]? = some es ∧ order.node x = some u ∧ order.node y = some v ∧
        (∀ i, i ∈ es ↔ ∃ w, EdgeAt metric.firstOut metric.head metric.weight i v u w) ∧ down[e]? = some r ∧ r ≤ INFINITY ∧
        (∀ i ∈ es, ∀ w, metric.weight[i]? = some w → r ≤ w) ∧ (r = INFINITY ∨ ∃ i ∈ es, metric.weight[i]? = some r) := by
      intro e x y he
      obtain ⟨es, u, v, k1, k2, k3, k4⟩ := hb.bw he
      obtain ⟨r, k5, k6⟩ := h6 e es k1
      exact ⟨es, u, v, r, k1, k2, k3, fun i => by rw [k4, hw], k5, k6⟩
    refine ⟨⟨by rw [h2, hb.fwLen], by rw [h5, hb.bwLen], by simp, by simp, ?_, ?_⟩, ?_, ?_, ?_, ?_⟩
    · intro e he
      obtain ⟨x, y, hE⟩ := hloc e he
      obtain ⟨es, u, v, r, _, _, _, _, k5, k6, _⟩ := hfw hE
      simp [Weights.u, k5, k6]
    · intro e he
      obtain ⟨x, y, hE⟩ := hloc e he
      obtain ⟨es, u, v, r, _, _, _, _, k5, k6, _⟩ := hbw hE
      simp [Weights.d, k5, k6]
    · rintro e x y hE w ⟨u', v', hu', hv', harc⟩
      obtain ⟨es, u, v, r, _, k2, k3, k4, k5, _, k7, _⟩ := hfw hE
      rw [k2] at hu'; rw [k3] at hv'; simp at hu' hv'; subst hu'; subst hv'
      obtain ⟨i, hi⟩ := (edgeAt_arc hm.wf).1 harc
      have hi' := hi
      obtain ⟨a, b, _, _, _, _, _, hwi⟩ := hi'
      have := k7 i ((k4 i).2 ⟨w, hi⟩) w hwi
      simp [Weights.u, k5, this]
    · rintro e x y hE w ⟨v', u', hv', hu', harc⟩
      obtain ⟨es, u, v, r, _, k2, k3, k4, k5, _, k7, _⟩ := hbw hE
      rw [k2] at hu'; rw [k3] at hv'; simp at hu' hv'; subst hu'; subst hv'
      obtain ⟨i, hi⟩ := (edgeAt_arc hm.wf).1 harc
      have hi' := hi
      obtain ⟨a, b, _, _, _, _, _, hwi⟩ := hi'
      have := k7 i ((k4 i).2 ⟨w, hi⟩) w hwi
      simp [Weights.d, k5, this]
    · intro e x y hE hlt
      obtain ⟨es, u, v, r, _, k2, k3, k4, k5, _, _, k8⟩ := hfw hE
      simp only [Weights.u, k5, Option.getD_some] at hlt ⊢
      rcases k8 with rfl | ⟨i, hi, hwi⟩
      · omega
      · obtain ⟨w, hw⟩ := (k4 i).1 hi
        have hw' := hw
        obtain ⟨a, b, q1, q2, q3, q4, q5, q6⟩ := hw'
        rw [hwi] at q6; simp at q6; subst q6
        exact ⟨u, v, k2, k3, (edgeAt_arc hm.wf).2 ⟨i, hw⟩⟩
    · intro e x y hE hlt
      obtain ⟨es, u, v, r, _, k2, k3, k4, k5, _, _, k8⟩ := hbw hE
      simp only [Weights.d, k5, Option.getD_some] at hlt ⊢
      rcases k8 with rfl | ⟨i, hi, hwi⟩
      · omega
      · obtain ⟨w, hw⟩ := (k4 i).1 hi
        have hw' := hw
        obtain ⟨a, b, q1, q2, q3, q4, q5, q6⟩ := hw'
        rw [hwi] at q6; simp at q6; subst q6
        exact ⟨v, u, k3, k2, (edgeAt_arc hm.wf).2 ⟨i, hw⟩⟩

/-! ### Distances -/

/-- The weighted arcs of the customized graph, in both directions. -/
def CArc (c : Cch) (w : Weights) (x y l : Nat) : Prop :=
  (∃ e, c.Edge e x y ∧ l = w.u e) ∨ (∃ e, c.Edge e y x ∧ l = w.d e)

theorem CArc.up (hg : Base n c) {w : Weights} {x y l : Nat} (h : CArc c w x y l) (hxy : x < y) : ∃ e, c.Edge e x y ∧ l = w.u e := by
  rcases h with h | ⟨e, he, _⟩
  · exact h
  · have := hg.up he; omega

theorem CArc.down (hg : Base n c) {w : Weights} {x y l : Nat} (h : CArc c w x y l) (hxy : y < x) : ∃ e, c.Edge e y x ∧ l = w.d e := by
  rcases h with ⟨e, he, _⟩ | h
  · have := hg.up he; omega
  · exact h

theorem Solved.tri (hg : Good n c) {w0 w : Weights} (h : Solved c w0 w (fun x => x < n)) :
    ∀ s v v' l l', CArc c w s v l → CArc c w v v' l' → v < s → v < v' → s ≠ v' → ∃ l'', l'' ≤ l + l' ∧ CArc c w s v' l'' := by
  intro s v v' l l' h1 h2 hs hv hne
  obtain ⟨a, ha, rfl⟩ := h1.down hg.toBase hs
  obtain ⟨b, hb, rfl⟩ := h2.up hg.toBase hv
  rcases Nat.lt_or_gt_of_ne hne with hlt | hgt
  · obtain ⟨e, he⟩ := hg.chordal ha hb hlt
    exact ⟨w.u e, (h.bestUp s e v' (hg.edge_lt he) he).le_tri v _ a b ⟨ha, hb, rfl⟩, .inl ⟨e, he, rfl⟩⟩
  · obtain ⟨e, he⟩ := hg.chordal hb ha hgt
    exact ⟨w.d e, (h.bestDown v' e s (hg.edge_lt he) he).le_tri v _ a b ⟨ha, hb, rfl⟩, .inr ⟨e, he, rfl⟩⟩

/-- Weights below `INFINITY` are lengths of walks. -/
theorem Solved.sound (hg : Base n c) {O : Nat → Nat → Nat → Prop} {w0 w : Weights} (h0 : InitOK c O w0) (h : Solved c w0 w (fun x => x < n)) :
    ∀ {x y l}, CArc c w x y l → l < INFINITY → Walk O x y l := by
  have key : ∀ x e y, c.Edge e x y → (w.u e < INFINITY → Walk O x y (w.u e)) ∧ (w.d e < INFINITY → Walk O y x (w.d e)) := by
    intro x
    induction x using Nat.strongRecOn with
    | ind x ih =>
      intro e y he
      refine ⟨?_, ?_⟩
      · intro hlt
        rcases (h.bestUp x e y (hg.edge_lt he) he).wit with h1 | ⟨z, t, a, b, ⟨ha, hb, rfl⟩, h2, _⟩
        · simp only [Prod.mk.injEq] at h1
          rw [h1.1] at hlt ⊢
          have := Walk.cons (h0.upArc he hlt) (.nil y)
          simpa using this
        · simp only [Prod.mk.injEq] at h2
          rw [h2.1] at hlt ⊢
          exact ((ih z (hg.up ha).1 a x ha).2 (by omega)).append ((ih z (hg.up ha).1 b y hb).1 (by omega))
      · intro hlt
        rcases (h.bestDown x e y (hg.edge_lt he) he).wit with h1 | ⟨z, t, a, b, ⟨ha, hb, rfl⟩, h2, _⟩
        · simp only [Prod.mk.injEq] at h1
          rw [h1.1] at hlt ⊢
          have := Walk.cons (h0.downArc he hlt) (.nil x)
          simpa using this
        · simp only [Prod.mk.injEq] at h2
          rw [h2.1] at hlt ⊢
          exact ((ih z (hg.up hb).1 a y ha).2 (by omega)).append ((ih z (hg.up hb).1 b x hb).1 (by omega))
  rintro x y l (⟨e, he, rfl⟩ | ⟨e, he, rfl⟩) hl
  · exact (key x e y he).1 hl
  · exact (key y e x he).2 hl

theorem Solved.le_arc (hg : Good n c) {O : Nat → Nat → Nat → Prop} {w0 w : Weights} (h0 : InitOK c O w0) (h : Solved c w0 w (fun x => x < n))
    (hO : ∀ x y l, O x y l → x ≠ y → ∃ e, c.Edge e (min x y) (max x y)) {x y l : Nat} (ho : O x y l) (hne : x ≠ y) :
    ∃ l', l' ≤ l ∧ CArc c w x y l' := by
  obtain ⟨e, he⟩ := hO x y l ho hne
  rcases Nat.lt_or_gt_of_ne hne with hlt | hgt
  · rw [Nat.min_eq_left (by omega), Nat.max_eq_right (by omega)] at he
    have h1 := (h.bestUp x e y (hg.edge_lt he) he).le_init
    have h2 := h0.upLe he l ho
    exact ⟨w.u e, by simp only at h1; omega, .inl ⟨e, he, rfl⟩⟩
  · rw [Nat.min_eq_right (by omega), Nat.max_eq_left (by omega)] at he
    have h1 := (h.bestDown y e x (hg.edge_lt he) he).le_init
    have h2 := h0.downLe he l ho
    exact ⟨w.d e, by simp only at h1; omega, .inr ⟨e, he, rfl⟩⟩

theorem fwGraph_wf (hg : Base n c) {w : Weights} (hw : WOK c w) : (fwGraph c w).WF :=
  ⟨hg.wf.small, hg.wf.first, hg.wf.last, hw.ul, hg.wf.mono, hg.wf.heads⟩
theorem bwGraph_wf (hg : Base n c) {w : Weights} (hw : WOK c w) : (bwGraph c w).WF :=
  ⟨hg.wf.small, hg.wf.first, hg.wf.last, hw.dl, hg.wf.mono, hg.wf.heads⟩

theorem fwGraph_arc (hg : Base n c) {w : Weights} (hw : WOK c w) {x y l : Nat} : (fwGraph c w).Arc x y l ↔ ∃ e, c.Edge e x y ∧ l = w.u e := by
  rw [edgeAt_arc (fwGraph_wf hg hw)]
  constructor
  · rintro ⟨e, a, b, h1, h2, h3, h4, h5, h6⟩
    have he : c.Edge e x y := ⟨(hg.range e x).2 ⟨a, b, h1, h2, h3, h4⟩, h5⟩
    have h6' : w.up[e]? = some l := h6
    rw [hw.up_get (Edge.lt he)] at h6'
    simp at h6'; exact ⟨e, he, h6'.symm⟩
  · rintro ⟨e, he, rfl⟩
    obtain ⟨a, b, h1, h2, h3, h4⟩ := (hg.range e x).1 he.1
    exact ⟨e, a, b, h1, h2, h3, h4, he.2, hw.up_get (Edge.lt he)⟩

theorem bwGraph_arc (hg : Base n c) {w : Weights} (hw : WOK c w) {x y l : Nat} : (bwGraph c w).Arc x y l ↔ ∃ e, c.Edge e x y ∧ l = w.d e := by
  rw [edgeAt_arc (bwGraph_wf hg hw)]
  constructor
  · rintro ⟨e, a, b, h1, h2, h3, h4, h5, h6⟩
    have he : c.Edge e x y := ⟨(hg.range e x).2 ⟨a, b, h1, h2, h3, h4⟩, h5⟩
    have h6' : w.down[e]? = some l := h6
    rw [hw.down_get (Edge.lt he)] at h6'
    simp at h6'; exact ⟨e, he, h6'.symm⟩
  · rintro ⟨e, he, rfl⟩
    obtain ⟨a, b, h1, h2, h3, h4⟩ := (hg.range e x).1 he.1
    exact ⟨e, a, b, h1, h2, h3, h4, he.2, hw.down_get (Edge.lt he)⟩

/-- Up-down paths in the customized graph stand for the distances of the input. -/
theorem Solved.updown (hg : Good n c) {O : Nat → Nat → Nat → Prop} {w0 w : Weights} (hw : WOK c w) (h0 : InitOK c O w0)
    (h : Solved c w0 w (fun x => x < n)) (hO : ∀ x y l, O x y l → x ≠ y → ∃ e, c.Edge e (min x y) (max x y)) (s t : Nat) :
    (∀ d, Walk O s t d → ∃ d', d' ≤ d ∧ UpDown (fwGraph c w).Arc (bwGraph c w).Arc s t d') ∧
    (∀ d, UpDown (fwGraph c w).Arc (bwGraph c w).Arc s t d → d < INFINITY → Walk O s t d) := by
  refine ⟨?_, ?_⟩
  · intro d hd
    obtain ⟨m, a, b, h1, h2, h3⟩ := UD.of_walk (Solved.tri hg h) (fun x y l ho hne => Solved.le_arc hg h0 h hO ho hne) hd
    refine ⟨a + b, h3, m, a, b, h1.mono ?_, h2.mono ?_, rfl⟩
    · intro u v l huv ha
      rw [fwGraph_arc hg.toBase hw]; exact ha.up hg.toBase huv
    · intro u v l huv ha
      rw [bwGraph_arc hg.toBase hw]; exact ha.down hg.toBase huv
  · intro d hd hlt
    refine hd.walk ?_ ?_ hlt
    · intro x y l ha hl
      rw [fwGraph_arc hg.toBase hw] at ha
      exact Solved.sound hg.toBase h0 h (.inl ha) hl
    · intro x y l ha hl
      rw [bwGraph_arc hg.toBase hw] at ha
      exact Solved.sound hg.toBase h0 h (.inr ha) hl

theorem BuiltFrom.hO (hm : MetricOf orig metric) (ho : orig.WF) (hb : BuiltFrom orig order c) :
    ∀ x y l, InRanks metric.Arc order.node x y l → x ≠ y → ∃ e, c.Edge e (min x y) (max x y) := by
  rintro x y l ⟨u, v, hu, hv, harc⟩ hne
  obtain ⟨i, a, b, h1, h2, h3, h4, h5, h6⟩ := (edgeAt_arc hm.wf).1 harc
  rw [hm.fo] at h1 h2; rw [hm.hd] at h5
  have hi : i < orig.weight.length := by rw [ho.weights]; exact (List.getElem?_eq_some_iff.1 h5).1
  have harc' : orig.Arc u v orig.weight[i] := (edgeAt_arc ho).2 ⟨i, a, b, h1, h2, h3, h4, h5, List.getElem?_eq_getElem hi⟩
  rw [hb.edge_iff]
  rcases Nat.lt_or_gt_of_ne hne with hlt | hgt
  · rw [Nat.min_eq_left (by omega), Nat.max_eq_right (by omega)]
    exact ⟨hlt, .one ⟨hne, u, v, _, hu, hv, .inl harc'⟩⟩
  · rw [Nat.min_eq_right (by omega), Nat.max_eq_left (by omega)]
    exact ⟨hgt, .one ⟨fun h => hne h.symm, v, u, _, hv, hu, .inr harc'⟩⟩

theorem walk_inRanks {A : Nat → Nat → Nat → Prop} {nodeAt : Nat → Option Nat} {s t d : Nat} (h : Walk (InRanks A nodeAt) s t d) :
    ∀ {u v}, nodeAt s = some u → nodeAt t = some v → Walk A u v d := by
  induction h with
  | nil x => intro u v h1 h2; rw [h1] at h2; simp at h2; subst h2; exact .nil _
  | cons ha _ ih =>
    intro u v h1 h2
    obtain ⟨u', v', h3, h4, h5⟩ := ha
    rw [h1] at h3; simp at h3; subst h3
    exact .cons h5 (ih h4 h2)

theorem inRanks_walk {A : Nat → Nat → Nat → Prop} {n : Nat} (hord : order.OK n) (hA : ∀ u v w, A u v w → u < n ∧ v < n) {u v d : Nat}
    (h : Walk A u v d) : ∀ {s t}, order.node s = some u → order.node t = some v → Walk (InRanks A order.node) s t d := by
  induction h with
  | nil x =>
    intro s t h1 h2
    have := (hord.inv.inv _ _).1 h1
    have h2' := (hord.inv.inv _ _).1 h2
    rw [this] at h2'; simp at h2'; subst h2'; exact .nil _
  | @cons u w v l d ha _ ih =>
    intro s t h1 h2
    obtain ⟨r, _, hr, _⟩ := hord.rank_lt (hA _ _ _ ha).2
    have hr' := (hord.inv.inv _ _).2 hr
    exact .cons ⟨u, w, h1, hr', ha⟩ (ih hr' h2)

theorem FOGraph.WF.arc_lt {g : FOGraph} (hg : g.WF) {u v w : Nat} (h : g.Arc u v w) : u < g.numNodes ∧ v < g.numNodes := by
  obtain ⟨ls, h1, h2⟩ := h
  exact ⟨hg.tail_lt h1, hg.mem_heads h1 h2⟩

end CCH
end Verif
