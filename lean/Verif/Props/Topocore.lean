import Verif.Props.TopoDijkstra
import Verif.Props.Graph
import Verif.Proof.TopocoreBuild
import Verif.Proof.CCHSession
import Verif.Proof.Alt
set_option linter.unusedSimpArgs false
set_option linter.unusedVariables false
/-
C58: the server that first computes the topocore of a graph.
-/
namespace Verif
open Spec DData

/-- The state of the server for the graph `g` after any sequence of queries. -/
inductive Topo.Server.Reachable (g : FOGraph) (sv : Topo.Server) (bcc : Bool) (sk : Topo.Skip) : DData Unit → Prop
  | new : Reachable g sv bcc sk (DData.new g.numNodes ())
  | query {σ : Type} {P : Potential σ} {I0 I : σ → Prop} {π : Nat → Option Nat} {c c' : σ} {s t : Nat} {r : Option Nat} {d d' : DData Unit} :
      Reachable g sv bcc sk d → Topo.GoodPot g.numNodes g.Fixed t P I0 I π → I0 c → s < g.numNodes → t < g.numNodes →
      sv.distance bcc sk P d c s t = some (r, d', c') → Reachable g sv bcc sk d'

/-- every node has fewer than 256 incoming and outgoing arcs together -/
def FOGraph.FewArcs (g : FOGraph) : Prop := ∀ r v lv lr, GraphOps.reversed g.numNodes g.numArcs g.linkIter = some r →
  g.linkIter v = some lv → r.linkIter v = some lr → lv.length + lr.length < 256

namespace Topo

theorem Arc_count (g : FOGraph) (u v w : Nat) : g.Arc u v w ↔ 0 < GraphOps.linkCount g.linkIter u v w := by
  unfold FOGraph.Arc GraphOps.linkCount
  rw [List.count_pos_iff]
  cases g.linkIter u <;> simp

/-- what is needed about the permuted graph -/
structure Renamed (g p : FOGraph) (o : NodeOrder) : Prop where
  ok : o.OK g.numNodes
  wf : p.WF
  nodes : p.numNodes = g.numNodes
  arc : ∀ u v w r r', o.rank u = some r → o.rank v = some r' → (p.Arc r r' w ↔ g.Arc u v w)

theorem OK.node_rank {o : NodeOrder} {n : Nat} (h : o.OK n) {r v : Nat} (hr : o.node r = some v) : o.rank v = some r := (h.inv.inv _ _).1 hr
theorem OK.rank_node {o : NodeOrder} {n : Nat} (h : o.OK n) {r v : Nat} (hr : o.rank v = some r) : o.node r = some v := (h.inv.inv _ _).2 hr

theorem Renamed.back {g p : FOGraph} {o : NodeOrder} (h : Renamed g p o) {r r' w : Nat} (ha : p.Arc r r' w) :
    ∃ u v, o.node r = some u ∧ o.node r' = some v ∧ o.rank u = some r ∧ o.rank v = some r' ∧ g.Arc u v w := by
  obtain ⟨ls, h1, h2⟩ := ha
  have hr := h.wf.tail_lt h1
  have hr' := h.wf.mem_heads h1 h2
  rw [h.nodes] at hr hr'
  obtain ⟨u, _, hu, hu'⟩ := h.ok.node_lt hr
  obtain ⟨v, _, hv, hv'⟩ := h.ok.node_lt hr'
  exact ⟨u, v, hu, hv, hu', hv', (h.arc u v w r r' hu' hv').1 ⟨ls, h1, h2⟩⟩

theorem Renamed.walk {g p : FOGraph} (hg : g.WF) {o : NodeOrder} (h : Renamed g p o) {s t r r' d : Nat} (hr : o.rank s = some r) (hr' : o.rank t = some r') :
    Walk p.Arc r r' d ↔ Walk g.Arc s t d := by
  constructor
  · intro hw
    induction hw generalizing s with
    | nil => rw [h.ok.rank_inj hr hr']; exact .nil _
    | cons hab _ ih =>
      obtain ⟨u, v, _, _, h1, h2, h3⟩ := h.back hab
      rw [h.ok.rank_inj hr h1]
      exact .cons h3 (ih h2 hr')
  · intro hw
    induction hw generalizing r with
    | nil => rw [hr] at hr'; simp at hr'; subst hr'; exact .nil _
    | @cons a b c d w hab _ ih =>
      obtain ⟨ls, hl1, hl2⟩ := hab
      obtain ⟨q, _, hq, _⟩ := h.ok.rank_lt (hg.mem_heads hl1 hl2)
      exact .cons ((h.arc a b _ _ _ hr hq).2 ⟨ls, hl1, hl2⟩) (ih hq hr')

theorem Renamed.answer {g p : FOGraph} (hg : g.WF) {o : NodeOrder} (h : Renamed g p o) {s t r r' : Nat} (hr : o.rank s = some r) (hr' : o.rank t = some r')
    {x : Option Nat} (ha : Answer p.Arc r r' x) : Answer g.Arc s t x := by
  intro d
  rw [ha d]
  simp only [IsDist, h.walk hg hr hr']

theorem Renamed.path {g p : FOGraph} {o : NodeOrder} (h : Renamed g p o) {path : List Nat} {x : Nat} (hp : PathOf p.Arc path x)
    (hlt : ∀ r ∈ path, r < g.numNodes) :
    ∃ q, path.mapM o.node = some q ∧ PathOf g.Arc q x := by
  induction hp with
  | single u =>
    obtain ⟨v, _, hv, _⟩ := h.ok.node_lt (hlt u (by simp))
    exact ⟨[v], by simp [hv], .single v⟩
  | cons hab _ ih =>
    obtain ⟨q, h1, h2⟩ := ih (fun r hr => hlt r (by simp at hr ⊢; right; exact hr))
    obtain ⟨u, v, e1, e2, _, _, e3⟩ := h.back hab
    rw [List.mapM_cons, e2] at h1
    simp only [Option.bind_eq_bind, Option.bind_some, Option.pure_def, Option.bind_eq_some_iff, Option.some.injEq] at h1
    obtain ⟨q', h3, rfl⟩ := h1
    refine ⟨u :: v :: q', ?_, .cons e3 h2⟩
    rw [List.mapM_cons, List.mapM_cons, e1, e2, h3]
    rfl

theorem GoodPot.renamed {g p : FOGraph} {o : NodeOrder} (h : Renamed g p o) {σ : Type} {P : Potential σ} {I0 I : σ → Prop} {π : Nat → Option Nat} {t t' : Nat}
    (ht : o.rank t = some t') (hP : GoodPot g.numNodes g.Fixed t P I0 I π) : GoodPot p.numNodes p.Fixed t' (permutatedPot P o) I0 I (fun r => (o.node r).bind π) := by
  have hnode := OK.rank_node h.ok ht
  constructor
  · intro c hc
    obtain ⟨c', h1, h2⟩ := hP.init c hc
    exact ⟨c', by simp [permutatedPot, hnode, h1], h2⟩
  · intro c r hc hr
    rw [h.nodes] at hr
    obtain ⟨v, hv, hv1, _⟩ := h.ok.node_lt hr
    obtain ⟨c', h1, h2⟩ := hP.get c v hc hv
    exact ⟨c', by simp [permutatedPot, hv1, h1], h2⟩
  · intro r x hx
    simp only [Option.bind_eq_some_iff] at hx
    obtain ⟨v, _, hx⟩ := hx
    exact hP.bound v x hx
  · rintro u v f pu pv l ⟨w, ha, hf⟩ h1 h2 hl
    obtain ⟨u', v', e1, e2, _, _, e3⟩ := h.back ha
    simp only [e1, e2, Option.bind_some] at h1 h2
    exact hP.feas u' v' f pu pv l ⟨w, e3, hf⟩ h1 h2 hl
  · rintro u v f ⟨w, ha, hf⟩ h1
    obtain ⟨u', v', e1, e2, _, _, e3⟩ := h.back ha
    simp only [e1, e2, Option.bind_some] at h1 ⊢
    exact hP.closed u' v' f ⟨w, e3, hf⟩ h1
  · simp only [hnode, Option.bind_some]; exact hP.target

/-- the links of the permuted graph, up to order -/
theorem permutated_links {srt : (Link → Nat) → List Link → List Link} (hs : SortOK srt) {g p : FOGraph} (hg : g.WF) {o : NodeOrder} (ho : o.OK g.numNodes)
    (hp : GraphOps.permutated srt o g.linkIter = some p) : Renamed g p o ∧
      ∀ v r, o.rank v = some r → ∃ lr, p.linkIter r = some lr ∧ lr.Perm ((g.adj.getD v []).map (fun l => ⟨GraphOps.rk o l.node, l.weight⟩)) := by
  obtain ⟨p', A, h1, h2, h3, h4, h5⟩ := GraphOps.permutatedFiltered_spec hs hg ho (fun _ _ => true)
  have : p = p' := by
    have : GraphOps.permutated srt o g.linkIter = some p' := h1
    rw [hp] at this; injection this
  subst this
  refine ⟨⟨ho, h2, h3, ?_⟩, ?_⟩
  · intro u v w r r' hu hv
    rw [Arc_count, Arc_count, GraphOps.reps_linkCount h4, GraphOps.WF.linkCount hg, List.getD_eq_getElem?_getD, h5 u r hu, Option.getD_some,
      GraphOps.permutated_count hs hg ho hu hv]
    simp
  · intro v r hv
    refine ⟨_, by rw [h4.linkIter, h5 v r hv], ?_⟩
    unfold GraphOps.permLinks
    refine ((hs _ _).1.map _).trans ?_
    simp

theorem sound_of_degrees {srt : (Link → Nat) → List Link → List Link} (hs : SortOK srt) {g p : FOGraph} (hg : g.WF) {o : NodeOrder} (ho : o.OK g.numNodes)
    (hp : GraphOps.permutated srt o g.linkIter = some p) {deg : Nat → Option SymDeg} (htot : ∀ rk, rk < g.numNodes → ∃ c, deg rk = some c)
    (hdeg : ∀ rk v, o.node rk = some v → v < g.numNodes → ∃ d, deg rk = some (classOf d) ∧ ∀ u lu b lv, g.linkIter u = some lu → b ∈ lu → b.node = v →
      g.linkIter v = some lv → (lv.filter (fun e => decide (e.node ≠ u))).length + 1 ≤ d) : SoundDegrees p.numNodes p.linkIter Link.node deg := by
  obtain ⟨hren, hlinks⟩ := permutated_links hs hg ho hp
  have key : ∀ ru lu b lv, p.linkIter ru = some lu → b ∈ lu → p.linkIter b.node = some lv →
      ∃ d, deg b.node = some (classOf d) ∧ (lv.filter (fun e => decide (e.node ≠ ru))).length + 1 ≤ d := by
    intro ru lu b lv hlu hb hlv
    obtain ⟨u, v, e1, e2, e3, e4, ls, e5, e6⟩ := hren.back ⟨lu, hlu, hb⟩
    have hv : v < g.numNodes := hren.ok.rank_dom e4
    obtain ⟨d, hd1, hd2'⟩ := hdeg b.node v e2 hv
    refine ⟨d, hd1, ?_⟩
    have h6 := hd2' u ls ⟨v, b.weight⟩ _ e5 e6 rfl (GraphOps.WF_links hg hv)
    obtain ⟨lr, h7, h8⟩ := hlinks v b.node e4
    rw [hlv] at h7; injection h7 with h7; subst h7
    have h9 := (h8.filter (fun e => decide (e.node ≠ ru))).length_eq
    rw [List.filter_map, List.length_map] at h9
    have h10 : (g.adj.getD v []).filter ((fun e : Link => decide (e.node ≠ ru)) ∘ fun l => ⟨GraphOps.rk o l.node, l.weight⟩) =
        (g.adj.getD v []).filter (fun e => decide (e.node ≠ u)) := by
      apply List.filter_congr
      intro l hl
      have hln := GraphOps.WF.adj_heads hg hl
      have hrk := GraphOps.rk_eq hren.ok hln
      simp only [Function.comp]
      have : GraphOps.rk o l.node = ru ↔ l.node = u := by
        constructor
        · intro h; rw [h] at hrk; exact hren.ok.rank_inj hrk e3
        · intro h
          rw [h, e3] at hrk
          rw [h]
          injection hrk with hrk
          exact hrk.symm
      simp [this]
    rw [h10] at h9
    omega
  refine ⟨?_, ?_, ?_⟩
  · intro v hv
    rw [hren.nodes] at hv
    exact htot v hv
  all_goals
    intro u lu b lv hlu hb hc hlv
    obtain ⟨d, h6, h7⟩ := key u lu b lv hlu hb hlv
    rw [h6] at hc
    simp only [Option.some.injEq, classOf] at hc
    split at hc
    · first | omega | simp at hc
    · split at hc
      · simp at hc
      · first | omega | simp at hc

theorem degree_lt {g r : FOGraph} (hg : g.WF) (hr2 : r.WF) (hn : r.numNodes = g.numNodes) (hr : GraphOps.reversed g.numNodes g.numArcs g.linkIter = some r)
    (hfew : g.FewArcs) {v d : Nat} (hv : v < g.numNodes) (hd1 : degree g r v = some d) : d < 256 := by
  obtain ⟨lr, hlr⟩ : ∃ lr, r.linkIter v = some lr := ⟨_, GraphOps.WF_links hr2 (by omega)⟩
  have hf := hfew r v _ lr hr (GraphOps.WF_links hg hv) hlr
  simp only [degree, headsOf_eq (GraphOps.WF_links hg hv), headsOf_eq hlr, Option.bind_eq_bind, Option.bind_some] at hd1
  obtain ⟨d', g1, g2, _⟩ := symmetricDegree_spec ((g.adj.getD v []).map Link.node) (lr.map Link.node)
  rw [g1] at hd1; injection hd1 with hd1
  simp only [List.length_map] at g2
  omega

theorem sound_degrees {srt : (Link → Nat) → List Link → List Link} (hs : SortOK srt) {g p r : FOGraph} (hg : g.WF)
    (hr : GraphOps.reversed g.numNodes g.numArcs g.linkIter = some r) (hfew : g.FewArcs) {t : VTopo} (ht : VTopoOK g r t) (hd2 : t.deg2 ≤ t.biggest)
    (hp : GraphOps.permutated srt t.order g.linkIter = some p) : SoundDegrees p.numNodes p.linkIter Link.node t.symDeg := by
  obtain ⟨r', h1, h2, h3, _, h5⟩ := GraphOps.reversed_spec hg
  rw [hr] at h1; injection h1 with h1; subst h1
  refine sound_of_degrees hs hg ht.order hp ht.total ?_
  intro rk v hrk hv
  obtain ⟨d, hd1, hd2'⟩ := degree_spec hg h2 h3 (fun u v w => h5 v u w) hv
  have := ht.deg hd2 rk v d hrk hd1
  rw [Nat.mod_eq_of_lt (degree_lt hg h2 h3 hr hfew hv hd1)] at this
  exact ⟨d, this, hd2'⟩

end Topo

/-- **C58**, preprocessing: for every graph with at least one node, the server is built, with and without the separate search in the core. -/
theorem C58_preprocessing (srtN : (Nat → Nat) → List Nat → List Nat) (srt : (Link → Nat) → List Link → List Link) (hsN : SortOK srtN) (hs : SortOK srt)
    (g : FOGraph) (hg : g.WF) (hn : 0 < g.numNodes) (bcc : Bool) : ∃ sv, Topo.Server.new srtN srt bcc g = some sv := by
  obtain ⟨t, r, h1, h2, h3⟩ := Topo.virtualTopocore_spec hsN hg hn
  unfold Topo.Server.new
  simp only [h1, Option.bind_eq_bind, Option.bind_some]
  have hp := fun pred => GraphOps.permutatedFiltered_spec hs hg h3.order pred
  cases bcc with
  | true =>
    obtain ⟨p, _, e1, _⟩ := hp (fun a b => t.inCore a && t.inCore b)
    obtain ⟨q, _, e2, _⟩ := hp (fun a b => !t.inCore a || !t.inCore b)
    exact ⟨⟨p, q, t⟩, by simp only [e1, e2]; rfl⟩
  | false =>
    obtain ⟨p, _, e1, _⟩ := hp (fun _ _ => true)
    obtain ⟨q, _, e2, _⟩ := hp (fun _ _ => false)
    exact ⟨⟨p, q, t⟩, by simp only [GraphOps.permutated, e1, e2]; rfl⟩

/-- **C58**, the part that holds: without the separate search in the core (`BCC_CORE = false`), if there is a node of degree at most two before the
first node outside of the core, and nodes have fewer than 256 arcs, every query of every sequence of queries is answered exactly, with a path. -/
theorem C58_server_partial (srtN : (Nat → Nat) → List Nat → List Nat) (srt : (Link → Nat) → List Link → List Link) (hsN : SortOK srtN) (hs : SortOK srt)
    (g : FOGraph) (hg : g.WF) (hw : g.Bounded) (hfew : g.FewArcs) (sv : Topo.Server) (hsv : Topo.Server.new srtN srt false g = some sv)
    (hdeg : sv.topo.deg2 ≤ sv.topo.biggest) (sk : Topo.Skip) {σ : Type} (P : Potential σ) (I0 I : σ → Prop) (π : Nat → Option Nat)
    (s t : Nat) (hs' : s < g.numNodes) (ht : t < g.numNodes) (hP : Topo.GoodPot g.numNodes g.Fixed t P I0 I π) (hπ : π t = some 0) (c : σ) (hc : I0 c)
    (d0 : DData Unit) (hd : Topo.Server.Reachable g sv false sk d0) :
    ∃ x d c', sv.distance false sk P d0 c s t = some (x, d, c') ∧ Answer g.Arc s t x ∧
      (s ≠ t → ∀ y, x = some y → ∃ path, sv.nodePath d s t = some path ∧ path.head? = some s ∧ path.getLast? = some t ∧ PathOf g.Arc path y) := by
  obtain ⟨tc, r, h1, h2, h3⟩ := Topo.virtualTopocore_spec hsN hg (by omega)
  simp only [Topo.Server.new, h1, Option.bind_eq_bind, Option.bind_some, Bool.false_eq_true, if_false, Option.bind_eq_some_iff, Option.pure_def,
    Option.some.injEq] at hsv
  obtain ⟨main, hm, comp, hcomp, rfl⟩ := hsv
  simp only at hdeg
  obtain ⟨hren, _⟩ := Topo.permutated_links hs hg h3.order hm
  have hsd := Topo.sound_degrees hs hg h2 hfew h3 hdeg hm
  have hwm : main.Bounded := by
    intro w hw'
    obtain ⟨u, ls, l, e1, e2, e3⟩ := hren.wf.weight_link hw'
    obtain ⟨u', v', _, _, _, _, ls', g1, g2⟩ := hren.back ⟨ls, e1, e2⟩
    have := hg.mem_weights g1 g2
    subst e3
    exact hw _ this
  have hreach : Topo.ReachableStatic main sk tc.symDeg d0 := by
    induction hd with
    | new => rw [← hren.nodes]; exact .new
    | @query σ P I0 I π c c' s t x d d' _ hP hc hs ht hq ih =>
      unfold Topo.Server.distance at hq
      split at hq
      · simp at hq
        obtain ⟨_, rfl, _⟩ := hq
        exact ih
      · obtain ⟨rs, q1, q2, _⟩ := h3.order.rank_lt hs
        obtain ⟨rt, q3, q4, _⟩ := h3.order.rank_lt ht
        simp only [q2, q4, Option.bind_eq_bind, Option.bind_some, Bool.false_eq_true, if_false] at hq
        exact .query ih (hP.renamed hren q4) hc (by rw [hren.nodes]; exact q1) (by rw [hren.nodes]; exact q3) (by decide) hq
  unfold Topo.Server.distance
  by_cases hst : s = t
  · subst hst
    rw [if_pos rfl]
    refine ⟨some 0, d0, c, rfl, ?_, fun h => absurd rfl h⟩
    intro d
    constructor
    · intro h
      injection h with h; subst h
      exact ⟨⟨.nil _, fun _ _ => Nat.zero_le _⟩, by decide⟩
    · rintro ⟨h, _⟩
      have := h.2 0 (.nil _)
      simp; omega
  · rw [if_neg hst]
    obtain ⟨rs, q1, q2, q2'⟩ := h3.order.rank_lt hs'
    obtain ⟨rt, q3, q4, q4'⟩ := h3.order.rank_lt ht
    simp only [q2, q4, Option.bind_eq_bind, Option.bind_some, Bool.false_eq_true, if_false]
    obtain ⟨x, d, c', g1, _, g2, g3⟩ := C57_topo_exact main hren.wf hwm sk tc.symDeg hsd (permutatedPot P tc.order) I0 I _ rs rt
      (by rw [hren.nodes]; exact q1) (by rw [hren.nodes]; exact q3) (hP.renamed hren q4) (by simp [q4', hπ]) c hc d0 hreach
    refine ⟨x, d, c', g1, hren.answer hg q2 q4 g2, ?_⟩
    intro _ y hy
    obtain ⟨path, e1, e2, e3, e4⟩ := g3 y hy
    have hlt : ∀ r ∈ path, r < g.numNodes := by
      have : ∀ {path : List Nat} {y : Nat}, PathOf main.Arc path y → path.head? = some rs → ∀ r ∈ path, r < g.numNodes := by
        intro path y hp
        clear e2 e3 e4 e1 hy
        revert q1
        generalize rs = z
        intro q1 hh
        induction hp generalizing z with
        | single u => simp at hh; subst hh; simpa using q1
        | @cons u v w d p ha _ ih =>
          simp at hh; subst hh
          obtain ⟨ls, f1, f2⟩ := ha
          have hv := hren.wf.mem_heads f1 f2
          rw [hren.nodes] at hv
          intro r hr
          rcases List.mem_cons.1 hr with rfl | hr
          · exact q1
          · exact ih v hv (by simp) r hr
      exact this e4 e2
    obtain ⟨q, f1, f2⟩ := hren.path e4 hlt
    refine ⟨q, ?_, ?_, ?_, f2⟩
    · simp only [Topo.Server.nodePath, q2, q4, Option.bind_eq_bind, Option.bind_some, e1, f1]
    · obtain ⟨z, z1, z2⟩ := CCH.mapM_head f1 e2
      rw [q2'] at z1; injection z1 with z1; subst z1; exact z2
    · obtain ⟨z, z1, z2⟩ := CCH.mapM_getLast f1 e3
      rw [q4'] at z1; injection z1 with z1; subst z1; exact z2

/-- the links of a graph, by node -/
theorem FOGraph.few_of_check {g r : FOGraph} (hg : g.WF) (hr : GraphOps.reversed g.numNodes g.numArcs g.linkIter = some r)
    (h : ∀ v < g.numNodes, ((g.linkIter v).getD []).length + ((r.linkIter v).getD []).length < 256) : g.FewArcs := by
  intro r' v lv lr h1 h2 h3
  rw [hr] at h1; injection h1 with h1; subst h1
  have := h v (hg.tail_lt h2)
  rwa [h2, h3] at this

theorem Topo.zeroGood (g : FOGraph) (t : Nat) : Topo.GoodPot g.numNodes g.Fixed t zeroPotential (fun _ => True) (fun _ => True) (fun _ => some 0) where
  init := fun _ _ => ⟨(), rfl, trivial⟩
  get := fun _ _ _ _ => ⟨(), rfl, trivial⟩
  bound := by intro v x h; simp at h; subst h; decide
  feas := by
    rintro u v f pu pv l ⟨w, _, hf⟩ h1 h2 _
    simp at h1 h2; subst h1; subst h2
    rw [hf]; omega
  closed := by simp
  target := by simp

/-- an answer to a query -/
theorem isDist_of_potential {g : FOGraph} {π : Nat → Nat} {s t d : Nat} (hg : g.WF)
    (h : ∀ u < g.numNodes, ∀ l ∈ (g.linkIter u).getD [], π u ≤ l.weight + π l.node) (ht : π t = 0) (hs : π s = d) (hw : Walk g.Arc s t d) :
    IsDist g.Arc s t d := by
  refine ⟨hw, ?_⟩
  intro x hx
  subst hs
  clear hw
  induction hx with
  | nil => omega
  | cons ha _ ih =>
    obtain ⟨ls, h1, h2⟩ := ha
    have := h _ (hg.tail_lt h1) _ (by rw [h1]; exact h2)
    have := ih ht
    simp only at *
    omega

namespace TopocoreEx
/-- a triangle 0, 1, 2 with the chain 2 - 3 - 4 and the leaves 5, 6, 7 at 4 -/
def g : FOGraph := ⟨[0, 2, 4, 7, 9, 13, 14, 15, 16], [1, 2, 0, 2, 0, 1, 3, 2, 4, 3, 5, 6, 7, 4, 4, 4], [1, 1, 1, 1, 1, 1, 1, 1, 10, 10, 10, 10, 10, 10, 10, 10]⟩
def r : FOGraph := (GraphOps.reversed g.numNodes g.numArcs g.linkIter).getD ⟨[0], [], []⟩
/-- the distances to 5 -/
def dist5 : List Nat := [22, 22, 21, 20, 10, 0, 20, 20]
def exactPot : Potential Unit := ⟨fun _ _ => some (), fun _ v => some ((), dist5[v]?)⟩

theorem wf : g.WF where
  small := by decide
  first := by decide
  last := by decide
  weights := by decide
  mono := FOGraph.mono_of_check (by decide)
  heads := by decide
theorem bounded : g.Bounded := by unfold FOGraph.Bounded; decide +kernel
theorem reversed : GraphOps.reversed g.numNodes g.numArcs g.linkIter = some r := by decide +kernel
theorem few : g.FewArcs := FOGraph.few_of_check wf reversed (by decide +kernel)

def sv : Topo.Server := (Topo.Server.new isort isort false g).getD ⟨g, g, ⟨⟨[], []⟩, 0, 0, 0, [], [], []⟩⟩
theorem new : Topo.Server.new isort isort false g = some sv := by
  obtain ⟨s, hs⟩ := C58_preprocessing isort isort isort_ok isort_ok g wf (by decide) false
  simp [sv, hs]

/-- the hypotheses of the theorem hold, for a second query on the same server -/
example : ∃ d, Topo.Server.Reachable g sv false ⟨true, true⟩ d ∧ ∃ x d' c, sv.distance false ⟨true, true⟩ zeroPotential d () 2 5 = some (x, d', c) ∧
    Spec.Answer g.Arc 2 5 x := by
  have hd : sv.topo.deg2 ≤ sv.topo.biggest := by decide +kernel
  obtain ⟨x, d, c, h1, _⟩ := C58_server_partial isort isort isort_ok isort_ok g wf bounded few sv new hd ⟨true, true⟩ zeroPotential _ _ _ 7 1 (by decide) (by decide)
    (Topo.zeroGood g 1) rfl () trivial _ .new
  have hr : Topo.Server.Reachable g sv false ⟨true, true⟩ d := .query .new (Topo.zeroGood g 1) trivial (by decide) (by decide) h1
  obtain ⟨x', d', c', h2, h3, _⟩ := C58_server_partial isort isort isort_ok isort_ok g wf bounded few sv new hd ⟨true, true⟩ zeroPotential _ _ _ 2 5 (by decide) (by decide)
    (Topo.zeroGood g 5) rfl () trivial _ hr
  exact ⟨d, hr, x', d', c', h2, h3⟩
example : (sv.distance false ⟨true, true⟩ zeroPotential (DData.new 8 ()) () 2 5).map (fun x => (x.1, sv.nodePath x.2.1 2 5)) = some (some 21, some [2, 3, 4, 5]) := by
  decide +kernel
/-- without nodes, preprocessing panics -/
example : Topo.Server.new isort isort true ⟨[0], [], []⟩ = none := by decide +kernel

/-- the complete graph on 0, 1, 2, 3 with 4 at 3 and the leaves 5, 6, 7 at 4 -/
def h : FOGraph := ⟨[0, 3, 6, 9, 13, 17, 18, 19, 20], [1, 2, 3, 0, 2, 3, 0, 1, 3, 0, 1, 2, 4, 3, 5, 6, 7, 4, 4, 4], List.replicate 20 1⟩
theorem hwf : h.WF where
  small := by decide
  first := by decide
  last := by decide
  weights := by decide
  mono := FOGraph.mono_of_check (by decide)
  heads := by decide
theorem hbounded : h.Bounded := by unfold FOGraph.Bounded; decide +kernel
def hr : FOGraph := (GraphOps.reversed h.numNodes h.numArcs h.linkIter).getD ⟨[0], [], []⟩
theorem hreversed : GraphOps.reversed h.numNodes h.numArcs h.linkIter = some hr := by decide +kernel
theorem hfew : h.FewArcs := FOGraph.few_of_check hwf hreversed (by decide +kernel)

theorem exactGood : Topo.GoodPot g.numNodes g.Fixed 5 exactPot (fun _ => True) (fun _ => True) (fun v => dist5[v]?) where
  init := fun _ _ => ⟨(), rfl, trivial⟩
  get := fun _ _ _ _ => ⟨(), rfl, trivial⟩
  bound := by
    intro v x h
    have : ∀ x ∈ dist5, x < INFINITY := by decide
    exact this x (List.mem_of_getElem? h)
  feas := by
    rintro u v f pu pv l ⟨w, ⟨ls, h1, h2⟩, hf⟩ h3 h4 _
    have key : ∀ u < g.numNodes, ∀ l ∈ (g.linkIter u).getD [], dist5.getD u 0 ≤ l.weight + dist5.getD l.node 0 := by decide +kernel
    have := key u (wf.tail_lt h1) _ (by rw [h1]; exact h2)
    simp only [List.getD_eq_getElem?_getD, h3, h4, Option.getD_some] at this
    rw [hf]; omega
  closed := by
    rintro u v f ⟨w, ⟨ls, h1, h2⟩, hf⟩ h3
    have := wf.mem_heads h1 h2
    have e : g.numNodes = 8 := by decide
    have e' : dist5.length = 8 := by decide
    rw [ne_eq, List.getElem?_eq_none_iff] at h3 ⊢
    have := wf.tail_lt h1
    omega
  target := by decide
end TopocoreEx

/-- **C58** is false with the separate search in the core (`BCC_CORE = true`): on a connected graph whose degrees are all recorded correctly, a fresh server
finds no path from a core node to a node outside of the core, with exact potentials, and with the potential that is zero everywhere. -/
theorem C58_core_refuted : ∃ (g : FOGraph) (sv : Topo.Server) (s t dist : Nat) (P : Potential Unit) (π : Nat → Option Nat),
    g.WF ∧ g.Bounded ∧ g.FewArcs ∧ Topo.Server.new isort isort true g = some sv ∧ sv.topo.deg2 ≤ sv.topo.biggest ∧ s < g.numNodes ∧ t < g.numNodes ∧
      Topo.GoodPot g.numNodes g.Fixed t P (fun _ => True) (fun _ => True) π ∧ π t = some 0 ∧ π s = some dist ∧ IsDist g.Arc s t dist ∧ dist < INFINITY ∧
      (∀ sk : Topo.Skip, (sv.distance true sk P (DData.new g.numNodes ()) () s t).map (·.1) = some none) ∧
      ∀ sk : Topo.Skip, (sv.distance true sk zeroPotential (DData.new g.numNodes ()) () s t).map (·.1) = some none := by
  obtain ⟨sv, hsv⟩ := C58_preprocessing isort isort isort_ok isort_ok TopocoreEx.g TopocoreEx.wf (by decide) true
  have key : (Topo.Server.new isort isort true TopocoreEx.g).map (fun sv => decide (sv.topo.deg2 ≤ sv.topo.biggest) &&
      [true, false].all fun a => [true, false].all fun b =>
        (sv.distance true ⟨a, b⟩ TopocoreEx.exactPot (DData.new 8 ()) () 2 5).map (·.1) == some none &&
        (sv.distance true ⟨a, b⟩ zeroPotential (DData.new 8 ()) () 2 5).map (·.1) == some none) = some true := by decide +kernel
  rw [hsv] at key
  simp only [Option.map_some, Option.some.injEq, Bool.and_eq_true, decide_eq_true_eq, List.all_cons, List.all_nil, beq_iff_eq] at key
  refine ⟨TopocoreEx.g, sv, 2, 5, 21, TopocoreEx.exactPot, _, TopocoreEx.wf, TopocoreEx.bounded, TopocoreEx.few, hsv, key.1, by decide, by decide,
    TopocoreEx.exactGood, by decide, by decide, ?_, by decide, ?_, ?_⟩
  · refine isDist_of_potential (π := fun v => TopocoreEx.dist5.getD v 0) TopocoreEx.wf (by decide +kernel) (by decide) (by decide) ?_
    exact .cons (d := 20) (w := 1) (v := 3) ⟨_, rfl, by decide⟩ (.cons (d := 10) (w := 10) (v := 4) ⟨_, rfl, by decide⟩ (.cons (d := 0) (w := 10) (v := 5) ⟨_, rfl, by decide⟩ (.nil _)))
  all_goals
    rintro ⟨a, b⟩
    cases a <;> cases b <;> simp only [show TopocoreEx.g.numNodes = 8 from by decide, key]

/-- **C58** is false for the degrees: on a connected graph whose biggest biconnected component has no node of degree two, nodes outside of it are taken for
nodes of degree two, and a fresh server finds no path, whether or not it searches in the core separately. -/
theorem C58_degrees_refuted : ∃ (g : FOGraph) (sv sv' : Topo.Server) (s t t' dist dist' : Nat), g.WF ∧ g.Bounded ∧ g.FewArcs ∧
    Topo.Server.new isort isort false g = some sv ∧ Topo.Server.new isort isort true g = some sv' ∧ s < g.numNodes ∧ t < g.numNodes ∧ t' < g.numNodes ∧
    IsDist g.Arc s t dist ∧ dist < INFINITY ∧ (sv.distance false ⟨true, true⟩ zeroPotential (DData.new g.numNodes ()) () s t).map (·.1) = some none ∧
    IsDist g.Arc s t' dist' ∧ dist' < INFINITY ∧ (sv'.distance true ⟨true, true⟩ zeroPotential (DData.new g.numNodes ()) () s t').map (·.1) = some none := by
  obtain ⟨sv, hsv⟩ := C58_preprocessing isort isort isort_ok isort_ok TopocoreEx.h TopocoreEx.hwf (by decide) false
  obtain ⟨sv', hsv'⟩ := C58_preprocessing isort isort isort_ok isort_ok TopocoreEx.h TopocoreEx.hwf (by decide) true
  have key : (Topo.Server.new isort isort false TopocoreEx.h).map (fun sv => (sv.distance false ⟨true, true⟩ zeroPotential (DData.new 8 ()) () 0 6).map (·.1)) = some (some none) := by
    decide +kernel
  have key' : (Topo.Server.new isort isort true TopocoreEx.h).map (fun sv => (sv.distance true ⟨true, true⟩ zeroPotential (DData.new 8 ()) () 0 5).map (·.1)) = some (some none) := by
    decide +kernel
  rw [hsv] at key
  rw [hsv'] at key'
  simp only [Option.map_some, Option.some.injEq] at key key'
  refine ⟨TopocoreEx.h, sv, sv', 0, 6, 5, 3, 3, TopocoreEx.hwf, TopocoreEx.hbounded, TopocoreEx.hfew, hsv, hsv', by decide, by decide, by decide,
    ?_, by decide, key, ?_, by decide, key'⟩
  · refine isDist_of_potential (π := fun v => [3, 3, 3, 2, 1, 2, 0, 2].getD v 0) TopocoreEx.hwf (by decide +kernel) (by decide) (by decide) ?_
    exact .cons (d := 2) (w := 1) (v := 3) ⟨_, rfl, by decide⟩ (.cons (d := 1) (w := 1) (v := 4) ⟨_, rfl, by decide⟩ (.cons (d := 0) (w := 1) (v := 6) ⟨_, rfl, by decide⟩ (.nil _)))
  · refine isDist_of_potential (π := fun v => [3, 3, 3, 2, 1, 0, 2, 2].getD v 0) TopocoreEx.hwf (by decide +kernel) (by decide) (by decide) ?_
    exact .cons (d := 2) (w := 1) (v := 3) ⟨_, rfl, by decide⟩ (.cons (d := 1) (w := 1) (v := 4) ⟨_, rfl, by decide⟩ (.cons (d := 0) (w := 1) (v := 5) ⟨_, rfl, by decide⟩ (.nil _)))
end Verif
