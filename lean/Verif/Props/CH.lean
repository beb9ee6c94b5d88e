import Verif.Proof.CHBuild
import Verif.Proof.CCHBuild
import Verif.Props.CCHPotential
set_option linter.unusedSimpArgs false
set_option linter.unusedVariables false
/- Properties C38, C39, C56: contraction hierarchies. -/
namespace Verif
open Spec DData CH
open CCH (UpDir CapMin answer_of_capMin)

/-! ### C38 -/

/-- The server answers with the shortest way that meets: for any two graphs and any history. -/
private theorem session_meet {n : Nat} {A : Nat → Nat → Nat → Prop} {fw bw : FOGraph} (hf : LinksOK n fw.linkIter) (hb : LinksOK n bw.linkIter)
    (hn : fw.numNodes = n) {order : NodeOrder} (ho : order.OK n)
    (hans : ∀ s t x y d, order.rank s = some x → order.rank t = some y → CapMin (Meet (LArc fw.linkIter) (LArc bw.linkIter) x y) d →
      Answer A s t (if d < INFINITY then some d else none)) :
    ∀ (qs : List (Nat × Nat)) (sv : Server), sv.forward = fw → sv.backward = bw → sv.order = order → (∃ a, Refines n sv.fd a) → (∃ b, Refines n sv.bd b) →
      (∀ q ∈ qs, q.1 < n ∧ q.2 < n) → ∃ rs, sv.session qs = some rs ∧ List.Forall₂ (fun q r => Answer A q.1 q.2 r) qs rs := by
  intro qs
  induction qs with
  | nil => intro sv _ _ _ _ _ _; exact ⟨[], rfl, .nil⟩
  | cons q qs ih =>
    intro sv h1 h2 h3 ⟨a, ha⟩ ⟨b, hb'⟩ hq
    obtain ⟨hq1, hq2⟩ := hq q (by simp)
    obtain ⟨x, hxn, hx, _⟩ := ho.rank_lt hq1
    obtain ⟨y, hyn, hy, _⟩ := ho.rank_lt hq2
    obtain ⟨d, sv', a', b', g1, g2, g3, g4, g5, g6, g7, g8⟩ := distance_spec (n := n) (by rw [h1]; exact hn) (by rw [h1]; exact hf) (by rw [h2]; exact hb) ha hb'
      (by rw [h3]; exact hx) (by rw [h3]; exact hy) hxn hyn
    obtain ⟨rs, k1, k2⟩ := ih sv' (by rw [g5, h1]) (by rw [g6, h2]) (by rw [g7, h3]) ⟨a', g3⟩ ⟨b', g4⟩ (fun q hq' => hq q (List.mem_cons_of_mem _ hq'))
    rw [h1, h2] at g2
    refine ⟨_ :: rs, by simp only [Server.session, g1, k1, Option.bind_eq_bind, Option.bind_some, Option.pure_def], .cons (hans _ _ _ _ _ hx hy g2) k2⟩

/-- **C38, queries.** On any hierarchy for a graph, every history of queries on one server succeeds, and every answer is exact. -/
theorem C38_queries_exact_on_hierarchy (n : Nat) (l : List Nat) (hl : l.length = n) (order : NodeOrder) (hord : NodeOrder.fromNodeOrder l = some order)
    (A : Nat → Nat → Nat → Prop) (ch : Hierarchy) (hfw : ch.forward.WF) (hbw : ch.backward.WF) (hnf : ch.forward.numNodes = n) (hnb : ch.backward.numNodes = n)
    (hh : HierarchyOf A order.rank ch.forward.Arc ch.backward.Arc) (qs : List (Nat × Nat)) (hq : ∀ q ∈ qs, q.1 < n ∧ q.2 < n) :
    ∃ rs, (Server.new ch order).session qs = some rs ∧ List.Forall₂ (fun q r => Answer A q.1 q.2 r) qs rs := by
  have hok : order.OK n := by rw [← hl]; exact NodeOrder.ok_of_fromNodeOrder hord
  have hf : UpDir n ch.forward := ⟨hfw, hnf, fun h => (hh.fUp _ _ _ h).1, fun h => (hh.fUp _ _ _ h).2⟩
  have hb : UpDir n ch.backward := ⟨hbw, hnb, fun h => (hh.bUp _ _ _ h).1, fun h => (hh.bUp _ _ _ h).2⟩
  have hlf : LinksOK n ch.forward.linkIter := by have := hfw.linksOK hf.bounded; rwa [hnf] at this
  have hlb : LinksOK n ch.backward.linkIter := by have := hbw.linksOK hb.bounded; rwa [hnb] at this
  refine session_meet hlf hlb hnf hok ?_ qs (Server.new ch order) rfl rfl rfl ?_ ?_ hq
  · intro s t x y d hx hy hd
    refine hierarchy_answer hh hx hy ⟨hd.ub, ?_, ?_⟩
    · intro hlt
      obtain ⟨m, a, b, h1, h2, h3⟩ := hd.sound hlt
      exact ⟨m, a, b, hf.walk.1 h1, hb.walk.1 h2, h3⟩
    · rintro d' ⟨m, a, b, h1, h2, h3⟩
      exact hd.le d' ⟨m, a, b, hf.walk.2 h1, hb.walk.2 h2, h3⟩
  · exact ⟨_, by simpa only [Server.new, hnf] using refines_new n ()⟩
  · exact ⟨_, by simpa only [Server.new, hnf] using refines_new n ()⟩

section
variable (g : FOGraph) (hg : g.WF) (hs : NoParallelArcs g.linkIter) (l : List Nat) (hl : l.length = g.numNodes) (order : NodeOrder)
  (hord : NodeOrder.fromNodeOrder l = some order)
include hg hs hl hord

/-- **C38, contraction.** For every graph without parallel arcs and every order: if the contraction ends without a panic, its result is a
hierarchy for the graph. -/
theorem C38_contraction_partial (ch : Hierarchy) (hc : contract g order = some ch) :
    ch.forward.WF ∧ ch.backward.WF ∧ ch.forward.numNodes = g.numNodes ∧ ch.backward.numNodes = g.numNodes ∧
      ExactHierarchyOf g.Arc order.rank ch.forward.Arc ch.backward.Arc :=
  contract_spec hg hs (by rw [← hl]; exact NodeOrder.ok_of_fromNodeOrder hord) hc

/-- **C38, contraction and queries.** If moreover no weight of the result exceeds `INFINITY`, every history of queries is answered exactly. -/
theorem C38_contraction_queries_partial (ch : Hierarchy) (hc : contract g order = some ch) (hbf : ch.forward.Bounded) (hbb : ch.backward.Bounded)
    (qs : List (Nat × Nat)) (hq : ∀ q ∈ qs, q.1 < g.numNodes ∧ q.2 < g.numNodes) :
    ∃ rs, (Server.new ch order).session qs = some rs ∧ List.Forall₂ (fun q r => Answer g.Arc q.1 q.2 r) qs rs := by
  obtain ⟨h1, h2, h3, h4, h5⟩ := C38_contraction_partial g hg hs l hl order hord ch hc
  refine C38_queries_exact_on_hierarchy g.numNodes l hl order hord g.Arc ch h1 h2 h3 h4 ⟨?_, ?_, h5.covers, fun s t x y d hx hy hd _ => h5.sound s t x y d hx hy hd⟩ qs hq
  · rintro u v w ⟨ls, p1, p2⟩
    exact ⟨h5.fUp u v w ⟨ls, p1, p2⟩, hbf _ (h1.mem_weights p1 p2)⟩
  · rintro u v w ⟨ls, p1, p2⟩
    exact ⟨h5.bUp u v w ⟨ls, p1, p2⟩, hbb _ (h2.mem_weights p1 p2)⟩

/-- **C38.** If all arcs are shortest paths and all distances fit, the contraction succeeds and every history of queries on the result is
answered exactly. -/
theorem C38_contract_and_query_exact (hn : g.numNodes * g.numNodes < U32 - 1) (ht : ArcsAreShortest g.Arc) (hf : DistancesFit g.Arc) :
    ∃ ch, contract g order = some ch ∧ HierarchyOf g.Arc order.rank ch.forward.Arc ch.backward.Arc ∧
      ∀ qs : List (Nat × Nat), (∀ q ∈ qs, q.1 < g.numNodes ∧ q.2 < g.numNodes) →
        ∃ rs, (Server.new ch order).session qs = some rs ∧ List.Forall₂ (fun q r => Answer g.Arc q.1 q.2 r) qs rs := by
  obtain ⟨ch, h1, h2, h3⟩ := contract_total hg hs (o := order) (by rw [← hl]; exact NodeOrder.ok_of_fromNodeOrder hord) hn ht hf
  obtain ⟨e1, e2, e3, e4, e5⟩ := C38_contraction_partial g hg hs l hl order hord ch h1
  have hbf : ch.forward.Bounded := by
    intro w hw
    obtain ⟨u, ls, l, p1, p2, rfl⟩ := e1.weight_link hw
    exact Nat.le_of_lt (h2 _ _ _ ⟨ls, p1, p2⟩)
  have hbb : ch.backward.Bounded := by
    intro w hw
    obtain ⟨u, ls, l, p1, p2, rfl⟩ := e2.weight_link hw
    exact Nat.le_of_lt (h3 _ _ _ ⟨ls, p1, p2⟩)
  exact ⟨ch, h1, ⟨fun u v w h => ⟨e5.fUp u v w h, Nat.le_of_lt (h2 u v w h)⟩, fun u v w h => ⟨e5.bUp u v w h, Nat.le_of_lt (h3 u v w h)⟩, e5.covers,
    fun s t x y d hx hy hd _ => e5.sound s t x y d hx hy hd⟩, fun qs hq => C38_contraction_queries_partial g hg hs l hl order hord ch h1 hbf hbb qs hq⟩

end

private theorem range_get {n i j : Nat} : (List.range n)[i]? = some j ↔ i < n ∧ i = j := by
  rw [List.getElem?_eq_some_iff]
  simp

/-- **C38, given shortcuts.** A server for an already augmented graph (with the identity as order of the server, as in `main.rs`): every
history of queries is answered exactly. -/
theorem C38_from_contracted_graph (h : FOGraph) (hg : h.WF) (hw : h.Bounded) (l : List Nat) (hl : l.length = h.numNodes) (order : NodeOrder)
    (hord : NodeOrder.fromNodeOrder l = some order) (A : Nat → Nat → Nat → Prop) (ha : AugmentedBy A order.rank h.Arc) :
    ∃ ch, fromContracted h order = some ch ∧ ∀ qs : List (Nat × Nat), (∀ q ∈ qs, q.1 < h.numNodes ∧ q.2 < h.numNodes) →
      ∃ rs, (Server.new ch (NodeOrder.identity h.numNodes)).session qs = some rs ∧ List.Forall₂ (fun q r => Answer A q.1 q.2 r) qs rs := by
  have hok : order.OK h.numNodes := by rw [← hl]; exact NodeOrder.ok_of_fromNodeOrder hord
  obtain ⟨up, down, h1, h2, h3, h4, h5, h6, h7⟩ := GraphOps.chSplit_spec hg hok
  refine ⟨⟨up, down, none⟩, by simp only [fromContracted, h1, Option.bind_eq_bind, Option.bind_some]; rfl, ?_⟩
  intro qs hq
  have hcount : ∀ (links : Nat → Option (List Link)) (u v w : Nat), LArc links u v w ↔ 0 < GraphOps.linkCount links u v w := by
    intro links u v w
    unfold GraphOps.linkCount
    rw [List.count_pos_iff]
    constructor
    · rintro ⟨ls, p1, p2⟩; rw [p1]; exact p2
    · intro hm
      cases hl : links u with
      | none => rw [hl] at hm; simp at hm
      | some ls => rw [hl] at hm; exact ⟨ls, hl, hm⟩
  have hup : ∀ u v w, LArc up.linkIter u v w ↔ h.Arc u v w ∧ GraphOps.rk order u < GraphOps.rk order v := by
    intro u v w
    rw [hcount, h6]
    have := hcount h.linkIter u v w
    split
    · rename_i hlt; rw [← this]; exact ⟨fun x => ⟨x, hlt⟩, fun x => x.1⟩
    · rename_i hlt; simp only [Nat.lt_irrefl, false_iff]; exact fun x => hlt x.2
  have hdown : ∀ u v w, LArc down.linkIter v u w ↔ h.Arc u v w ∧ ¬ GraphOps.rk order u < GraphOps.rk order v := by
    intro u v w
    rw [hcount, h7]
    have := hcount h.linkIter u v w
    split
    · rename_i hlt; simp only [Nat.lt_irrefl, false_iff]; exact fun x => x.2 hlt
    · rename_i hlt; rw [← this]; exact ⟨fun x => ⟨x, hlt⟩, fun x => x.1⟩
  have hbnd : ∀ u v w, h.Arc u v w → w ≤ INFINITY := by rintro u v w ⟨ls, p1, p2⟩; exact hw _ (hg.mem_weights p1 p2)
  have hlf : LinksOK h.numNodes up.linkIter := ⟨fun v hv => h2.total (by rw [h4]; exact hv), fun v ls x e1 e2 => by rw [← h4]; exact h2.mem_heads e1 e2,
    fun v ls x e1 e2 => hbnd _ _ _ ((hup v x.node x.weight).1 ⟨ls, e1, e2⟩).1⟩
  have hlb : LinksOK h.numNodes down.linkIter := ⟨fun v hv => h3.total (by rw [h5]; exact hv), fun v ls x e1 e2 => by rw [← h5]; exact h3.mem_heads e1 e2,
    fun v ls x e1 e2 => hbnd _ _ _ ((hdown x.node v x.weight).1 ⟨ls, e1, e2⟩).1⟩
  have hid : (NodeOrder.identity h.numNodes).OK h.numNodes := by
    refine ⟨by simp [NodeOrder.identity], ?_⟩
    refine ⟨by simp [NodeOrder.identity], ?_, ?_⟩
    · simp [NodeOrder.identity]
    · intro i j
      simp only [NodeOrder.identity]
      rw [range_get, range_get]
      constructor <;> rintro ⟨p1, p2⟩ <;> subst p2 <;> exact ⟨p1, rfl⟩
  have hsame : ∀ s x, (NodeOrder.identity h.numNodes).rank s = some x → s = x := by
    intro s x hx
    simp only [NodeOrder.identity, NodeOrder.rank] at hx
    rw [List.getElem?_range (by have := (List.getElem?_eq_some_iff.1 hx).1; simpa using this)] at hx
    simpa using hx
  refine session_meet hlf hlb h4 hid ?_ qs (Server.new ⟨up, down, none⟩ (NodeOrder.identity h.numNodes)) rfl rfl rfl ?_ ?_ hq
  · intro s t x y d hx hy hd
    have e1 := hsame _ _ hx
    have e2 := hsame _ _ hy
    subst e1 e2
    apply answer_of_capMin
    refine ⟨hd.ub, ?_, ?_⟩
    · intro hlt
      obtain ⟨m, a, b, p1, p2, p3⟩ := hd.sound hlt
      have q1 : ∀ {s m a}, Walk (LArc up.linkIter) s m a → a < INFINITY → Walk A s m a := by
        intro s m a hwk
        induction hwk with
        | nil u => intro _; exact .nil u
        | cons harc _ ih => intro hlt; exact (ha.sound _ _ _ ((hup _ _ _).1 harc).1 (by omega)).append (ih (by omega))
      have q2 : ∀ {t m b}, Walk (LArc down.linkIter) t m b → b < INFINITY → Walk A m t b := by
        intro t m b hwk
        induction hwk with
        | nil u => intro _; exact .nil u
        | cons harc _ ih => intro hlt; rw [Nat.add_comm]; exact (ih (by omega)).append (ha.sound _ _ _ ((hdown _ _ _).1 harc).1 (by omega))
      rw [p3]
      exact (q1 p1 (by omega)).append (q2 p2 (by omega))
    · intro d' hwk
      obtain ⟨m, a, b, p1, p2, p3⟩ := ha.covers s t d' hwk
      have q1 : ∀ {s m a}, Walk (fun u v w => h.Arc u v w ∧ ∃ x y, order.rank u = some x ∧ order.rank v = some y ∧ x < y) s m a →
          Walk (LArc up.linkIter) s m a := by
        intro s m a hwk
        induction hwk with
        | nil u => exact .nil u
        | cons harc _ ih =>
          obtain ⟨k1, x, y, k2, k3, k4⟩ := harc
          exact .cons ((hup _ _ _).2 ⟨k1, by simp only [GraphOps.rk, k2, k3, Option.getD_some]; exact k4⟩) ih
      have q2 : ∀ {m t b}, Walk (fun u v w => h.Arc u v w ∧ ∃ x y, order.rank u = some x ∧ order.rank v = some y ∧ y < x) m t b →
          Walk (LArc down.linkIter) t m b := by
        intro m t b hwk
        induction hwk with
        | nil u => exact .nil u
        | cons harc _ ih =>
          obtain ⟨k1, x, y, k2, k3, k4⟩ := harc
          have := Walk.snoc ih ((hdown _ _ _).2 ⟨k1, by simp only [GraphOps.rk, k2, k3, Option.getD_some]; omega⟩)
          rw [Nat.add_comm]; exact this
      have := hd.le (a + b) ⟨m, a, b, q1 p1, q2 p2, rfl⟩
      omega
  · exact ⟨_, by simpa only [Server.new, h4] using refines_new h.numNodes ()⟩
  · exact ⟨_, by simpa only [Server.new, h4] using refines_new h.numNodes ()⟩

/-! ### C39 -/

private theorem pathOuter_none {g : FOGraph} (hg : ∀ u w, ¬ g.Arc u u w) (hwf : g.WF) (preds : List (Nat × Unit)) (middle : List Nat) (last : Nat) (fuel m : Nat) {p : List Nat}
    (h : pathOuter g preds middle last fuel [m] = some p) : m = last ∧ p = [m] := by
  cases fuel with
  | zero => simp [pathOuter] at h
  | succ fuel =>
    rw [pathOuter] at h
    simp only [List.head?_cons, Option.bind_eq_bind, Option.bind_some] at h
    by_cases he : m = last
    · rw [if_pos he] at h
      simp at h
      exact ⟨he, h.symm⟩
    · rw [if_neg he] at h
      exfalso
      simp only [Option.bind_eq_some_iff] at h
      obtain ⟨next, h1, path, h2, _⟩ := h
      cases fuel with
      | zero => simp [pathInner] at h2
      | succ fuel =>
        rw [pathInner] at h2
        simp only [List.head?_cons, Option.bind_eq_bind, Option.bind_some, h1, Option.bind_eq_some_iff] at h2
        obtain ⟨es, h3, e, h4, _⟩ := h2
        have hlt : next.1 < g.numNodes := by
          unfold FOGraph.edgeIndices FOGraph.neighborEdgeIndices at h3
          simp only [Option.bind_eq_bind, Option.bind_eq_some_iff] at h3
          obtain ⟨_, ⟨⟨a, b⟩, h5, _⟩, _⟩ := h3
          unfold FOGraph.range at h5
          simp only [Option.bind_eq_bind, Option.bind_eq_some_iff] at h5
          obtain ⟨_, _, _, h6, _⟩ := h5
          have := (List.getElem?_eq_some_iff.1 h6).1
          simp only [FOGraph.numNodes]; omega
        obtain ⟨es', h5, h6⟩ := CCH.edgeIndices_spec hwf (v := next.1) hlt
        rw [h3] at h5; simp at h5; subst h5
        obtain ⟨w, hw⟩ := (h6 e).1 (List.mem_of_mem_head? h4)
        exact hg next.1 w ((CCH.edgeAt_arc hwf).2 ⟨_, hw⟩)

/-- **C39 is false.** On the result of any contraction, whatever the state of the server: reading a path between different nodes never
succeeds (it panics when it looks for an arc from a node to itself, or runs on). -/
theorem C39_path_panics (sv : Server) (hf : sv.forward.WF) (hb : sv.backward.WF) (hup : ∀ u v w, sv.forward.Arc u v w → u < v)
    (hub : ∀ u v w, sv.backward.Arc u v w → u < v) (fuel src dst : Nat) (hne : src ≠ dst) : sv.path fuel src dst = none := by
  cases h : sv.path fuel src dst with
  | none => rfl
  | some p =>
    exfalso
    unfold Server.path at h
    simp only [Option.bind_eq_bind, Option.bind_eq_some_iff] at h
    obtain ⟨⟨fm, bm⟩, _, fp, h1, bp, h2, _⟩ := h
    have := (pathOuter_none (fun u w hw => Nat.lt_irrefl _ (hup _ _ _ hw)) hf _ _ _ _ _ h1).1
    have := (pathOuter_none (fun u w hw => Nat.lt_irrefl _ (hub _ _ _ hw)) hb _ _ _ _ _ h2).1
    omega

/-- **C39, what remains.** A path that is returned is the path of one node from a node to itself, which is the node with the rank `src`. -/
theorem C39_returned_paths_partial (sv : Server) (hf : sv.forward.WF) (hb : sv.backward.WF) (hup : ∀ u v w, sv.forward.Arc u v w → u < v)
    (hub : ∀ u v w, sv.backward.Arc u v w → u < v) (fuel src dst : Nat) (p : List Nat) (h : sv.path fuel src dst = some p) :
    src = dst ∧ ∃ v, sv.order.node src = some v ∧ p = [v] := by
  unfold Server.path at h
  simp only [Option.bind_eq_bind, Option.bind_eq_some_iff] at h
  obtain ⟨⟨fm, bm⟩, _, fp, h1, bp, h2, h3⟩ := h
  obtain ⟨e1, e2⟩ := pathOuter_none (fun u w hw => Nat.lt_irrefl _ (hup _ _ _ hw)) hf _ _ _ _ _ h1
  obtain ⟨e3, e4⟩ := pathOuter_none (fun u w hw => Nat.lt_irrefl _ (hub _ _ _ hw)) hb _ _ _ _ _ h2
  refine ⟨by omega, ?_⟩
  rw [e2, e4, e1] at h3
  simp only [List.dropLast_singleton, List.reverse_singleton, List.nil_append, List.mapM_cons, List.mapM_nil, Option.bind_eq_bind, Option.bind_eq_some_iff,
    Option.pure_def, Option.some.injEq] at h3
  obtain ⟨v, h4, r, rfl, rfl⟩ := h3
  exact ⟨v, h4, rfl⟩

/-! ### C56 -/

/-- **C56, what holds.** Every arc of an overlay has the length of a path of the graph, so no distance gets too short. -/
theorem C56_overlay_sound_partial (g : FOGraph) (hg : g.WF) (hs : NoParallelArcs g.linkIter) (l : List Nat) (hl : l.length = g.numNodes) (order : NodeOrder)
    (hord : NodeOrder.fromNodeOrder l = some order) (count : Nat) (fw bw : FOGraph) (h : overlay g order count = some (fw, bw)) :
    (∀ s t x y w, order.rank s = some x → order.rank t = some y → fw.Arc x y w → Walk g.Arc s t w) ∧
    (∀ s t x y w, order.rank s = some x → order.rank t = some y → bw.Arc y x w → Walk g.Arc s t w) := by
  obtain ⟨_, _, _, _, h5, h6⟩ := overlay_spec hg hs (by rw [← hl]; exact NodeOrder.ok_of_fromNodeOrder hord) h
  exact ⟨h5, h6⟩

namespace CHExample

/-- arcs 0 → 1 (2), 0 → 2 (5), 1 → 2 (3), 2 → 0 (4) -/
def g : FOGraph := ⟨[0, 2, 3, 4], [1, 2, 2, 0], [2, 5, 3, 4]⟩
/-- arcs 0 → 1 (2), 0 → 2 (10), 0 → 2 (5), 1 → 2 (3) -/
def parallel : FOGraph := ⟨[0, 3, 4, 4], [1, 2, 2, 2], [2, 10, 5, 3]⟩
/-- arcs 0 → 1 (2), 1 → 2 (3), 1 → 0 (1), 2 → 1 (1) -/
def line : FOGraph := ⟨[0, 1, 3, 4], [1, 2, 0, 1], [2, 3, 1, 1]⟩
def nodes : List Nat := [1, 0, 2]
def order : NodeOrder := ⟨nodes, [1, 0, 2]⟩

theorem order_ok : NodeOrder.fromNodeOrder nodes = some order := by decide +kernel

private theorem wf_of {a b : Nat} {h ws : List Nat} (h1 : a ≤ b) (h2 : b ≤ h.length) (h3 : h.length < 100) (h4 : ws.length = h.length) (h5 : ∀ x ∈ h, x < 3) :
    (FOGraph.mk [0, a, b, h.length] h ws).WF := by
  refine ⟨by simp [U32]; omega, rfl, rfl, h4, ?_, by simpa [FOGraph.numNodes] using h5⟩
  intro i x y hx hy
  have hi : i < 3 := by
    have := (List.getElem?_eq_some_iff.1 hy).1
    simp at this; omega
  match i, hi with
  | 0, _ | 1, _ | 2, _ => simp at hx hy; omega

theorem g_wf : g.WF := wf_of (a := 2) (b := 3) (h := [1, 2, 2, 0]) (ws := [2, 5, 3, 4]) (by decide) (by decide) (by decide) rfl (by decide)
theorem parallel_wf : parallel.WF := wf_of (a := 3) (b := 4) (h := [1, 2, 2, 2]) (ws := [2, 10, 5, 3]) (by decide) (by decide) (by decide) rfl (by decide)
theorem line_wf : line.WF := wf_of (a := 1) (b := 3) (h := [1, 2, 0, 1]) (ws := [2, 3, 1, 1]) (by decide) (by decide) (by decide) rfl (by decide)

private theorem simple_of {g : FOGraph} (hg : g.WF) (h : ∀ u, u < g.numNodes → ((((g.linkIter u).getD []).filter (fun l : Link => decide (l.node ≠ u))).map Link.node).Nodup) :
    NoParallelArcs g.linkIter := by
  intro u ls hu
  have := h u (hg.tail_lt hu)
  rw [hu] at this
  exact this

theorem g_simple : NoParallelArcs g.linkIter := simple_of g_wf (by decide +kernel)
theorem line_simple : NoParallelArcs line.linkIter := simple_of line_wf (by decide +kernel)

/-- The distances of `g`. -/
private def dist (u v : Nat) : Nat := ([[0, 2, 5], [7, 0, 3], [4, 6, 0]].getD u []).getD v 0

private theorem g_arc {u v w : Nat} (h : g.Arc u v w) : (u, v, w) ∈ [(0, 1, 2), (0, 2, 5), (1, 2, 3), (2, 0, 4)] := by
  obtain ⟨ls, h1, h2⟩ := h
  have hu := g_wf.tail_lt h1
  have : ∀ u, u < 3 → ∀ l ∈ (g.linkIter u).getD [], (u, l.node, l.weight) ∈ [(0, 1, 2), (0, 2, 5), (1, 2, 3), (2, 0, 4)] := by decide +kernel
  have := this u hu ⟨v, w⟩ (by rw [h1]; exact h2)
  exact this

private theorem dist_le {u v d : Nat} (h : Walk g.Arc u v d) : u = v ∨ (u < 3 ∧ v < 3 ∧ dist u v ≤ d) := by
  induction h with
  | nil u => exact .inl rfl
  | @cons u x v w d ha hr ih =>
    have htri : ∀ a ∈ [(0, 1, 2), (0, 2, 5), (1, 2, 3), (2, 0, 4)], a.1 < 3 ∧ a.2.1 < 3 ∧ dist a.1 a.2.1 ≤ a.2.2 ∧
        ∀ t, t < 3 → dist a.1 t ≤ a.2.2 + dist a.2.1 t := by decide +kernel
    obtain ⟨t1, t2, t3, t4⟩ := htri _ (g_arc ha)
    simp only at t1 t2 t3 t4
    rcases ih with rfl | ⟨_, h2, h3⟩
    · exact .inr ⟨t1, t2, by omega⟩
    · have := t4 v h2
      exact .inr ⟨t1, h2, by omega⟩

theorem g_tight : ArcsAreShortest g.Arc := by
  intro u v w d ha hne hd
  have h1 : ∀ a ∈ [(0, 1, 2), (0, 2, 5), (1, 2, 3), (2, 0, 4)], a.2.2 ≤ dist a.1 a.2.1 := by decide +kernel
  have h2 := h1 _ (g_arc ha)
  rcases dist_le hd with h3 | ⟨_, _, h3⟩
  · exact absurd h3 hne
  · simp only at h2; omega

theorem g_fits : DistancesFit g.Arc := by
  intro u v d hd
  rcases dist_le hd with rfl | ⟨hu, hv, _⟩
  · exact ⟨0, by simp [INFINITY], .nil _⟩
  have a01 : g.Arc 0 1 2 := ⟨[⟨1, 2⟩, ⟨2, 5⟩], by decide +kernel, by simp⟩
  have a12 : g.Arc 1 2 3 := ⟨[⟨2, 3⟩], by decide +kernel, by simp⟩
  have a20 : g.Arc 2 0 4 := ⟨[⟨0, 4⟩], by decide +kernel, by simp⟩
  match u, v, hu, hv with
  | 0, 0, _, _ | 1, 1, _, _ | 2, 2, _, _ => exact ⟨0, by simp [INFINITY], .nil _⟩
  | 0, 1, _, _ => exact ⟨_, by simp [INFINITY], .cons a01 (.nil _)⟩
  | 1, 2, _, _ => exact ⟨_, by simp [INFINITY], .cons a12 (.nil _)⟩
  | 2, 0, _, _ => exact ⟨_, by simp [INFINITY], .cons a20 (.nil _)⟩
  | 0, 2, _, _ => exact ⟨_, by simp [INFINITY], .cons a01 (.cons a12 (.nil _))⟩
  | 1, 0, _, _ => exact ⟨_, by simp [INFINITY], .cons a12 (.cons a20 (.nil _))⟩
  | 2, 1, _, _ => exact ⟨_, by simp [INFINITY], .cons a20 (.cons a01 (.nil _))⟩

/-- Contracting node 1 adds no shortcut from 0 to 2 (there is an arc of the same length), and one server answers all queries. -/
example : ((contract g order).map fun ch => [ch.forward.head, ch.forward.weight, ch.backward.head, ch.backward.weight]) =
    some [[2, 2], [3, 5], [1, 2], [2, 4]] := by decide +kernel
example : ((contract g order).bind fun ch => (Server.new ch order).session [(0, 2), (2, 1), (1, 0), (1, 1)]) = some [some 5, some 6, some 7, some 0] := by
  decide +kernel

/-- The hypotheses of C38 hold here. -/
example := C38_contract_and_query_exact g g_wf g_simple nodes rfl order order_ok (by decide) g_tight g_fits

/-- An augmented graph for itself: with this order no shortcut is needed. -/
theorem g_augmented : AugmentedBy g.Arc order.rank g.Arc := by
  refine ⟨fun u v w h _ => by have := Walk.cons h (.nil v); simpa using this, ?_⟩
  intro s t d hd
  have a01 : g.Arc 0 1 2 := ⟨[⟨1, 2⟩, ⟨2, 5⟩], by decide +kernel, by simp⟩
  have a02 : g.Arc 0 2 5 := ⟨[⟨1, 2⟩, ⟨2, 5⟩], by decide +kernel, by simp⟩
  have a12 : g.Arc 1 2 3 := ⟨[⟨2, 3⟩], by decide +kernel, by simp⟩
  have a20 : g.Arc 2 0 4 := ⟨[⟨0, 4⟩], by decide +kernel, by simp⟩
  rcases dist_le hd with rfl | ⟨hu, hv, hle⟩
  · exact ⟨s, 0, 0, .nil _, .nil _, by omega⟩
  match s, t, hu, hv with
  | 0, 0, _, _ => exact ⟨0, 0, 0, .nil _, .nil _, by omega⟩
  | 1, 1, _, _ => exact ⟨1, 0, 0, .nil _, .nil _, by omega⟩
  | 2, 2, _, _ => exact ⟨2, 0, 0, .nil _, .nil _, by omega⟩
  | 0, 1, _, _ => exact ⟨0, 0, 2, .nil _, .cons ⟨a01, 1, 0, rfl, rfl, by omega⟩ (.nil _), by simpa [dist] using hle⟩
  | 0, 2, _, _ => exact ⟨2, 5, 0, .cons ⟨a02, 1, 2, rfl, rfl, by omega⟩ (.nil _), .nil _, by simpa [dist] using hle⟩
  | 1, 2, _, _ => exact ⟨2, 3, 0, .cons ⟨a12, 0, 2, rfl, rfl, by omega⟩ (.nil _), .nil _, by simpa [dist] using hle⟩
  | 2, 0, _, _ => exact ⟨2, 0, 4, .nil _, .cons ⟨a20, 2, 1, rfl, rfl, by omega⟩ (.nil _), by simpa [dist] using hle⟩
  | 1, 0, _, _ => exact ⟨2, 3, 4, .cons ⟨a12, 0, 2, rfl, rfl, by omega⟩ (.nil _), .cons ⟨a20, 2, 1, rfl, rfl, by omega⟩ (.nil _), by simpa [dist] using hle⟩
  | 2, 1, _, _ => exact ⟨2, 0, 4 + (2 + 0), .nil _, .cons ⟨a20, 2, 1, rfl, rfl, by omega⟩ (.cons ⟨a01, 1, 0, rfl, rfl, by omega⟩ (.nil _)), by simpa [dist] using hle⟩

example := C38_from_contracted_graph g g_wf (by unfold FOGraph.Bounded; decide) nodes rfl order order_ok g.Arc g_augmented
example : ((fromContracted g order).bind fun ch => (Server.new ch (NodeOrder.identity 3)).session [(0, 2), (2, 1), (1, 0), (1, 1)]) =
    some [some 5, some 6, some 7, some 0] := by decide +kernel

/-- After a query with a finite answer, reading the path fails. -/
example : ((contract line order).bind fun ch => ((Server.new ch order).distance 0 2).map fun p => (p.1, p.2.path 100 0 2)) = some (some 5, none) := by
  decide +kernel

/-- The hypotheses of C39 hold here. -/
example (ch : Hierarchy) (hc : contract line order = some ch) (fuel : Nat) : (Server.new ch order).path fuel 0 2 = none := by
  obtain ⟨h1, h2, _, _, h5⟩ := C38_contraction_partial line line_wf line_simple nodes rfl order order_ok ch hc
  exact C39_path_panics _ h1 h2 h5.fUp h5.bUp fuel 0 2 (by decide)

/-- Contracting one node of `line`, with a shortcut. -/
example : ((overlay line order 1).map fun p => [p.1.head, p.1.weight, p.2.head, p.2.weight]) = some [[2, 1, 2], [3, 1, 5], [1, 2, 2], [2, 1, 2]] := by
  decide +kernel

end CHExample

/-- **C38 is false with parallel arcs:** the contraction panics, on a graph of three nodes. -/
theorem C38_parallel_arcs_panic : ∃ (g : FOGraph) (l : List Nat) (order : NodeOrder), g.WF ∧ l.length = g.numNodes ∧ NodeOrder.fromNodeOrder l = some order ∧
    (∀ w ∈ g.weight, w ≤ 10) ∧ contract g order = none :=
  ⟨CHExample.parallel, CHExample.nodes, CHExample.order, CHExample.parallel_wf, rfl, CHExample.order_ok, by decide, by decide +kernel⟩

/-- **C56 is false:** an overlay without any contracted node loses arcs, so that nodes connected in the graph are not connected in
the overlay. -/
theorem C56_overlay_loses_paths : ∃ (g : FOGraph) (l : List Nat) (order : NodeOrder) (fw bw : FOGraph) (s t x y d : Nat), g.WF ∧ NoParallelArcs g.linkIter ∧
    l.length = g.numNodes ∧ NodeOrder.fromNodeOrder l = some order ∧ overlay g order 0 = some (fw, bw) ∧ order.rank s = some x ∧ order.rank t = some y ∧
    Walk g.Arc s t d ∧ ∀ d', ¬ Walk fw.Arc x y d' := by
  refine ⟨CHExample.line, CHExample.nodes, CHExample.order, ⟨[0, 2, 2, 2], [2, 1], [3, 1]⟩, ⟨[0, 2, 2, 2], [1, 2], [2, 1]⟩, 0, 2, 1, 2, 2 + (3 + 0), CHExample.line_wf,
    CHExample.line_simple, rfl, CHExample.order_ok, by decide +kernel, rfl, rfl, ?_, ?_⟩
  · have a01 : CHExample.line.Arc 0 1 2 := ⟨[⟨1, 2⟩], by decide +kernel, by simp⟩
    have a12 : CHExample.line.Arc 1 2 3 := ⟨[⟨2, 3⟩, ⟨0, 1⟩], by decide +kernel, by simp⟩
    exact .cons a01 (.cons a12 (.nil _))
  · intro d' h
    cases h with
    | cons ha _ =>
      obtain ⟨ls, h1, h2⟩ := ha
      have : (FOGraph.mk [0, 2, 2, 2] [2, 1] [3, 1]).linkIter 1 = some [] := by decide +kernel
      rw [this] at h1
      simp at h1; subst h1
      simp at h2

end Verif
