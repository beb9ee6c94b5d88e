import Verif.Proof.GraphOps3
import Verif.Proof.Unify
import Verif.Proof.Sort
import Verif.Props.Dijkstra
set_option linter.unusedSimpArgs false
set_option linter.unusedVariables false
/-
Properties C13 - C18: the adjacency array graph and its transformations.
-/
namespace Verif
open Spec GraphOps

/-- **C13.** Building a graph from adjacency lists (fewer than `u32::MAX - 1` nodes and arcs) succeeds, and iterating,
`degree`, `num_nodes` and `num_arcs` give back the lists. -/
theorem C13_from_adjacency_lists (adj : List (List Link)) (hn : adj.length + 1 < U32 - 1) (hm : adj.flatten.length < U32 - 1) :
    ∃ g, FOGraph.fromAdjacencyLists adj = some g ∧ g.numNodes = adj.length ∧ g.numArcs = adj.flatten.length ∧
      (∀ v, g.linkIter v = adj[v]?) ∧ (∀ v ls, adj[v]? = some ls → g.degree v = some ls.length) := by
  obtain ⟨g, h1, h2⟩ := FOGraph.fromAdjacencyLists_spec adj hn hm
  refine ⟨g, h1, h2.numNodes, h2.numArcs, h2.linkIter, ?_⟩
  intro v ls hv
  obtain ⟨hlt, rfl⟩ := List.getElem?_eq_some_iff.1 hv
  exact h2.degree hlt

/-- **C13.** A graph that is too large is refused. -/
theorem C13_too_large_rejected (adj : List (List Link)) (h : ¬ (adj.length + 1 < U32 - 1 ∧ adj.flatten.length < U32 - 1)) :
    FOGraph.fromAdjacencyLists adj = none := by
  have key : ∀ (ds : List Nat) s rest, FOGraph.degreesToFirstOut.go s ds = some rest → rest.length = ds.length := by
    intro ds
    induction ds with
    | nil => intro s rest h; simp [FOGraph.degreesToFirstOut.go] at h; simp [h]
    | cons d ds ih =>
      intro s rest h
      simp only [FOGraph.degreesToFirstOut.go, Option.bind_eq_bind, Option.bind_eq_some_iff] at h
      obtain ⟨x, _, r, h2, h3⟩ := h
      simp at h3; subst h3
      simp [ih _ _ h2]
  unfold FOGraph.fromAdjacencyLists FOGraph.degreesToFirstOut
  cases hgo : FOGraph.degreesToFirstOut.go 0 (adj.map List.length) with
  | none => simp
  | some rest =>
    have hl := key _ _ _ hgo
    simp only [Option.bind_eq_bind, Option.bind_some, FOGraph.new, Option.pure_def]
    rw [if_neg]
    rintro ⟨h1, h2, _⟩
    apply h
    simp only [List.length_cons, hl, List.length_map] at h1 h2
    exact ⟨h1, h2⟩

/-- **C13.** Arrays are accepted exactly if `first_out` starts with 0 and ends with the number of arcs, there are as many
weights as heads, and the sizes fit; the accepted graph consists of the given arrays. -/
theorem C13_constructor_checks (fo head weight : List Nat) (g : FOGraph) :
    FOGraph.new fo head weight = some g ↔
      (fo.length < U32 - 1 ∧ head.length < U32 - 1 ∧ fo.head? = some 0 ∧ fo.getLast? = some head.length ∧
        weight.length = head.length) ∧ g = ⟨fo, head, weight⟩ := by
  unfold FOGraph.new
  split
  · rename_i h; simp [h, eq_comm]
  · rename_i h; simp; intro h1 h2 h3 h4 h5; exact absurd ⟨h1, h2, h3, h4, h5⟩ h

example : (FOGraph.fromAdjacencyLists [[⟨1, 4⟩, ⟨2, 1⟩], [⟨3, 5⟩], [⟨1, 2⟩], [], []]) = some exGraph := by decide +kernel
example : FOGraph.new [0, 1, 3] [1, 0] [5, 6] = none := by decide +kernel
example : FOGraph.new [1, 1, 2] [1, 0] [5, 6] = none := by decide +kernel
example : FOGraph.new [0, 1, 2] [1, 0] [5] = none := by decide +kernel

/-- **C14.** The reversed graph is a valid graph on the same nodes and has the arc `v → u` of weight `w` exactly as often
as the graph has `u → v` of weight `w`. -/
theorem C14_reversed (g : FOGraph) (hg : g.WF) :
    ∃ r, reversed g.numNodes g.numArcs g.linkIter = some r ∧ r.WF ∧ r.numNodes = g.numNodes ∧ r.numArcs = g.numArcs ∧
      ∀ u v w, linkCount r.linkIter v u w = linkCount g.linkIter u v w :=
  reversed_spec hg

/-- **C14**, with edge ids: the links of `v` are, each once, the pairs `(u, e)` of an arc id `e` of an arc from `u` to `v`. -/
theorem C14_reversed_with_edge_ids (g : FOGraph) (hg : g.WF) :
    ∃ r, reversedWithEdgeIds g = some r ∧ ∀ v, v < g.numNodes → ∃ ls, r.linkIter v = some ls ∧ ls.Nodup ∧
      ∀ u e, (u, e) ∈ ls ↔ ∃ w, EdgeAt g.firstOut g.head g.weight e u v w := by
  obtain ⟨r, h1, h2⟩ := reversedWithEdgeIds_spec hg
  refine ⟨r, h1, ?_⟩
  intro v hv
  obtain ⟨ls, h3, h4, _, h5⟩ := h2 v hv
  refine ⟨ls, h3, h4, ?_⟩
  intro u e
  rw [h5]
  constructor
  · rintro ⟨a, b, h6, h7, h8, h9, h10⟩
    have : e < g.weight.length := by rw [hg.weights]; exact (List.getElem?_eq_some_iff.1 h10).1
    exact ⟨g.weight[e], a, b, h6, h7, h8, h9, h10, List.getElem?_eq_getElem this⟩
  · rintro ⟨w, a, b, h6, h7, h8, h9, h10, _⟩
    exact ⟨a, b, h6, h7, h8, h9, h10⟩

/-- **C14**, a consequence: walks are reversed, so distances from `t` in the reversed graph are distances to `t`. -/
theorem C14_reversed_distances (g : FOGraph) (hg : g.WF) :
    ∃ r, reversed g.numNodes g.numArcs g.linkIter = some r ∧ ∀ s t d, IsDist r.Arc t s d ↔ IsDist g.Arc s t d := by
  obtain ⟨r, h1, h2, h3, h4, h5⟩ := reversed_spec hg
  refine ⟨r, h1, ?_⟩
  have harc : ∀ (g : FOGraph) u v w, g.Arc u v w ↔ 0 < linkCount g.linkIter u v w := by
    intro g u v w
    unfold FOGraph.Arc linkCount
    rw [List.count_pos_iff]
    cases g.linkIter u <;> simp
  have hiff : ∀ u v w, r.Arc v u w ↔ g.Arc u v w := by intro u v w; rw [harc, harc, h5]
  have hwalk : ∀ s t d, Walk r.Arc t s d ↔ Walk g.Arc s t d := by
    intro s t d
    constructor
    · intro h
      induction h with
      | nil => exact .nil _
      | cons ha _ ih => rw [Nat.add_comm]; exact ih.snoc ((hiff _ _ _).1 ha)
    · intro h
      induction h with
      | nil => exact .nil _
      | cons ha _ ih => rw [Nat.add_comm]; exact ih.snoc ((hiff _ _ _).2 ha)
  intro s t d
  simp only [IsDist, hwalk]

example : exGraph.WF := exGraph_wf
example : reversed exGraph.numNodes exGraph.numArcs exGraph.linkIter = some ⟨[0, 0, 2, 3, 4, 4], [0, 2, 0, 1], [4, 2, 1, 5]⟩ := by
  decide +kernel
example : reversedWithEdgeIds exGraph = some ⟨[0, 0, 2, 3, 4, 4], [0, 2, 0, 1], [0, 3, 1, 2]⟩ := by decide +kernel

/-- **C14**, a disagreement: the view `InfinityFilteringGraph` reports the number of arcs of the unfiltered graph, so
reversing a filtered graph in which an arc was dropped panics in the constructor (witness: two nodes, one arc of weight
`INFINITY`). -/
theorem C14_reversing_filtered_graph_panics :
    let g : FOGraph := ⟨[0, 1, 1], [1], [INFINITY]⟩
    g.WF ∧ reversed g.numNodes g.numArcs (infinityFiltered g.linkIter) = none := by
  refine ⟨⟨by decide, by decide, by decide, by decide, ?_, by decide⟩, by decide +kernel⟩
  intro i a b h1 h2
  have : i < 2 := by
    have := (List.getElem?_eq_some_iff.1 h2).1
    simp at this; omega
  have : i = 0 ∨ i = 1 := by omega
  rcases this with rfl | rfl <;> simp at h1 h2 <;> omega

/-- **C15.** For every order and every sort that permutes and orders by key, `permutated` returns a valid graph with the
arcs of the original under renaming to ranks, with the same multiplicities, and the links of each node sorted by head. -/
theorem C15_permutated (srt : (Link → Nat) → List Link → List Link) (hs : SortOK srt) (g : FOGraph) (hg : g.WF)
    (xs : List Nat) (o : NodeOrder) (hx : xs.length = g.numNodes) (ho : NodeOrder.fromNodeOrder xs = some o) :
    ∃ p, permutated srt o g.linkIter = some p ∧ p.WF ∧ p.numNodes = g.numNodes ∧
      (∀ u v w r r', o.rank u = some r → o.rank v = some r' → linkCount p.linkIter r r' w = linkCount g.linkIter u v w) ∧
      (∀ r ls, p.linkIter r = some ls → ls.Pairwise (fun a b => a.node ≤ b.node)) := by
  have hok : o.OK g.numNodes := hx ▸ NodeOrder.ok_of_fromNodeOrder ho
  obtain ⟨p, A, h1, h2, h3, h4, h5⟩ := permutatedFiltered_spec hs hg hok (fun _ _ => true)
  refine ⟨p, h1, h2, h3, ?_, ?_⟩
  · intro u v w r r' hu hv
    rw [reps_linkCount h4, WF.linkCount hg, List.getD_eq_getElem?_getD, h5 u r hu, Option.getD_some,
      permutated_count hs hg hok hu hv]
    simp
  · intro r ls hls
    have hr : r < g.numNodes := by rw [← h3]; exact h2.tail_lt hls
    obtain ⟨v, _, _, hv⟩ := hok.node_lt hr
    rw [h4.linkIter, h5 v r hv] at hls
    simp at hls; subst hls
    unfold permLinks
    rw [List.pairwise_map]
    exact (hs _ _).2

/-- **C15**, `permutated_filtered`: exactly the arcs selected by the predicate on ranks are kept. -/
theorem C15_permutated_filtered (srt : (Link → Nat) → List Link → List Link) (hs : SortOK srt) (g : FOGraph) (hg : g.WF)
    (xs : List Nat) (o : NodeOrder) (hx : xs.length = g.numNodes) (ho : NodeOrder.fromNodeOrder xs = some o)
    (pred : Nat → Nat → Bool) :
    ∃ p, permutatedFiltered srt o g.linkIter pred = some p ∧ p.WF ∧ p.numNodes = g.numNodes ∧
      ∀ u v w r r', o.rank u = some r → o.rank v = some r' →
        linkCount p.linkIter r r' w = if pred r r' then linkCount g.linkIter u v w else 0 := by
  have hok : o.OK g.numNodes := hx ▸ NodeOrder.ok_of_fromNodeOrder ho
  obtain ⟨p, A, h1, h2, h3, h4, h5⟩ := permutatedFiltered_spec hs hg hok pred
  refine ⟨p, h1, h2, h3, ?_⟩
  intro u v w r r' hu hv
  rw [reps_linkCount h4, WF.linkCount hg, List.getD_eq_getElem?_getD, h5 u r hu, Option.getD_some,
    permutated_count hs hg hok hu hv]

private theorem arc_count (g : FOGraph) (u v w : Nat) : g.Arc u v w ↔ 0 < linkCount g.linkIter u v w := by
  unfold FOGraph.Arc linkCount
  rw [List.count_pos_iff]
  cases g.linkIter u <;> simp

/-- **C15**, distances are unchanged up to renaming. -/
theorem C15_distances (srt : (Link → Nat) → List Link → List Link) (hs : SortOK srt) (g : FOGraph) (hg : g.WF)
    (xs : List Nat) (o : NodeOrder) (hx : xs.length = g.numNodes) (ho : NodeOrder.fromNodeOrder xs = some o) :
    ∃ p, permutated srt o g.linkIter = some p ∧
      ∀ s t r r' d, o.rank s = some r → o.rank t = some r' → (IsDist p.Arc r r' d ↔ IsDist g.Arc s t d) := by
  obtain ⟨p, h1, h2, h3, h4, _⟩ := C15_permutated srt hs g hg xs o hx ho
  have hok : o.OK g.numNodes := hx ▸ NodeOrder.ok_of_fromNodeOrder ho
  refine ⟨p, h1, ?_⟩
  have harc : ∀ u v w r r', o.rank u = some r → o.rank v = some r' → (p.Arc r r' w ↔ g.Arc u v w) := by
    intro u v w r r' hu hv; rw [arc_count, arc_count, h4 u v w r r' hu hv]
  have hwalk : ∀ s t r r' d, o.rank s = some r → o.rank t = some r' → (Walk p.Arc r r' d ↔ Walk g.Arc s t d) := by
    intro s t r r' d hr hr'
    constructor
    · intro h
      induction h generalizing s with
      | nil => rw [hok.rank_inj hr hr']; exact .nil _
      | @cons a b c d w hab _ ih =>
        obtain ⟨ls, hl1, hl2⟩ := hab
        have hb := h2.mem_heads hl1 hl2
        rw [h3] at hb
        obtain ⟨v, _, _, hv⟩ := hok.node_lt hb
        exact .cons ((harc s v _ _ _ hr hv).1 ⟨ls, hl1, hl2⟩) (ih v hv hr')
    · intro h
      induction h generalizing r with
      | nil => rw [hr] at hr'; simp at hr'; subst hr'; exact .nil _
      | @cons a b c d w hab _ ih =>
        obtain ⟨ls, hl1, hl2⟩ := hab
        have hb := hg.mem_heads hl1 hl2
        obtain ⟨q, _, hq, _⟩ := hok.rank_lt hb
        exact .cons ((harc a b _ _ _ hr hq).2 ⟨ls, hl1, hl2⟩) (ih q hq hr')
  intro s t r r' d hr hr'
  simp only [IsDist, hwalk s t r r' _ hr hr']

example : NodeOrder.fromNodeOrder [2, 0, 3, 1, 4] = some ⟨[2, 0, 3, 1, 4], [1, 3, 0, 2, 4]⟩ := by decide +kernel
example : permutated isort ⟨[2, 0, 3, 1, 4], [1, 3, 0, 2, 4]⟩ exGraph.linkIter =
    some ⟨[0, 1, 3, 3, 4, 4], [3, 0, 3, 2], [2, 1, 4, 5]⟩ := by decide +kernel

/-- **C16.** `ch_split` returns two valid graphs on the same nodes; an arc `u → v` is in the upward graph, as often as
before, exactly if the rank of `u` is below that of `v`, and otherwise it is in the downward graph, reversed. -/
theorem C16_ch_split (g : FOGraph) (hg : g.WF) (xs : List Nat) (o : NodeOrder) (hx : xs.length = g.numNodes)
    (ho : NodeOrder.fromNodeOrder xs = some o) :
    ∃ up down, chSplit g.numNodes o g.linkIter = some (up, down) ∧ up.WF ∧ down.WF ∧
      up.numNodes = g.numNodes ∧ down.numNodes = g.numNodes ∧
      ∀ u v w r r', o.rank u = some r → o.rank v = some r' →
        (linkCount up.linkIter u v w = if r < r' then linkCount g.linkIter u v w else 0) ∧
        (linkCount down.linkIter v u w = if r < r' then 0 else linkCount g.linkIter u v w) := by
  have hok : o.OK g.numNodes := hx ▸ NodeOrder.ok_of_fromNodeOrder ho
  obtain ⟨up, down, h1, h2, h3, h4, h5, h6, h7⟩ := chSplit_spec hg hok
  refine ⟨up, down, h1, h2, h3, h4, h5, ?_⟩
  intro u v w r r' hu hv
  have e1 : rk o u = r := by simp [rk, hu]
  have e2 : rk o v = r' := by simp [rk, hv]
  exact ⟨by rw [h6, e1, e2], by rw [h7, e1, e2]⟩

example : chSplit 5 ⟨[2, 0, 3, 1, 4], [1, 3, 0, 2, 4]⟩ exGraph.linkIter =
    some (⟨[0, 1, 1, 2, 2, 2], [1, 1], [4, 2]⟩, ⟨[0, 0, 0, 1, 2, 2], [0, 1], [1, 5]⟩) := by decide +kernel

/-- **C17.** With weights up to `INFINITY`, `unify_parallel_edges` keeps the topology and gives every arc the minimum
weight of the arcs between the same two nodes. -/
theorem C17_unify_parallel_edges (g : FOGraph) (hg : g.WF) (hw : g.Bounded) :
    ∃ g', unifyParallelEdges g = some g' ∧ g'.firstOut = g.firstOut ∧ g'.head = g.head ∧
      ∀ e u v w, EdgeAt g.firstOut g.head g.weight e u v w → ∃ m, EdgeAt g'.firstOut g'.head g'.weight e u v m ∧
        (∃ e', EdgeAt g.firstOut g.head g.weight e' u v m) ∧
        (∀ e' w', EdgeAt g.firstOut g.head g.weight e' u v w' → m ≤ w') := by
  obtain ⟨g', h1, h2, h3, h4, h5⟩ := unify_spec hg hw
  refine ⟨g', h1, h2, h3, ?_⟩
  rintro e u v w ⟨a, b, x1, x2, x3, x4, x5, x6⟩
  obtain ⟨m, h6, h7, h8⟩ := h5 u a b e x1 x2 x3 x4
  refine ⟨m, ⟨a, b, by rw [h2]; exact x1, by rw [h2]; exact x2, x3, x4, by rw [h3]; exact x5, h6⟩, ?_, ?_⟩
  · obtain ⟨e', y1, y2, y3, y4⟩ := h7
    exact ⟨e', a, b, x1, x2, y1, y2, by rw [y3]; exact x5, y4⟩
  · rintro e' w' ⟨a', b', y1, y2, y3, y4, y5, y6⟩
    rw [x1] at y1; rw [x2] at y2; simp at y1 y2; subst y1; subst y2
    exact h8 e' w' y3 y4 (by rw [y5, x5]) y6

/-- **C17**, distances are unchanged. -/
theorem C17_distances (g : FOGraph) (hg : g.WF) (hw : g.Bounded) :
    ∃ g', unifyParallelEdges g = some g' ∧ g'.WF ∧ ∀ s t d, IsDist g'.Arc s t d ↔ IsDist g.Arc s t d := by
  obtain ⟨g', h1, h2, h3, h5⟩ := C17_unify_parallel_edges g hg hw
  obtain ⟨g'', h1', _, _, h4, _⟩ := unify_spec hg hw
  rw [h1] at h1'; simp at h1'; subst h1'
  have hg' : g'.WF := ⟨by rw [h2, h3]; exact hg.small, by rw [h2]; exact hg.first, by rw [h2, h3]; exact hg.last,
    by rw [h4, h3]; exact hg.weights, by rw [h2]; exact hg.mono, by rw [h3, FOGraph.numNodes, h2]; exact hg.heads⟩
  refine ⟨g', h1, hg', ?_⟩
  intro s t d
  apply isDist_dominated
  · intro u v w ha
    obtain ⟨a, b, e, x1, x2, x3, x4, x5, x6⟩ := hg'.arc_iff.1 ha
    rw [h2] at x1 x2; rw [h3] at x5
    have hlt : e < g.weight.length := by rw [hg.weights]; exact (List.getElem?_eq_some_iff.1 x5).1
    obtain ⟨m, ⟨a', b', _, _, _, _, _, y⟩, ⟨e', a2, b2, z1, z2, z3, z4, z5, z6⟩, _⟩ :=
      h5 e u v _ ⟨a, b, x1, x2, x3, x4, x5, List.getElem?_eq_getElem hlt⟩
    rw [x6] at y; simp at y; subst y
    exact ⟨w, Nat.le_refl _, hg.arc_iff.2 ⟨a2, b2, e', z1, z2, z3, z4, z5, z6⟩⟩
  · intro u v w ha
    obtain ⟨a, b, e, x⟩ := hg.arc_iff.1 ha
    obtain ⟨m, ⟨a', b', y⟩, _, hle⟩ := h5 e u v w ⟨a, b, x⟩
    exact ⟨m, hle e w ⟨a, b, x⟩, hg'.arc_iff.2 ⟨a', b', e, y⟩⟩

example : (unifyParallelEdges ⟨[0, 3, 4, 4], [1, 2, 1, 0], [7, 1, 3, 2]⟩) = some ⟨[0, 3, 4, 4], [1, 2, 1, 0], [3, 1, 3, 2]⟩ := by
  decide +kernel

/-- The hypothesis on weights is needed: larger weights are clipped to `INFINITY`. -/
example : (unifyParallelEdges ⟨[0, 1, 1], [1], [INFINITY + 1]⟩) = some ⟨[0, 1, 1], [1], [INFINITY]⟩ := by decide +kernel

/-- Number of allowed turns. -/
def turnCount (g : FOGraph) (turnCost : Nat → Nat → Option Nat) : Nat :=
  ((List.range g.numArcs).map (fun e => (((g.head[e]?).bind g.neighborEdgeIndices).getD []).countP (fun f => (turnCost e f).isSome))).sum

/-- **C18.** If weights plus turn costs fit into `u32` and there are fewer than `2^31` turns, `line_graph` returns a graph
with one node per arc and an arc from `e` to `f` of weight `w` exactly if `f` leaves the head of `e`, the turn is allowed
with cost `c`, and `w = weight(e) + c`. -/
theorem C18_line_graph (g : FOGraph) (hg : g.WF) (turnCost : Nat → Nat → Option Nat)
    (hov : ∀ e f w c, g.weight[e]? = some w → turnCost e f = some c → w + c < U32)
    (hsize : turnCount g turnCost < 2147483648) (hsize' : g.numArcs + 1 < U32 - 1) :
    ∃ lg, lineGraph g turnCost = some lg ∧ lg.WF ∧ lg.numNodes = g.numArcs ∧
      (∀ e ls, lg.linkIter e = some ls → (ls.map Link.node).Nodup) ∧
      ∀ e f x, lg.Arc e f x ↔ ∃ u v v' w w' c, EdgeAt g.firstOut g.head g.weight e u v w ∧
        EdgeAt g.firstOut g.head g.weight f v v' w' ∧ turnCost e f = some c ∧ x = w + c := by
  let L := (List.range g.numArcs).map (fun e =>
      turns turnCost e (g.weight.getD e 0) ((g.neighborEdgeIndices (g.head.getD e 0)).getD []))
  have hh : ∀ e, e < g.numArcs → g.head[e]? = some (g.head.getD e 0) ∧ g.weight[e]? = some (g.weight.getD e 0) := by
    intro e he
    have h1 : e < g.head.length := he
    have h2 : e < g.weight.length := by rw [hg.weights]; exact he
    simp [List.getElem?_eq_getElem h1, List.getElem?_eq_getElem h2]
  have hLlen : L.flatten.length = turnCount g turnCost := by
    simp only [L, turnCount, List.length_flatten, List.map_map]
    congr 1
    apply List.map_congr_left
    intro e he
    simp at he
    simp only [Function.comp, turns, (hh e he).1, Option.bind_some]
    generalize (g.neighborEdgeIndices (g.head.getD e 0)).getD [] = fs
    generalize g.weight.getD e 0 = we
    induction fs with
    | nil => rfl
    | cons f fs ih =>
      cases hc : turnCost e f <;> simp [List.filterMap_cons, hc, List.countP_cons, ih]
  obtain ⟨lg, h1, h2⟩ := lineGraph_spec hg turnCost hov L rfl (by rw [hLlen]; exact hsize) hsize'
  have hLl : L.length = g.numArcs := by simp [L]
  have hnei : ∀ v f, v < g.numNodes → (f ∈ (g.neighborEdgeIndices v).getD [] ↔ ∃ a b, g.firstOut[v]? = some a ∧ g.firstOut[v + 1]? = some b ∧ a ≤ f ∧ f < b) := by
    intro v f hv
    obtain ⟨a, b, x1, x2, _⟩ := hg.reps.csr.slice (v := v) (by rw [g.adj_length]; exact hv)
    simp only [FOGraph.neighborEdgeIndices, FOGraph.range, x1, x2, Option.bind_eq_bind, Option.bind_some, Option.pure_def,
      Option.getD_some, List.mem_map, List.mem_range]
    constructor
    · rintro ⟨i, hi, rfl⟩; exact ⟨a, b, rfl, rfl, by omega, by omega⟩
    · rintro ⟨a', b', h3, h4, h5, h6⟩; simp at h3 h4; subst h3; subst h4; exact ⟨f - a, by omega, by omega⟩
  have htail : ∀ e, e < g.numArcs → ∃ u a b, g.firstOut[u]? = some a ∧ g.firstOut[u + 1]? = some b ∧ a ≤ e ∧ e < b := by
    intro e he
    have hfl : e < g.adj.flatten.length := by rw [← hg.reps.numArcs]; exact he
    obtain ⟨u, j, l, x, y1, y2, y3, y4⟩ := flatten_index g.adj e hfl
    obtain ⟨hu, hul⟩ := List.getElem?_eq_some_iff.1 y1
    obtain ⟨a, b, x1, x2, x3, x4, x5, _⟩ := hg.reps.csr.slice hu
    have hj := (List.getElem?_eq_some_iff.1 y2).1
    rw [hul] at x4
    exact ⟨u, a, b, x1, x2, by omega, by omega⟩
  have hmem : ∀ (e : Nat) (ls : List Link) (l : Link), L[e]? = some ls → l ∈ ls → l.node < g.numArcs := by
    intro e ls l he hl
    have hel : e < g.numArcs := by have := (List.getElem?_eq_some_iff.1 he).1; omega
    simp only [L, List.getElem?_map, List.getElem?_range hel, Option.map_some, Option.some.injEq] at he
    subst he
    simp only [turns, List.mem_filterMap, Option.map_eq_some_iff] at hl
    obtain ⟨f, hf, c, hc, rfl⟩ := hl
    obtain ⟨a, b, _, y2, _, y4⟩ := (hnei _ f (hg.heads _ (List.mem_of_getElem? (hh e hel).1))).1 hf
    have := hg.le_m y2
    simp only [FOGraph.numArcs]; omega
  refine ⟨lg, h1, h2.wf (by omega) (by rw [hLlen]; simp only [U32]; omega) ?_, by rw [h2.numNodes, hLl], ?_, ?_⟩
  · intro ls hls l hl
    obtain ⟨e, he⟩ := List.mem_iff_getElem?.1 hls
    rw [hLl]; exact hmem e ls l he hl
  · intro e ls hls
    rw [h2.linkIter] at hls
    have hel : e < g.numArcs := by have := (List.getElem?_eq_some_iff.1 hls).1; omega
    simp only [L, List.getElem?_map, List.getElem?_range hel, Option.map_some, Option.some.injEq] at hls
    subst hls
    have hnd : ((g.neighborEdgeIndices (g.head.getD e 0)).getD []).Nodup := by
      cases hc : g.neighborEdgeIndices (g.head.getD e 0) with
      | none => simp
      | some es =>
        simp only [FOGraph.neighborEdgeIndices, Option.bind_eq_bind, Option.bind_eq_some_iff] at hc
        obtain ⟨⟨a, b⟩, _, hc⟩ := hc
        simp at hc; subst hc
        rw [Option.getD_some, List.Nodup, List.pairwise_map]
        exact List.nodup_range.imp (fun h => by omega)
    have hsub : ∀ (fs : List Nat), fs.Nodup → ((turns turnCost e (g.weight.getD e 0) fs).map Link.node).Nodup := by
      intro fs
      generalize g.weight.getD e 0 = we
      have heq : (turns turnCost e we fs).map Link.node = fs.filter (fun f => (turnCost e f).isSome) := by
        induction fs with
        | nil => rfl
        | cons f fs ih =>
          simp only [turns] at ih
          cases hc : turnCost e f <;> simp [turns, List.filterMap_cons, hc, List.filter_cons, ih]
      rw [heq]
      exact fun h => h.filter _
    exact hsub _ hnd
  · intro e f x
    constructor
    · rintro ⟨ls, hls, hl⟩
      rw [h2.linkIter] at hls
      have hel : e < g.numArcs := by have := (List.getElem?_eq_some_iff.1 hls).1; omega
      have hf := hmem e ls _ hls hl
      simp only at hf
      simp only [L, List.getElem?_map, List.getElem?_range hel, Option.map_some, Option.some.injEq] at hls
      subst hls
      simp only [turns, List.mem_filterMap, Option.map_eq_some_iff, Link.mk.injEq] at hl
      obtain ⟨f', hf', c, hc, rfl, rfl⟩ := hl
      obtain ⟨e1, e2⟩ := hh e hel
      obtain ⟨f1, f2⟩ := hh f' hf
      obtain ⟨u, a, b, y⟩ := htail e hel
      obtain ⟨a', b', y'⟩ := (hnei _ f' (hg.heads _ (List.mem_of_getElem? e1))).1 hf'
      exact ⟨u, _, _, _, _, c, ⟨a, b, y.1, y.2.1, y.2.2.1, y.2.2.2, e1, e2⟩, ⟨a', b', y'.1, y'.2.1, y'.2.2.1, y'.2.2.2, f1, f2⟩, hc, rfl⟩
    · rintro ⟨u, v, v', w, w', c, ⟨a, b, y1, y2, y3, y4, y5, y6⟩, ⟨a', b', z1, z2, z3, z4, z5, z6⟩, hc, rfl⟩
      have hel : e < g.numArcs := (List.getElem?_eq_some_iff.1 y5).1
      obtain ⟨e1, e2⟩ := hh e hel
      rw [y5] at e1; rw [y6] at e2; simp only [Option.some.injEq] at e1 e2
      refine ⟨turns turnCost e w ((g.neighborEdgeIndices v).getD []), ?_, ?_⟩
      · rw [h2.linkIter]
        simp only [L, List.getElem?_map, List.getElem?_range hel, Option.map_some, ← e1, ← e2]
      · simp only [turns, List.mem_filterMap, Option.map_eq_some_iff, Link.mk.injEq]
        exact ⟨f, (hnei v f (hg.heads v (List.mem_of_getElem? y5))).2 ⟨a', b', z1, z2, z3, z4⟩, c, hc, rfl, rfl⟩

/-- **C18**, walks in the line graph are exactly the walks over edges with allowed turns, with the same cost. -/
theorem C18_walks (g : FOGraph) (hg : g.WF) (turnCost : Nat → Nat → Option Nat)
    (hov : ∀ e f w c, g.weight[e]? = some w → turnCost e f = some c → w + c < U32)
    (hsize : turnCount g turnCost < 2147483648) (hsize' : g.numArcs + 1 < U32 - 1) :
    ∃ lg, lineGraph g turnCost = some lg ∧
      ∀ e f d, Walk lg.Arc e f d ↔ TurnWalk (EdgeAt g.firstOut g.head g.weight) turnCost e f d := by
  obtain ⟨lg, h1, _, _, _, h2⟩ := C18_line_graph g hg turnCost hov hsize hsize'
  refine ⟨lg, h1, ?_⟩
  intro e f d
  constructor
  · intro h
    induction h with
    | nil => exact .nil _
    | cons ha _ ih =>
      obtain ⟨u, v, v', w, w', c, x1, x2, x3, rfl⟩ := (h2 _ _ _).1 ha
      exact .cons x1 x2 x3 ih
  · intro h
    induction h with
    | nil => exact .nil _
    | cons x1 x2 x3 _ ih => exact .cons ((h2 _ _ _).2 ⟨_, _, _, _, _, _, x1, x2, x3, rfl⟩) ih

/-- Turn costs on the example graph: turning from arc 0 (0→1) costs 10, no other restriction but arc 3 to arc 2 forbidden. -/
def exTurn (e f : Nat) : Option Nat := if e = 3 ∧ f = 2 then none else if e = 0 then some 10 else some 0

example : turnCount exGraph exTurn < 2147483648 := by decide +kernel
example : lineGraph exGraph exTurn = some ⟨[0, 1, 2, 2, 2], [2, 3], [14, 1]⟩ := by decide +kernel

end Verif
