import Verif.Proof.DijkstraRanks
set_option linter.unusedSimpArgs false
set_option linter.unusedVariables false
/-
Properties C20 - C25 (C22 and C23: the part about Dijkstra).

`g.WF` is the well-formedness of adjacency arrays; weights are at most `INFINITY`, as everywhere in the code.
-/
namespace Verif
open Spec DData

/-- Weights are at most `INFINITY`. -/
def FOGraph.Bounded (g : FOGraph) : Prop := ∀ w ∈ g.weight, w ≤ INFINITY

/-- Queries between existing nodes (only the source has to exist). -/
def ValidQueries (g : FOGraph) (qs : List (Nat × Nat)) : Prop := ∀ q ∈ qs, q.1 < g.numNodes

/-- The data of a server that has answered some queries. -/
def ReachableServer {β : Type} (b : β) (g : FOGraph) (q : DData β → Nat → Nat → Option (Option Nat × DData β)) (d : DData β) : Prop :=
  ∃ qs rs, ValidQueries g qs ∧ queries q (DData.new g.numNodes b) qs = some (rs, d)

private theorem queries_spec {g : FOGraph} (hg : g.WF) (hw : g.Bounded) (qs : List (Nat × Nat)) (hq : ValidQueries g qs) :
    ∀ (d0 : DData Unit) (a0 : Abs Unit), Refines g.numNodes d0 a0 →
    ∃ rs d a, queries (query g) d0 qs = some (rs, d) ∧ Refines g.numNodes d a ∧
      List.Forall₂ (fun q r => Answer g.Arc q.1 q.2 r) qs rs := by
  induction qs with
  | nil => intro d0 a0 hr; exact ⟨[], d0, a0, rfl, hr, .nil⟩
  | cons q qs ih =>
    intro d0 a0 hr
    obtain ⟨s, t⟩ := q
    obtain ⟨r, d, a, S, h1, h2⟩ := query_done hg hw hr (hq (s, t) (by simp)) t
    obtain ⟨rs, d', a', h3, h4, h5⟩ := ih (fun q h => hq q (by simp [h])) d a h2.refines
    exact ⟨r :: rs, d', a', by simp [queries, h1, h3], h4, .cons (query_answer hg hw h2) h5⟩

private theorem reachable_refines {g : FOGraph} (hg : g.WF) (hw : g.Bounded) {d : DData Unit}
    (h : ReachableServer () g (query g) d) : ∃ a, Refines g.numNodes d a := by
  obtain ⟨qs, rs, h1, h2⟩ := h
  obtain ⟨rs', d', a', h3, h4, _⟩ := queries_spec hg hw qs h1 _ _ (refines_new g.numNodes ())
  rw [h2] at h3
  simp at h3
  exact ⟨a', h3.2 ▸ h4⟩

/-- **C20.** Every sequence of queries to a Dijkstra server is answered (no panic, no overflow), and every answer is
`some d` exactly for the shortest distance `d` below `INFINITY`. -/
theorem C20_dijkstra_exact (g : FOGraph) (hg : g.WF) (hw : g.Bounded) (qs : List (Nat × Nat)) (hq : ValidQueries g qs) :
    ∃ rs d, queries (query g) (DData.new g.numNodes ()) qs = some (rs, d) ∧
      List.Forall₂ (fun q r => Answer g.Arc q.1 q.2 r) qs rs := by
  obtain ⟨rs, d, a, h1, _, h3⟩ := queries_spec hg hw qs hq _ _ (refines_new g.numNodes ())
  exact ⟨rs, d, h1, h3⟩

/-- **C20**, the form for one query on a fresh server. -/
theorem C20_single_query (g : FOGraph) (hg : g.WF) (hw : g.Bounded) (s t : Nat) (hs : s < g.numNodes) :
    ∃ r d, query g (DData.new g.numNodes ()) s t = some (r, d) ∧ Answer g.Arc s t r := by
  obtain ⟨r, d, a, S, h1, h2⟩ := query_done hg hw (refines_new g.numNodes ()) hs t
  exact ⟨r, d, h1, query_answer hg hw h2⟩

/-- An example graph: arcs 0→1 (4), 0→2 (1), 2→1 (2), 1→3 (5); node 4 is isolated. -/
def exGraph : FOGraph := ⟨[0, 2, 3, 4, 4, 4], [1, 2, 3, 1], [4, 1, 5, 2]⟩

theorem exGraph_wf : exGraph.WF where
  small := by decide
  first := by decide
  last := by decide
  weights := by decide
  mono := by
    intro i a b h1 h2
    have : i < 5 := by
      have := (List.getElem?_eq_some_iff.1 h2).1
      simp [exGraph] at this; omega
    have : i = 0 ∨ i = 1 ∨ i = 2 ∨ i = 3 ∨ i = 4 := by omega
    rcases this with rfl | rfl | rfl | rfl | rfl <;> simp [exGraph] at h1 h2 <;> omega
  heads := by decide

theorem exGraph_bounded : exGraph.Bounded := by unfold FOGraph.Bounded; decide

example : ValidQueries exGraph [(0, 3), (0, 1), (3, 0), (4, 4)] := by unfold ValidQueries; decide
example : (queries (query exGraph) (DData.new exGraph.numNodes ()) [(0, 3), (0, 1), (3, 0), (4, 4)]).map Prod.fst =
    some [some 8, some 3, none, some 0] := by decide +kernel

/-- **C21.** After a query that reports a distance, `node_path` returns a node sequence of the graph from source to target
whose arcs sum up to that distance. -/
theorem C21_node_path (g : FOGraph) (hg : g.WF) (hw : g.Bounded) (d0 : DData Unit)
    (hd : ReachableServer () g (query g) d0) (s t : Nat) (hs : s < g.numNodes) :
    ∃ r d, query g d0 s t = some (r, d) ∧ ∀ x, r = some x →
      ∃ path, nodePath d s t = some path ∧ path.head? = some s ∧ path.getLast? = some t ∧ PathOf g.Arc path x := by
  obtain ⟨a0, hr⟩ := reachable_refines hg hw hd
  obtain ⟨r, d, a, S, h1, h2⟩ := query_done hg hw hr hs t
  refine ⟨r, d, h1, ?_⟩
  intro x hx
  rcases h2.res with ⟨h3, h4⟩ | ⟨_, h4, _⟩
  · obtain ⟨ns, as, h5, h6, _⟩ := paths_of_settled h2.refines h2.inv h3
    obtain ⟨h7, y, h8, h9⟩ := apath_static h5
    rw [h4] at hx
    simp at hx h8
    exact ⟨_, h6, h7, by simp, by rw [← hx, h8]; exact h9⟩
  · rw [h4] at hx; simp at hx

private theorem id_queries_spec {g : FOGraph} (hg : g.WF) (hw : g.Bounded) (qs : List (Nat × Nat)) (hq : ValidQueries g qs) :
    ∀ (d0 : DData Nat) (a0 : Abs Nat), Refines g.numNodes d0 a0 →
    ∃ rs d a, queries (queryWithLinkPath g) d0 qs = some (rs, d) ∧ Refines g.numNodes d a := by
  induction qs with
  | nil => intro d0 a0 hr; exact ⟨[], d0, a0, rfl, hr⟩
  | cons q qs ih =>
    intro d0 a0 hr
    obtain ⟨s, t⟩ := q
    obtain ⟨r, d, a, S, h1, h2⟩ := idQuery_done hg hw hr (hq (s, t) (by simp)) t
    obtain ⟨rs, d', a', h3, h4⟩ := ih (fun q h => hq q (by simp [h])) d a h2.refines
    exact ⟨r :: rs, d', a', by simp [queries, h1, h3], h4⟩

private theorem edgeWalk_snoc {fo hd wt : List Nat} {s u d e v w a b : Nat} {es : List Nat} (h : EdgeWalk fo hd wt s es u d)
    (h1 : fo[u]? = some a) (h2 : fo[u + 1]? = some b) (h3 : a ≤ e) (h4 : e < b) (h5 : hd[e]? = some v) (h6 : wt[e]? = some w) :
    EdgeWalk fo hd wt s (es ++ [e]) v (d + w) := by
  induction h with
  | nil => simpa using EdgeWalk.cons h1 h2 h3 h4 h5 h6 (.nil v)
  | cons g1 g2 g3 g4 g5 g6 _ ih =>
    rw [Nat.add_assoc]
    exact .cons g1 g2 g3 g4 g5 g6 (ih h1 h2)

private theorem apath_edges {g : FOGraph} (hg : g.WF) {s τ x : Nat} {ns : List Nat} {as : List (Link × Nat)}
    (h : APath (idProb g) s τ ns as x) :
    ∃ d t, x = τ + d ∧ ns.getLast? = some t ∧ EdgeWalk g.firstOut g.head g.weight s (as.map (idProb g).ops.predLink) t d := by
  induction h with
  | nil => exact ⟨0, s, rfl, rfl, .nil s⟩
  | @snoc ns as u x ls b h1 h2 h3 ih =>
    obtain ⟨d, t, h4, h5, h6⟩ := ih
    simp at h5; subst h5
    obtain ⟨_, a', b', h7, h8, h9, h10, h11, h12⟩ := hg.mem_linkIterIds (l := b.1) (e := b.2) h2 h3
    refine ⟨d + b.1.weight, b.1.node, by simp only [idProb]; omega, by simp [idProb, linkPathOps], ?_⟩
    rw [List.map_append]
    exact edgeWalk_snoc h6 h7 h8 h9 h10 h11 h12

/-- **C21.** The edge path: with `DefaultOpsWithLinkPath` the server returns the same distances, and `edge_path` lists ids
of arcs that form a walk from source to target of the reported length. -/
theorem C21_edge_path (g : FOGraph) (hg : g.WF) (hw : g.Bounded) (d0 : DData Nat)
    (hd : ReachableServer 0 g (queryWithLinkPath g) d0) (s t : Nat) (hs : s < g.numNodes) :
    ∃ r d, queryWithLinkPath g d0 s t = some (r, d) ∧ Answer g.Arc s t r ∧ ∀ x, r = some x →
      ∃ es, edgePath d s t = some es ∧ EdgeWalk g.firstOut g.head g.weight s es t x := by
  obtain ⟨qs, rs, hq1, hq2⟩ := hd
  obtain ⟨rs', d', a0, h3, hr⟩ := id_queries_spec hg hw qs hq1 _ _ (refines_new g.numNodes 0)
  rw [hq2] at h3; simp at h3
  obtain ⟨_, rfl⟩ := h3
  obtain ⟨r, d, a, S, h1, h2⟩ := idQuery_done hg hw hr hs t
  refine ⟨r, d, h1, idQuery_answer hg hw h2, ?_⟩
  intro x hx
  rcases h2.res with ⟨h3, h4⟩ | ⟨_, h4, _⟩
  · obtain ⟨ns, as, h5, _, h6⟩ := paths_of_settled h2.refines h2.inv h3
    obtain ⟨y, t', h7, h8, h9⟩ := apath_edges hg h5
    rw [h4] at hx
    simp at hx h7 h8
    subst h8
    exact ⟨_, h6, by rw [← hx, h7]; exact h9⟩
  · rw [h4] at hx; simp at hx

example : ReachableServer () exGraph (query exGraph) (DData.new exGraph.numNodes ()) := ⟨[], [], by simp [ValidQueries], rfl⟩
example : ReachableServer 0 exGraph (queryWithLinkPath exGraph) (DData.new exGraph.numNodes 0) := ⟨[], [], by simp [ValidQueries], rfl⟩
example : ((query exGraph (DData.new exGraph.numNodes ()) 0 3).bind (fun p => nodePath p.2 0 3)) = some [0, 2, 1, 3] := by
  decide +kernel
example : ((queryWithLinkPath exGraph (DData.new exGraph.numNodes 0) 0 3).bind (fun p => edgePath p.2 0 3)) = some [1, 3, 2] := by
  decide +kernel

/-- **C22** (Dijkstra). A query on a server that has answered any queries before gives the answer of a fresh server. -/
theorem C22_dijkstra_no_state_between_queries (g : FOGraph) (hg : g.WF) (hw : g.Bounded) (qs : List (Nat × Nat))
    (hq : ValidQueries g qs) :
    (queries (query g) (DData.new g.numNodes ()) qs).map Prod.fst =
      qs.mapM (fun q => (query g (DData.new g.numNodes ()) q.1 q.2).map Prod.fst) := by
  obtain ⟨rs, d, a, h1, _, h3⟩ := queries_spec hg hw qs hq _ _ (refines_new g.numNodes ())
  rw [h1]
  simp only [Option.map_some]
  symm
  clear h1
  induction h3 with
  | nil => rfl
  | @cons q r qs rs hqr _ ih =>
    obtain ⟨r', d', h4, h5⟩ := C20_single_query g hg hw q.1 q.2 (hq q (by simp))
    have := Answer.unique h5 hqr
    subst this
    simp [h4, ih (fun q h => hq q (by simp [h]))]

/-- **C23** (Dijkstra). With weights up to `INFINITY` no query panics; in the model every `u32` addition that overflows
makes the query return `none`. -/
theorem C23_dijkstra_no_overflow (g : FOGraph) (hg : g.WF) (hw : g.Bounded) (qs : List (Nat × Nat)) (hq : ValidQueries g qs) :
    queries (query g) (DData.new g.numNodes ()) qs ≠ none := by
  obtain ⟨rs, d, h, _⟩ := C20_dijkstra_exact g hg hw qs hq
  rw [h]; simp

/-- The model does notice overflow: with an arc weight of `u32::MAX` the same query fails. -/
example : query ⟨[0, 1, 2, 2], [1, 2], [1, 4294967295]⟩ (DData.new 3 ()) 0 2 = none := by decide +kernel

theorem one_to_all_answer {g : FOGraph} (hg : g.WF) (hw : g.Bounded) {s : Nat} {r : Option Nat} {d : DData Unit} {a : Abs Unit} {S : List Nat}
    (h2 : Done (staticProb g.numNodes g.linkIter (fun _ => 0)) s 0 g.numNodes (fun (_ : Unit) _ => True) r d () a S) {v : Nat} (hv : v < g.numNodes) :
    Answer g.Arc s v (if a.D v < INFINITY then some (a.D v) else none) := by
  have hp := staticProb_ok (hg.linksOK hw) (zero_feasible _)
  have hnS : g.numNodes ∉ S := fun h => Nat.lt_irrefl _ (h2.inv.sett _ h).1
  rcases h2.res with ⟨h3, _⟩ | ⟨_, _, h3⟩
  · exact absurd h3 hnS
  have hmin : ∀ y, TWalk (staticProb g.numNodes g.linkIter (fun _ => 0)).F s 0 v y → a.D v ≤ y := by
    intro y hy
    by_cases hyi : y < INFINITY
    · have hre : (staticProb g.numNodes g.linkIter (fun _ => 0)).Reach v := by intro u a x _ _; show (0:Nat) < INFINITY; decide
      rcases frontier hp h2.inv (Prob.walkG hre hy hyi) hyi (by show (0:Nat) < INFINITY; decide) with ⟨_, h⟩ | ⟨u, k, h, _⟩
      · exact h
      · rw [h3] at h; simp at h
    · have := h2.inv.ub v; omega
  apply static_answer (n := g.numNodes) (pi := fun _ => 0)
  intro x
  constructor
  · intro hx
    split at hx
    · rename_i hlt
      simp at hx; subst hx
      exact ⟨⟨h2.inv.walk v hlt, hmin⟩, hlt⟩
    · simp at hx
  · rintro ⟨⟨h4, h5⟩, h6⟩
    have h7 := hmin x h4
    have h8 : a.D v < INFINITY := by omega
    have := h5 _ (h2.inv.walk v h8)
    simp [h8]; omega

/-- **C24.** `one_to_all` computes the distance of every node (`INFINITY` if there is none below it). -/
theorem C24_one_to_all (g : FOGraph) (hg : g.WF) (hw : g.Bounded) (d0 : DData Unit)
    (hd : ReachableServer () g (query g) d0) (s : Nat) (hs : s < g.numNodes) :
    ∃ d, oneToAll g d0 s = some d ∧ ∀ v, v < g.numNodes →
      ∃ x, d.dist.get v = some x ∧ x ≤ INFINITY ∧ Answer g.Arc s v (if x < INFINITY then some x else none) := by
  obtain ⟨a0, hr⟩ := reachable_refines hg hw hd
  obtain ⟨r, d, a, S, h1, h2⟩ := query_done hg hw hr hs g.numNodes
  refine ⟨d, by simp [oneToAll, h1], ?_⟩
  intro v hv
  exact ⟨a.D v, h2.refines.get hv, h2.inv.ub v, one_to_all_answer hg hw h2 hv⟩

/-- **C24.** `ranks` reports Dijkstra ranks: there is an order of exactly the nodes reachable below `INFINITY`, by nondecreasing
distance, such that the callback is called exactly for the `2^k`-th nodes of the order, with their distances and exponents
`k`, by increasing `k`. -/
theorem C24_ranks (g : FOGraph) (hg : g.WF) (hw : g.Bounded) (d0 : DData Unit)
    (hd : ReachableServer () g (query g) d0) (s : Nat) (hs : s < g.numNodes) :
    ∃ (calls : List (Nat × Nat × Nat)) (d : DData Unit) (order : List Nat), ranks g d0 s = some (calls, d) ∧
      order.Nodup ∧ (∀ v, v ∈ order ↔ ∃ x, IsDist g.Arc s v x ∧ x < INFINITY) ∧
      order.Pairwise (fun u v => ∀ x y, IsDist g.Arc s u x → IsDist g.Arc s v y → x ≤ y) ∧
      (∀ v x k, (v, x, k) ∈ calls ↔ order[2 ^ k - 1]? = some v ∧ IsDist g.Arc s v x) ∧
      calls.Pairwise (fun a b => a.2.2 < b.2.2) := by
  obtain ⟨a0, hr⟩ := reachable_refines hg hw hd
  have hp := staticProb_ok (hg.linksOK hw) (zero_feasible _)
  obtain ⟨cs, d, a, order, h1, h2, h3, h4, h5⟩ := ranks_spec hg hw hr hs
  have hmem : ∀ v, v ∈ order → IsDist g.Arc s v (a.D v) := fun v hv => label_isDist hp h3 (by simpa using hv)
  refine ⟨cs, d, order, h1, (List.reverse_perm order).nodup_iff.1 h3.nodup, ?_, ?_, ?_, h5.sorted⟩
  · intro v
    constructor
    · intro hv; exact ⟨_, hmem v hv, (h3.sett v (by simpa using hv)).2.1⟩
    · rintro ⟨x, hx, hlt⟩
      have hw' : TWalk (rp g).F s 0 v x := static_walk.2 ⟨x, hx.1, by omega⟩
      have hre : (rp g).Reach v := by intro u b x _ _; show (0:Nat) < INFINITY; decide
      rcases frontier hp h3 (Prob.walkG hre hw' hlt) hlt (by show (0:Nat) < INFINITY; decide) with ⟨h, _⟩ | ⟨u, k, h, _⟩
      · simpa using h
      · rw [h4] at h; simp at h
  · have hso := h3.sorted
    rw [List.pairwise_reverse] at hso
    refine List.Pairwise.imp_of_mem ?_ hso
    intro u v hu hv hle x y hx hy
    rw [hx.unique (hmem u hu), hy.unique (hmem v hv)]
    simpa [Prob.lo, rp, staticProb] using hle
  · intro v x k
    rw [h5.mem]
    have hpos := Nat.two_pow_pos k
    constructor
    · rintro ⟨rfl, j, h6, h7⟩
      have : 2 ^ k - 1 = j := by omega
      exact ⟨by rw [this]; exact h6, hmem v (List.mem_of_getElem? h6)⟩
    · rintro ⟨h6, h7⟩
      exact ⟨h7.unique (hmem v (List.mem_of_getElem? h6)), _, h6, by omega⟩

example : (ranks exGraph (DData.new exGraph.numNodes ()) 0).map Prod.fst = some [(0, 0, 0), (2, 1, 1), (3, 8, 2)] := by
  decide +kernel
example : (oneToAll exGraph (DData.new exGraph.numNodes ()) 0).map (fun d => (List.range 5).map d.dist.get) =
    some [some 0, some 3, some 1, some 8, some INFINITY] := by decide +kernel

/-- **C25.** A* with a potential. `pot` may keep internal state (a cache), described by an invariant `I`; it answers
`π v`. The potential is at most the weight plus the potential of the head along every arc, and undefined only at nodes
from which the target cannot be reached below `INFINITY`. Then A* returns the exact answer. (The value at the target need
not even be zero.) -/
theorem C25_astar_exact (g : FOGraph) (hg : g.WF) (hw : g.Bounded) {σ : Type} (pot : σ → Nat → Option (σ × Option Nat))
    (I : σ → Prop) (π : Nat → Option Nat)
    (hpot : ∀ c v, I c → v < g.numNodes → ∃ c', pot c v = some (c', π v) ∧ I c')
    (hbound : ∀ v x, π v = some x → x < INFINITY)
    (s t : Nat) (hs : s < g.numNodes)
    (hfeas : ∀ u v w pu pv, g.Arc u v w → π u = some pu → π v = some pv → pu ≤ w + pv)
    (hreach : ∀ u d, Walk g.Arc u t d → d < INFINITY → π u ≠ none)
    (c : σ) (hc : I c) (d0 : DData Unit) (hd : ReachableServer () g (query g) d0) :
    ∃ r d c', distance g.numNodes g.linkIter defaultOps pot d0 c s 0 t = some (r, d, c') ∧ I c' ∧ Answer g.Arc s t r := by
  obtain ⟨a0, hr⟩ := reachable_refines hg hw hd
  let pi : Nat → Nat := fun v => (π v).getD INFINITY
  have hpi : ∀ v, pi v < INFINITY → π v = some (pi v) := by
    intro v h
    cases hv : π v with
    | none => simp [pi, hv] at h
    | some x => simp [pi, hv]
  have hf : FeasibleArc (LArc g.linkIter) pi := by
    intro u v w harc hu
    cases hv : π v with
    | none => simp [pi, hv]; simp [pi] at hu; omega
    | some x =>
      have := hfeas u v w _ x harc (hpi u hu) hv
      simpa [pi, hv] using this
  have hp := staticProb_ok (hg.linksOK hw) hf
  have hcb : CbOK (staticProb g.numNodes g.linkIter pi) s 0 (potCb pot) (fun c _ => I c) := by
    intro c D v l hI hv hl hinf _
    obtain ⟨c', h1, h2⟩ := hpot c v hI hv
    refine ⟨c', ?_, h2⟩
    simp only [potCb, h1, Option.bind_eq_bind, Option.bind_some, staticProb]
    cases hx : π v with
    | none => simp [pi, hx]
    | some x =>
      have hlt := hbound v x hx
      have h3 : add32 x l = some (x + l) := add32_of_lt (by simp only [INFINITY, U32] at *; omega)
      simp [pi, hx, hlt, h3, Nat.add_comm]
  obtain ⟨r, d, c', a, S, h1, h2⟩ := search_spec (t := t) (τ := 0) (c := c) hp hcb hr hs (by simp [INFINITY]) hc
  refine ⟨r, d, c', by simpa only [distance, staticProb] using h1, h2.j, ?_⟩
  apply static_answer (h2.earliest hp ?_)
  intro u b x hwalk hx
  obtain ⟨y, h3, h4⟩ := static_walk.1 hwalk
  have := hreach u y h3 (by omega)
  show pi u < INFINITY
  cases hu : π u with
  | none => exact absurd hu this
  | some z => simp [pi, hu]; exact hbound u z hu

/-- A potential on the example graph that is neither zero nor exact, undefined at node 4. -/
def exPot (c : Unit) (v : Nat) : Option (Unit × Option Nat) := some (c, if v = 4 then none else some ([7, 5, 6, 0][v]?.getD 0))

example : ∀ u v w pu pv, exGraph.Arc u v w → (exPot () u).map Prod.snd = some (some pu) → (exPot () v).map Prod.snd = some (some pv) →
    pu ≤ w + pv := by
  rintro u v w pu pv ⟨ls, h1, h2⟩ hu hv
  have hlt : u < 5 := exGraph_wf.tail_lt h1
  have : u = 0 ∨ u = 1 ∨ u = 2 ∨ u = 3 ∨ u = 4 := by omega
  rcases this with rfl | rfl | rfl | rfl | rfl <;>
    simp [FOGraph.linkIter, FOGraph.range, exGraph, slice] at h1 <;> subst h1 <;> simp at h2 <;>
    (try rcases h2 with h2 | h2) <;> (try obtain ⟨rfl, rfl⟩ := h2) <;> simp [exPot] at hu hv <;> omega
example : (distance 5 exGraph.linkIter defaultOps exPot (DData.new 5 ()) () 0 0 3).map (·.1) = some (some 8) := by
  decide +kernel

end Verif
