import Verif.Proof.BiDijkstra
import Verif.Proof.GraphOps
import Verif.Props.Dijkstra
set_option linter.unusedSimpArgs false
set_option linter.unusedVariables false
/-
Property C26: bidirectional Dijkstra; and two findings about bidirectional A* (C55).
-/
namespace Verif
open Spec DData BiD GraphOps

/-- Queries `(s, t, cap)` between existing nodes. -/
def ValidCapQueries (g : FOGraph) (qs : List (Nat × Nat × Nat)) : Prop := ∀ q ∈ qs, q.1 < g.numNodes ∧ q.2.1 < g.numNodes

private theorem arc_pos (g : FOGraph) (u v w : Nat) : g.Arc u v w ↔ 0 < linkCount g.linkIter u v w := by
  unfold FOGraph.Arc linkCount
  rw [List.count_pos_iff]
  cases g.linkIter u <;> simp

structure ServerOK (g : FOGraph) (sv : Server) : Prop where
  fw : sv.forward = g
  set : Setting g.numNodes g.linkIter sv.backward.linkIter
  fd : ∃ a, Refines g.numNodes sv.fd a
  bd : ∃ a, Refines g.numNodes sv.bd a

theorem new_ok {g : FOGraph} (hg : g.WF) (hw : g.Bounded) : ∃ sv, Server.new g = some sv ∧ ServerOK g sv := by
  obtain ⟨r, h1, h2, h3, h4, h5⟩ := GraphOps.reversed_spec hg
  have hrev : ∀ u v w, LArc r.linkIter v u w ↔ LArc g.linkIter u v w := by
    intro u v w
    have := arc_pos r v u w
    rw [h5, ← arc_pos] at this
    exact this
  refine ⟨⟨g, r, DData.new g.numNodes (), DData.new g.numNodes (), 0⟩, by simp [Server.new, h1], rfl, ⟨hg.linksOK hw, ?_, hrev⟩, ⟨_, refines_new _ ()⟩, ⟨_, refines_new _ ()⟩⟩
  refine ⟨?_, ?_, ?_⟩
  · intro v hv; exact h2.total (by rw [h3]; exact hv)
  · intro v ls l g1 g2; rw [← h3]; exact h2.mem_heads g1 g2
  · intro v ls l g1 g2
    obtain ⟨ls', g3, g4⟩ := (hrev l.node v l.weight).1 ⟨ls, g1, g2⟩
    have := hg.mem_weights g3 g4
    exact hw _ this

private theorem query_ok {δ : Type} {ch : Chooser δ} (hch : ch.OK) {g : FOGraph} {sv : Server} (h : ServerOK g sv) {s t : Nat}
    (hs : s < g.numNodes) (ht : t < g.numNodes) (cap : Nat) :
    ∃ r sv', sv.query zeroBi ch s t cap = some (r, sv') ∧ ServerOK g sv' ∧ CapAnswer g.Arc s t cap r ∧
      ∀ x, r = some x → ∃ p, sv'.nodePath s t = some p ∧ p.head? = some s ∧ p.getLast? = some t ∧ PathOf g.Arc p x := by
  obtain ⟨a, ha⟩ := h.fd
  obtain ⟨b, hb⟩ := h.bd
  obtain ⟨r, a', b', SF, SB, h1, h2⟩ := query_spec hch h.set hs ht cap sv.meet ha hb
  refine ⟨r.result, { sv with fd := r.fd, bd := r.bd, meet := r.meet }, ?_, ⟨h.fw, h.set, ⟨a', h2.rf⟩, ⟨b', h2.rb⟩⟩, h2.ans, ?_⟩
  · simp [Server.query, h.fw, h1]
  · intro x hx
    exact nodePath_spec h.set h2 hx

private theorem queries_ok {δ : Type} {ch : Chooser δ} (hch : ch.OK) {g : FOGraph} (qs : List (Nat × Nat × Nat))
    (hq : ValidCapQueries g qs) : ∀ sv, ServerOK g sv →
    ∃ rs sv', Server.queries zeroBi ch sv qs = some (rs, sv') ∧ ServerOK g sv' ∧
      List.Forall₂ (fun q r => CapAnswer g.Arc q.1 q.2.1 q.2.2 r) qs rs := by
  induction qs with
  | nil => intro sv h; exact ⟨[], sv, rfl, h, .nil⟩
  | cons q qs ih =>
    intro sv h
    obtain ⟨s, t, cap⟩ := q
    obtain ⟨hs, ht⟩ := hq (s, t, cap) (by simp)
    obtain ⟨r, sv1, h1, h2, h3, _⟩ := query_ok hch h hs ht cap
    obtain ⟨rs, sv2, h4, h5, h6⟩ := ih (fun q h => hq q (by simp [h])) sv1 h2
    exact ⟨r :: rs, sv2, by simp [Server.queries, h1, h4], h5, .cons h3 h6⟩

/-- **C26.** A bidirectional Dijkstra server with either strategy answers every sequence of queries without panic, and
every answer is exact below the cap of the query. -/
theorem C26_bidirectional_cap (g : FOGraph) (hg : g.WF) (hw : g.Bounded) (qs : List (Nat × Nat × Nat)) (hq : ValidCapQueries g qs) :
    (∃ sv rs sv', Server.new g = some sv ∧ Server.queries zeroBi minKeyDir sv qs = some (rs, sv') ∧
      List.Forall₂ (fun q r => CapAnswer g.Arc q.1 q.2.1 q.2.2 r) qs rs) ∧
    (∃ sv rs sv', Server.new g = some sv ∧ Server.queries zeroBi alternatingDirs sv qs = some (rs, sv') ∧
      List.Forall₂ (fun q r => CapAnswer g.Arc q.1 q.2.1 q.2.2 r) qs rs) := by
  obtain ⟨sv, h1, h2⟩ := new_ok hg hw
  obtain ⟨rs, sv1, h3, _, h4⟩ := queries_ok minKeyDir_ok qs hq sv h2
  obtain ⟨rs', sv2, h5, _, h6⟩ := queries_ok alternatingDirs_ok qs hq sv h2
  exact ⟨⟨sv, rs, sv1, h1, h3, h4⟩, ⟨sv, rs', sv2, h1, h5, h6⟩⟩

/-- The server after some queries. -/
def ReachableBi {δ : Type} (g : FOGraph) (ch : Chooser δ) (sv : Server) : Prop :=
  ∃ qs sv0 rs, ValidCapQueries g qs ∧ Server.new g = some sv0 ∧ Server.queries zeroBi ch sv0 qs = some (rs, sv)

private theorem reachable_ok {δ : Type} {ch : Chooser δ} (hch : ch.OK) {g : FOGraph} (hg : g.WF) (hw : g.Bounded) {sv : Server}
    (h : ReachableBi g ch sv) : ServerOK g sv := by
  obtain ⟨qs, sv0, rs, h1, h2, h3⟩ := h
  obtain ⟨sv1, h4, h5⟩ := new_ok hg hw
  rw [h2] at h4; simp at h4; subst h4
  obtain ⟨rs', sv2, h6, h7, _⟩ := queries_ok hch qs h1 sv0 h5
  rw [h3] at h6; simp at h6
  rw [h6.2]; exact h7

/-- **C26**, for one query without cap on a used server and any strategy that chooses a non-empty queue: the answer is
exact, and `node_path` is a path of this length. -/
theorem C26_bidirectional_exact {δ : Type} (ch : Chooser δ) (hch : ch.OK) (g : FOGraph) (hg : g.WF) (hw : g.Bounded) (sv : Server)
    (hsv : ReachableBi g ch sv) (s t : Nat) (hs : s < g.numNodes) (ht : t < g.numNodes) :
    ∃ r sv', sv.query zeroBi ch s t INFINITY = some (r, sv') ∧ Answer g.Arc s t r ∧
      ∀ x, r = some x → ∃ p, sv'.nodePath s t = some p ∧ p.head? = some s ∧ p.getLast? = some t ∧ PathOf g.Arc p x := by
  obtain ⟨r, sv', h1, _, h3, h4⟩ := query_ok hch (reachable_ok hch hg hw hsv) hs ht INFINITY
  exact ⟨r, sv', h1, cap_infinity h3, h4⟩

/-- **C26**: both strategies satisfy the condition. -/
theorem C26_strategies : minKeyDir.OK ∧ alternatingDirs.OK := ⟨minKeyDir_ok, alternatingDirs_ok⟩

example : ValidCapQueries exGraph [(0, 3, INFINITY), (0, 1, 2), (3, 0, INFINITY), (4, 4, INFINITY)] := by
  unfold ValidCapQueries; decide
example : ((Server.new exGraph).bind (fun sv => Server.queries zeroBi minKeyDir sv
    [(0, 3, INFINITY), (3, 0, INFINITY), (4, 4, INFINITY), (0, 1, 3)])).map Prod.fst = some [some 8, none, some 0, some 3] := by
  decide +kernel
example : ((Server.new exGraph).bind (fun sv => Server.queries zeroBi alternatingDirs sv
    [(0, 3, INFINITY), (3, 0, INFINITY), (4, 4, INFINITY), (0, 1, 3)])).map Prod.fst = some [some 8, none, some 0, some 3] := by
  decide +kernel
example : ((Server.new exGraph).bind (fun sv => (sv.query zeroBi alternatingDirs 0 3 INFINITY).bind (fun r => r.2.nodePath 0 3))) =
    some [0, 2, 1, 3] := by decide +kernel

/-! ### Bidirectional A* -/

/-- The potentials never overestimate and are consistent: `pf` for distances to `t`, `pb` for distances from `s`. -/
structure BiConsistent (A : Nat → Nat → Nat → Prop) (s t : Nat) (pf pb : Nat → Nat) : Prop where
  fw : ∀ u v w, A u v w → pf u ≤ w + pf v
  bw : ∀ u v w, A u v w → pb v ≤ w + pb u
  target : pf t = 0
  source : pb s = 0

/-- arcs 0→1 (1), 0→4 (10), 1→2 (1), 2→3 (1), 3→4 (2), 5→4 (3), 6→5 (1) -/
def altGraph : FOGraph := ⟨[0, 2, 3, 4, 5, 5, 6, 7], [1, 4, 2, 3, 4, 4, 5], [1, 10, 1, 1, 2, 3, 1]⟩

theorem altGraph_wf : altGraph.WF where
  small := by decide
  first := by decide
  last := by decide
  weights := by decide
  mono := by
    intro i a b h1 h2
    have : i < 7 := by
      have := (List.getElem?_eq_some_iff.1 h2).1
      simp [altGraph] at this; omega
    have : i = 0 ∨ i = 1 ∨ i = 2 ∨ i = 3 ∨ i = 4 ∨ i = 5 ∨ i = 6 := by omega
    rcases this with rfl | rfl | rfl | rfl | rfl | rfl | rfl <;> simp [altGraph] at h1 h2 <;> omega
  heads := by decide

/-- **C55**, negation: with the potential `SymmetricBiDirPotential` with improved pruning and alternating directions, the
server can report a distance that is too large although the potentials are consistent (here even zero): the forward search
settles the target with an outdated label after the better label was pruned, and this label is returned. -/
theorem C55_symmetric_alternating_wrong :
    ∃ (g : FOGraph) (s t : Nat) (pf pb : Nat → Nat) (sv sv' : Server) (d : Nat), g.WF ∧ g.Bounded ∧ s < g.numNodes ∧ t < g.numNodes ∧
      BiConsistent g.Arc s t pf pb ∧ Server.new g = some sv ∧ IsDist g.Arc s t 5 ∧
      sv.query (symmetricBi true (fun v => some (pf v)) (fun v => some (pb v))) alternatingDirs s t INFINITY = some (some d, sv') ∧
      d = 10 := by
  have hb : altGraph.Bounded := by unfold FOGraph.Bounded; decide
  obtain ⟨sv, h1, h2⟩ := new_ok altGraph_wf hb
  obtain ⟨r, sv1, h3, h4, _⟩ := C26_bidirectional_exact minKeyDir minKeyDir_ok altGraph altGraph_wf hb sv
    ⟨[], sv, [], by simp [ValidCapQueries], h1, rfl⟩ 0 4 (by decide) (by decide)
  have e1 : ((Server.new altGraph).bind (fun sv => sv.query zeroBi minKeyDir 0 4 INFINITY)).map Prod.fst = some (some 5) := by
    decide +kernel
  have e2 : ((Server.new altGraph).bind (fun sv => sv.query (symmetricBi true (fun v => some 0) (fun v => some 0)) alternatingDirs
      0 4 INFINITY)).map Prod.fst = some (some 10) := by decide +kernel
  rw [h1] at e1 e2
  simp only [Option.bind_some, h3, Option.map_some, Option.some.injEq] at e1
  simp only [Option.bind_some, Option.map_eq_some_iff] at e2
  obtain ⟨⟨r', sv2⟩, h5, h6⟩ := e2
  simp only at h6; subst h6
  exact ⟨altGraph, 0, 4, fun _ => 0, fun _ => 0, sv, sv2, 10, altGraph_wf, hb, by decide, by decide,
    ⟨fun _ _ _ _ => by omega, fun _ _ _ _ => by omega, rfl, rfl⟩, h1, ((h4 5).1 e1).1, h5, rfl⟩

/-- arcs 0→1 (1), 0→3 (10), 0→6 (1), 1→2 (1), 2→3 (1), 4→3 (1), 5→4 (1) -/
def altGraph2 : FOGraph := ⟨[0, 3, 4, 5, 5, 6, 7, 7], [1, 3, 6, 2, 3, 3, 4], [1, 10, 1, 1, 1, 1, 1]⟩

theorem altGraph2_wf : altGraph2.WF where
  small := by decide
  first := by decide
  last := by decide
  weights := by decide
  mono := by
    intro i a b h1 h2
    have : i < 7 := by
      have := (List.getElem?_eq_some_iff.1 h2).1
      simp [altGraph2] at this; omega
    have : i = 0 ∨ i = 1 ∨ i = 2 ∨ i = 3 ∨ i = 4 ∨ i = 5 ∨ i = 6 := by omega
    rcases this with rfl | rfl | rfl | rfl | rfl | rfl | rfl <;> simp [altGraph2] at h1 h2 <;> omega
  heads := by decide

/-- a consistent potential for distances to node 3 in `altGraph2` -/
def altPf (v : Nat) : Nat := if v = 1 then 2 else if v = 2 then 1 else 0

/-- **C55**, negation: the same without improved pruning. -/
theorem C55_symmetric_alternating_basic_wrong :
    ∃ (g : FOGraph) (s t : Nat) (pf pb : Nat → Nat) (sv sv' : Server) (d : Nat), g.WF ∧ g.Bounded ∧ s < g.numNodes ∧ t < g.numNodes ∧
      BiConsistent g.Arc s t pf pb ∧ Server.new g = some sv ∧ IsDist g.Arc s t 3 ∧
      sv.query (symmetricBi false (fun v => some (pf v)) (fun v => some (pb v))) alternatingDirs s t INFINITY = some (some d, sv') ∧
      d = 10 := by
  have hb : altGraph2.Bounded := by unfold FOGraph.Bounded; decide
  obtain ⟨sv, h1, h2⟩ := new_ok altGraph2_wf hb
  obtain ⟨r, sv1, h3, h4, _⟩ := C26_bidirectional_exact minKeyDir minKeyDir_ok altGraph2 altGraph2_wf hb sv
    ⟨[], sv, [], by simp [ValidCapQueries], h1, rfl⟩ 0 3 (by decide) (by decide)
  have e1 : ((Server.new altGraph2).bind (fun sv => sv.query zeroBi minKeyDir 0 3 INFINITY)).map Prod.fst = some (some 3) := by
    decide +kernel
  have e2 : ((Server.new altGraph2).bind (fun sv => sv.query (symmetricBi false (fun v => some (altPf v)) (fun v => some 0)) alternatingDirs
      0 3 INFINITY)).map Prod.fst = some (some 10) := by decide +kernel
  rw [h1] at e1 e2
  simp only [Option.bind_some, h3, Option.map_some, Option.some.injEq] at e1
  simp only [Option.bind_some, Option.map_eq_some_iff] at e2
  obtain ⟨⟨r', sv2⟩, h5, h6⟩ := e2
  simp only at h6; subst h6
  refine ⟨altGraph2, 0, 3, altPf, fun _ => 0, sv, sv2, 10, altGraph2_wf, hb, by decide, by decide,
    ⟨?_, fun _ _ _ _ => by omega, rfl, rfl⟩, h1, ((h4 3).1 e1).1, h5, rfl⟩
  have harcs : ∀ u, u < 7 → ∀ l ∈ (altGraph2.linkIter u).getD [], altPf u ≤ l.weight + altPf l.node := by decide +kernel
  rintro u v w ⟨ls, g1, g2⟩
  have hu : u < 7 := altGraph2_wf.tail_lt g1
  have := harcs u hu ⟨v, w⟩ (by rw [g1]; exact g2)
  simpa using this

/-- arcs 0→1 (10), 0→3 (22), 1→2 (1), 2→3 (10) -/
def avgGraph : FOGraph := ⟨[0, 2, 3, 4, 4], [1, 3, 2, 3], [10, 22, 1, 10]⟩

theorem avgGraph_wf : avgGraph.WF where
  small := by decide
  first := by decide
  last := by decide
  weights := by decide
  mono := by
    intro i a b h1 h2
    have : i < 4 := by
      have := (List.getElem?_eq_some_iff.1 h2).1
      simp [avgGraph] at this; omega
    have : i = 0 ∨ i = 1 ∨ i = 2 ∨ i = 3 := by omega
    rcases this with rfl | rfl | rfl | rfl <;> simp [avgGraph] at h1 h2 <;> omega
  heads := by decide

/-- a potential for distances from node 0 in `avgGraph` -/
def avgPb (v : Nat) : Nat := if v = 1 then 10 else if v = 2 then 11 else 0

/-- **C55**, negation: with `AveragePotential` the server can report a distance that is too large although the potentials are
consistent, because the averages are cut off at 0 and the stopping criterion does not account for it. -/
theorem C55_average_wrong :
    ∃ (g : FOGraph) (s t : Nat) (pf pb : Nat → Nat) (sv sv' : Server) (d : Nat), g.WF ∧ g.Bounded ∧ s < g.numNodes ∧ t < g.numNodes ∧
      BiConsistent g.Arc s t pf pb ∧ Server.new g = some sv ∧ IsDist g.Arc s t 21 ∧
      sv.query (averageBi false (fun v => some (pf v)) (fun v => some (pb v)) s t) minKeyDir s t INFINITY = some (some d, sv') ∧
      d = 22 := by
  have hb : avgGraph.Bounded := by unfold FOGraph.Bounded; decide
  obtain ⟨sv, h1, h2⟩ := new_ok avgGraph_wf hb
  obtain ⟨r, sv1, h3, h4, _⟩ := C26_bidirectional_exact minKeyDir minKeyDir_ok avgGraph avgGraph_wf hb sv
    ⟨[], sv, [], by simp [ValidCapQueries], h1, rfl⟩ 0 3 (by decide) (by decide)
  have e1 : ((Server.new avgGraph).bind (fun sv => sv.query zeroBi minKeyDir 0 3 INFINITY)).map Prod.fst = some (some 21) := by
    decide +kernel
  have e2 : ((Server.new avgGraph).bind (fun sv => sv.query (averageBi false (fun v => some 0) (fun v => some (avgPb v)) 0 3) minKeyDir
      0 3 INFINITY)).map Prod.fst = some (some 22) := by decide +kernel
  rw [h1] at e1 e2
  simp only [Option.bind_some, h3, Option.map_some, Option.some.injEq] at e1
  simp only [Option.bind_some, Option.map_eq_some_iff] at e2
  obtain ⟨⟨r', sv2⟩, h5, h6⟩ := e2
  simp only at h6; subst h6
  refine ⟨avgGraph, 0, 3, fun _ => 0, avgPb, sv, sv2, 22, avgGraph_wf, hb, by decide, by decide,
    ⟨fun _ _ _ _ => by omega, ?_, rfl, rfl⟩, h1, ((h4 21).1 e1).1, h5, rfl⟩
  have harcs : ∀ u, u < 4 → ∀ l ∈ (avgGraph.linkIter u).getD [], avgPb l.node ≤ l.weight + avgPb u := by decide +kernel
  rintro u v w ⟨ls, g1, g2⟩
  have hu : u < 4 := avgGraph_wf.tail_lt g1
  have := harcs u hu ⟨v, w⟩ (by rw [g1]; exact g2)
  simpa using this

end Verif
