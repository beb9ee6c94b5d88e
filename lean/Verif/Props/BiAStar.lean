import Verif.Proof.BiAStar
import Verif.Props.BiDijkstra
set_option linter.unusedSimpArgs false
set_option linter.unusedVariables false
/-
Property C55: bidirectional A* with `SymmetricBiDirPotential` and `ChooseMinKeyDir` is exact.
-/
namespace Verif
open Spec DData BiD GraphOps

/-- The value of a potential; `None` means that the node is not useful (unreachable). -/
def potVal (p : Nat → Option Nat) (v : Nat) : Nat := (p v).getD INFINITY

/-- A query `(s, t, cap)` with potentials that never overestimate and are consistent: `pf` for distances to `t`, `pb` for
distances from `s`. `W` bounds the weights, `P` the potentials, `X` the cap and the distance, so that no `u32` sum of the search
overflows. -/
structure AStarQuery (g : FOGraph) (pf pb : Nat → Option Nat) (s t cap : Nat) : Prop where
  source : s < g.numNodes
  target : t < g.numNodes
  fwLt : ∀ v x, pf v = some x → x < INFINITY
  bwLt : ∀ v x, pb v = some x → x < INFINITY
  cons : BiConsistent g.Arc s t (potVal pf) (potVal pb)
  small : ∃ W P X, (∀ u v w, g.Arc u v w → w ≤ W) ∧ (∀ v x, pf v = some x → x ≤ P) ∧ (∀ v x, pb v = some x → x ≤ P) ∧
    (cap < INFINITY → cap ≤ X) ∧ (∀ d, IsDist g.Arc s t d → d < INFINITY → d ≤ X) ∧ 2 * (X + W) + P < U32

private theorem opt_potVal {p : Nat → Option Nat} (h : ∀ v x, p v = some x → x < INFINITY) : BiA.opt (potVal p) = p := by
  funext v
  unfold BiA.opt potVal
  cases hv : p v with
  | none => simp
  | some x => simp [h v x hv]

private theorem potVal_le {p : Nat → Option Nat} (h : ∀ v x, p v = some x → x < INFINITY) (v : Nat) : potVal p v ≤ INFINITY := by
  unfold potVal
  cases hv : p v with
  | none => simp
  | some x => have := h v x hv; simp; omega

private theorem potVal_P {p : Nat → Option Nat} {P : Nat} (h : ∀ v x, p v = some x → x ≤ P) (v : Nat) (hv : potVal p v < INFINITY) : potVal p v ≤ P := by
  unfold potVal at *
  cases h0 : p v with
  | none => simp [h0] at hv
  | some x => have := h v x h0; simpa using this

private theorem aquery_ok {g : FOGraph} {sv : Server} (h : ServerOK g sv) (improved : Bool) {pf pb : Nat → Option Nat} {s t cap : Nat}
    (hq : AStarQuery g pf pb s t cap) :
    ∃ r sv', sv.query (symmetricBi improved pf pb) minKeyDir s t cap = some (r, sv') ∧ ServerOK g sv' ∧ CapAnswer g.Arc s t cap r ∧
      ∀ x, r = some x → ∃ p y, sv'.nodePath s t = some p ∧ p.head? = some s ∧ p.getLast? = some t ∧ PathOf g.Arc p y ∧ y ≤ x := by
  obtain ⟨a, ha⟩ := h.fd
  obtain ⟨b, hb⟩ := h.bd
  obtain ⟨W, P, X, h1, h2, h3, h4, h5, h6⟩ := hq.small
  have hctx : BiA.Ctx g.numNodes g.linkIter sv.backward.linkIter s t (potVal pf) (potVal pb) W P X cap
      (cap < INFINITY ∨ ∃ d, IsDist (LArc g.linkIter) s t d ∧ d < INFINITY) := by
    refine ⟨h.set, ⟨h.set.fw, hq.cons.fw, hq.cons.bw, potVal_le hq.fwLt, potVal_P h2, h1⟩,
      ⟨h.set.bw, ?_, ?_, potVal_le hq.bwLt, potVal_P h3, ?_⟩, hq.cons.target, hq.cons.source, h6, h4, h5, Iff.rfl⟩
    · intro u v w ha; exact hq.cons.bw v u w ((h.set.rev v u w).1 ha)
    · intro u v w ha; exact hq.cons.fw v u w ((h.set.rev v u w).1 ha)
    · intro u v w ha; exact h1 v u w ((h.set.rev v u w).1 ha)
  obtain ⟨r, g1, g2⟩ := BiA.query_spec (imp := improved) hctx hq.source hq.target sv.meet ha hb
  rw [opt_potVal hq.fwLt, opt_potVal hq.bwLt] at g1
  refine ⟨r.result, { sv with fd := r.fd, bd := r.bd, meet := r.meet }, by simp [Server.query, h.fw, g1],
    ⟨h.fw, h.set, g2.rf, g2.rb⟩, g2.ans, ?_⟩
  intro x hx
  exact g2.path x hx

/-- A sequence of queries with their own potentials, as the potential `SymmetricBiDirPotential`. -/
def aStarQueries (improved : Bool) (qs : List ((Nat → Option Nat) × (Nat → Option Nat) × Nat × Nat × Nat)) : List (BiPot × Nat × Nat × Nat) :=
  qs.map (fun q => (symmetricBi improved q.1 q.2.1, q.2.2.1, q.2.2.2.1, q.2.2.2.2))

private theorem aqueries_ok {g : FOGraph} (improved : Bool) (qs : List ((Nat → Option Nat) × (Nat → Option Nat) × Nat × Nat × Nat))
    (hq : ∀ q ∈ qs, AStarQuery g q.1 q.2.1 q.2.2.1 q.2.2.2.1 q.2.2.2.2) : ∀ sv, ServerOK g sv →
    ∃ rs sv', Server.queriesWith minKeyDir sv (aStarQueries improved qs) = some (rs, sv') ∧ ServerOK g sv' ∧
      List.Forall₂ (fun q r => CapAnswer g.Arc q.2.2.1 q.2.2.2.1 q.2.2.2.2 r) qs rs := by
  induction qs with
  | nil => intro sv h; exact ⟨[], sv, rfl, h, .nil⟩
  | cons q qs ih =>
    intro sv h
    obtain ⟨r, sv1, h1, h2, h3, _⟩ := aquery_ok h improved (hq q (by simp))
    obtain ⟨rs, sv2, h4, h5, h6⟩ := ih (fun q h => hq q (by simp [h])) sv1 h2
    refine ⟨r :: rs, sv2, ?_, h5, .cons h3 h6⟩
    simp only [aStarQueries] at h4
    simp [Server.queriesWith, aStarQueries, h1, h4]

/-- **C55**, for `SymmetricBiDirPotential` (with or without improved pruning) and `ChooseMinKeyDir`: any sequence of queries, each with
consistent potentials of its own, is answered without panic, and every answer is exact below the cap of the query. Missing for the full
property: `AveragePotential` and `AlternatingDirs`, for which it is false (below). -/
theorem C55_symmetric_minkey_partial (g : FOGraph) (hg : g.WF) (hw : g.Bounded) (improved : Bool)
    (qs : List ((Nat → Option Nat) × (Nat → Option Nat) × Nat × Nat × Nat))
    (hq : ∀ q ∈ qs, AStarQuery g q.1 q.2.1 q.2.2.1 q.2.2.2.1 q.2.2.2.2) :
    ∃ sv rs sv', Server.new g = some sv ∧ Server.queriesWith minKeyDir sv (aStarQueries improved qs) = some (rs, sv') ∧
      List.Forall₂ (fun q r => CapAnswer g.Arc q.2.2.1 q.2.2.2.1 q.2.2.2.2 r) qs rs := by
  obtain ⟨sv, h1, h2⟩ := new_ok hg hw
  obtain ⟨rs, sv1, h3, _, h4⟩ := aqueries_ok improved qs hq sv h2
  exact ⟨sv, rs, sv1, h1, h3, h4⟩

/-- **C55**, for one query without cap on a server used before: the answer is the distance, and `node_path` is a shortest path. -/
theorem C55_symmetric_minkey_path_partial (g : FOGraph) (hg : g.WF) (hw : g.Bounded) (improved : Bool)
    (qs : List ((Nat → Option Nat) × (Nat → Option Nat) × Nat × Nat × Nat))
    (hqs : ∀ q ∈ qs, AStarQuery g q.1 q.2.1 q.2.2.1 q.2.2.2.1 q.2.2.2.2) (sv0 sv : Server) (rs : List (Option Nat))
    (h0 : Server.new g = some sv0) (hrun : Server.queriesWith minKeyDir sv0 (aStarQueries improved qs) = some (rs, sv))
    (pf pb : Nat → Option Nat) (s t : Nat) (hq : AStarQuery g pf pb s t INFINITY) :
    ∃ r sv', sv.query (symmetricBi improved pf pb) minKeyDir s t INFINITY = some (r, sv') ∧ Answer g.Arc s t r ∧
      ∀ x, r = some x → ∃ p, sv'.nodePath s t = some p ∧ p.head? = some s ∧ p.getLast? = some t ∧ PathOf g.Arc p x := by
  obtain ⟨sv1, h1, h2⟩ := new_ok hg hw
  rw [h0] at h1; simp at h1; subst h1
  obtain ⟨rs', sv2, h3, h4, _⟩ := aqueries_ok improved qs hqs sv0 h2
  rw [hrun] at h3; simp at h3
  obtain ⟨_, rfl⟩ := h3
  obtain ⟨r, sv', g1, _, g2, g3⟩ := aquery_ok h4 improved hq
  have hans := cap_infinity g2
  refine ⟨r, sv', g1, hans, ?_⟩
  intro x hx
  obtain ⟨p, y, e1, e2, e3, e4, e5⟩ := g3 x hx
  refine ⟨p, e1, e2, e3, ?_⟩
  obtain ⟨s', t', w1, w2, w3⟩ := e4.walk
  rw [e2] at w1; rw [e3] at w2
  simp at w1 w2; subst w1; subst w2
  have hmin := ((hans x).1 hx).1.2 _ w3
  have : y = x := by omega
  rw [← this]; exact e4

/-! #### A concrete case -/

namespace BiAStarExample

/-- distances to node 3 in `avgGraph`; node 3 itself 0 -/
def pf (v : Nat) : Option Nat := if v = 0 then some 21 else if v = 1 then some 11 else if v = 2 then some 10 else if v = 3 then some 0 else none
/-- distances from node 0 in `avgGraph` -/
def pb (v : Nat) : Option Nat := if v = 0 then some 0 else if v = 1 then some 10 else if v = 2 then some 11 else if v = 3 then some 21 else none

theorem arcs {Q : Nat → Nat → Nat → Prop} (h : ∀ u, u < 4 → ∀ l ∈ (avgGraph.linkIter u).getD [], Q u l.node l.weight) (u v w : Nat)
    (ha : avgGraph.Arc u v w) : Q u v w := by
  obtain ⟨ls, g1, g2⟩ := ha
  have hu : u < 4 := avgGraph_wf.tail_lt g1
  exact h u hu ⟨v, w⟩ (by rw [g1]; exact g2)

theorem query_ok : AStarQuery avgGraph pf pb 0 3 INFINITY := by
  have hcons : BiConsistent avgGraph.Arc 0 3 (potVal pf) (potVal pb) :=
    ⟨arcs (by decide +kernel), arcs (by decide +kernel), by decide, by decide⟩
  have hb : ∀ (p : Nat → Option Nat), (p = pf ∨ p = pb) → ∀ v x, p v = some x → x ≤ 21 := by
    rintro p (rfl | rfl) v x h <;> simp only [pf, pb] at h <;> (repeat' split at h) <;> simp at h <;> omega
  refine ⟨by decide, by decide, fun v x h => ?_, fun v x h => ?_, hcons, 22, 21, 22, arcs (by decide +kernel), hb pf (.inl rfl), hb pb (.inr rfl), ?_, ?_, by decide⟩
  · have := hb pf (.inl rfl) v x h; simp only [INFINITY]; omega
  · have := hb pb (.inr rfl) v x h; simp only [INFINITY]; omega
  · intro h; exact absurd h (Nat.lt_irrefl _)
  · intro d hd _
    refine hd.2 22 ?_
    have : avgGraph.Arc 0 3 22 := ⟨_, rfl, by decide⟩
    simpa using Walk.cons this (.nil 3)

example : ((Server.new avgGraph).bind (fun sv => (sv.query (symmetricBi true pf pb) minKeyDir 0 3 INFINITY).bind
    (fun r => (r.2.nodePath 0 3).map (fun p => (r.1, p))))) = some (some 21, [0, 1, 2, 3]) := by decide +kernel
example : ((Server.new avgGraph).bind (fun sv => Server.queriesWith minKeyDir sv (aStarQueries true
    [(pf, pb, 0, 3, INFINITY), (pf, pb, 0, 3, 22), (pf, pb, 0, 3, 5)]))).map Prod.fst = some [some 21, some 21, none] := by decide +kernel

end BiAStarExample
end Verif
