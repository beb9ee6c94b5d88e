import Verif.Model.Penalty
import Verif.Spec.Alternatives
/- What the search for alternative routes expects of the search for shortest paths. -/
namespace Verif.Penalty
open Spec

/-- the longest distance for which `sharing_percent` does not overflow: 11.9 hours -/
def maxDist : Nat := 42949672

/-- A search that may be asked for: between nodes, in the graph with weights that are at least those of the graph, in both directions the same. -/
def ValidCall (g : FOGraph) (c : Call) : Prop :=
  c.s < g.numNodes ∧ c.t < g.numNodes ∧ (∃ ws : List Nat, ws.length = g.numArcs ∧ (∀ e, g.weight.getD e 0 ≤ ws.getD e 0) ∧ c.forward = ⟨g.firstOut, g.head, ws⟩) ∧
    GraphOps.reversed g.numNodes g.numArcs c.forward.linkIter = some c.backward

/-- The answer is a simple route from the one node to the other, not longer than its distance, which is at most `lim`. -/
structure FoundOK (lim : Nat) (c : Call) (f : Found) : Prop where
  route : Route c.forward.firstOut c.forward.head f.nodes f.edges
  source : f.nodes.head? = some c.s
  target : f.nodes.getLast? = some c.t
  simple : f.nodes.Nodup
  len : lenOf c.forward.weight f.edges ≤ f.dist
  short : f.dist ≤ lim

/-- The contract of the search. With debug assertions the first search has to be exact. -/
def SearchOK (dbg : Bool) (lim : Nat) (g : FOGraph) (ask : Search) : Prop :=
  ∀ i c f, ValidCall g c → ask i c = some f → FoundOK lim c f ∧
    (dbg = true → c.forward = g → c.potCap = none →
      ∀ ns es, Route g.firstOut g.head ns es → ns.head? = some c.s → ns.getLast? = some c.t → f.dist ≤ lenOf g.weight es)

/-- The contract of the search in the graph of alternatives: no distance for which `d * 25` overflows. -/
def SubOK (sub : Bits.FastClear → Nat → Nat → Option Nat) : Prop := ∀ c u v d, sub c u v = some d → d ≤ 171798691

/-- A simple route from `a` to `b` of which more than a fifth is not on the edges `used`. -/
structure AltRoute (g : FOGraph) (a b : Nat) (used ns es : List Nat) : Prop where
  route : Route g.firstOut g.head ns es
  source : ns.head? = some a
  target : ns.getLast? = some b
  simple : ns.Nodup
  new : lenOf g.weight es < 5 * newLen g.weight used es

/-- Routes from `a` to `b`, each of which has more than a fifth of its length on edges that neither `used` nor the routes before it have. -/
inductive AltRoutes (g : FOGraph) (a b : Nat) : List Nat → List (List Nat) → List (List Nat) → Prop
  | nil (used : List Nat) : AltRoutes g a b used [] []
  | cons {used ns es : List Nat} {nss ess : List (List Nat)} : AltRoute g a b used ns es → AltRoutes g a b (used ++ es) nss ess →
      AltRoutes g a b used (ns :: nss) (es :: ess)

/-- What a reply has to satisfy. The first path between the places where source and target enter the core is one that the search answered. `one`: a path
of the input, not longer than 5/4 of the first path, more than a fifth of it not on the first path. `many`: at most five paths of the core, each with
more than a fifth that is new; only the last may be longer than 5/4 of the first path. -/
def ReplyOK (g : FOGraph) (sv : Server) (ask : Search) : Query → Reply → Prop
  | .one s t, .one r => ∃ a b, enter sv.topo s = some a ∧ enter sv.topo t = some b ∧
      ∀ p, r = some p → ∃ k first ns es, ask k ⟨sv.orig, sv.backward, a, b, INFINITY, none⟩ = some first ∧ ns.mapM sv.topo.order.node = some p ∧
        AltRoute sv.orig a b first.edges ns es ∧ 4 * lenOf sv.orig.weight es ≤ 5 * first.dist ∧ PathOf g.Arc p (lenOf sv.orig.weight es)
  | .many s t, .many r => ∃ a b k, enter sv.topo s = some a ∧ enter sv.topo t = some b ∧
      match ask k ⟨sv.orig, sv.backward, a, b, INFINITY, none⟩, r with
      | none, r => r = none
      | some _, none => False
      | some first, some nss => nss.length ≤ 5 ∧ ∃ ess, AltRoutes sv.orig a b first.edges nss ess ∧ ∀ es ∈ ess.dropLast, 4 * lenOf sv.orig.weight es ≤ 5 * first.dist
  | .graph s t, .graph r => ∃ a b k, enter sv.topo s = some a ∧ enter sv.topo t = some b ∧
      (r = none ↔ ask k ⟨sv.orig, sv.backward, a, b, INFINITY, none⟩ = none)
  | _, _ => False

end Verif.Penalty
