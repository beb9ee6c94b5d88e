import Verif.Spec.CatchupGraph
import Verif.Spec.TravelTime
/- What the main customization of CATCHUp is given: a chordal hierarchy and the roads of its arcs. -/
namespace Verif.Ftd
open Spec Catchup

/-- The arcs of a hierarchy of `n` nodes, from the lower to the higher node: sorted, no two of them alike, any two higher neighbours of a node are
neighbours, and the higher neighbours are ancestors in the elimination tree. -/
structure HierarchyOK (arcs : List (Nat × Nat)) (n : Nat) (parent : Nat → Option Nat) : Prop where
  up : ∀ (i : Nat) (a : Nat × Nat), arcs[i]? = some a → a.1 < a.2 ∧ a.2 < n
  sorted : ∀ (i j : Nat) (a b : Nat × Nat), i < j → arcs[i]? = some a → arcs[j]? = some b → a.1 ≤ b.1
  unique : ∀ (i j : Nat) (a : Nat × Nat), arcs[i]? = some a → arcs[j]? = some a → i = j
  chordal : ∀ x u v, (x, u) ∈ arcs → (x, v) ∈ arcs → u < v → (u, v) ∈ arcs
  par_lt : ∀ v w, parent v = some w → v < w ∧ w < n
  anc : ∀ a ∈ arcs, AncS parent a.1 a.2

/-- The roads: `ttf e` is the travel time function of road `e`; `fwd` and `bwd` have the road, if any, for each arc, upwards and downwards. Only
roads from a node to itself have no arc. -/
structure RoadsOK (roads : List (Nat × Nat × (Rat → Rat))) (ttf : Nat → Option (List Pt)) (arcs : List (Nat × Nat)) (fwd bwd : List (List Nat)) : Prop where
  road : ∀ (e : Nat) (r : Nat × Nat × (Rat → Rat)), roads[e]? = some r → ∃ p, ttf e = some p ∧ ValidTtf p ∧ ∀ τ, TravelTime p τ (r.2.2 τ)
  len : fwd.length = arcs.length ∧ bwd.length = arcs.length
  upward : ∀ (i : Nat) (es : List Nat), fwd[i]? = some es → es.length ≤ 1 ∧
    ∀ e ∈ es, ∃ r a, roads[e]? = some r ∧ arcs[i]? = some a ∧ r.1 = a.1 ∧ r.2.1 = a.2
  downward : ∀ (i : Nat) (es : List Nat), bwd[i]? = some es → es.length ≤ 1 ∧
    ∀ e ∈ es, ∃ r a, roads[e]? = some r ∧ arcs[i]? = some a ∧ r.1 = a.2 ∧ r.2.1 = a.1
  all : ∀ (e : Nat) (r : Nat × Nat × (Rat → Rat)), roads[e]? = some r → r.1 ≠ r.2.1 → ∃ (i : Nat) (es : List Nat),
    (arcs[i]? = some (r.1, r.2.1) ∧ fwd[i]? = some es ∧ e ∈ es) ∨ (arcs[i]? = some (r.2.1, r.1) ∧ bwd[i]? = some es ∧ e ∈ es)

end Verif.Ftd
