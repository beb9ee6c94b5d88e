import Verif.Model.Catchup
import Verif.Spec.UpDown
/- What a customized hierarchy has to guarantee to the CATCHUp query, and the servers a user can have. -/
namespace Verif.Catchup
open Spec

/-- ancestors (and the node itself) in the elimination tree -/
inductive AncS (par : Nat → Option Nat) (o : Nat) : Nat → Prop where
  | refl : AncS par o o
  | up {x y : Nat} : AncS par o x → par x = some y → AncS par o y

/-- start and end of an arc -/
def Arc.src' (a : Arc) (dir : Bool) : Nat := if dir then a.tail else a.head
def Arc.dst (a : Arc) (dir : Bool) : Nat := if dir then a.head else a.tail

/-- The arcs lead up in the elimination tree, and one can always be as fast as the upper bound of an arc, if it is finite. -/
structure BoundsOK (G : Graph) (R : Network) : Prop where
  par_lt : ∀ v w, G.parent v = some w → v < w ∧ w < G.n
  arc : ∀ dir, ∀ a ∈ G.arcs dir, a.tail < a.head ∧ AncS G.parent a.tail a.head ∧ 0 ≤ a.lo ∧ 0 ≤ a.up ∧
    (a.up < INF → ∀ τ, ∃ y, y ≤ τ + a.up ∧ Trip R (a.src' dir) τ (a.dst dir) y)

/-- the network of the arcs in one direction -/
def Graph.net (G : Graph) (depth : Nat) (dir : Bool) : Network := fun u v τ y =>
  ∃ (id : Nat) (a : Arc), (G.arcs dir)[id]? = some a ∧ a.src' dir = u ∧ a.dst dir = v ∧ ∃ x, evalArc G depth dir id τ = some x ∧ y = τ + x

/-- evaluating an arc returns the length of a trip, not less than the lower bound -/
def EvalOK (G : Graph) (R : Network) (depth : Nat) : Prop := ∀ (dir : Bool) (id : Nat) (a : Arc), (G.arcs dir)[id]? = some a →
  ∀ τ, ∃ v, evalArc G depth dir id τ = some v ∧ a.lo ≤ v ∧ Trip R (a.src' dir) τ (a.dst dir) (τ + v)

/-- rounds that suffice for the search -/
def enough (G : Graph) : Nat := 2 * (1 + (G.outgoing.length + G.incoming.length)) ^ G.n + 2

/-- the states of a server after any number of queries, lazy or not -/
inductive Used (G : Graph) (eps : Rat) : Server → Prop where
  | new : Used G eps .new
  | query {S S' : Server} {lzy : Bool} {depth fuel s t : Nat} {dep : Rat} {d : Option Rat} : Used G eps S → s < G.n → t < G.n → 0 ≤ dep → dep < INF →
      distance lzy eps G depth fuel S s t dep = some (d, S') → Used G eps S'

end Verif.Catchup
