import Verif.Spec.CatchupGraph
/- Paths that CATCHUp returns, and what a hierarchy has to guarantee for them. -/
namespace Verif.Catchup
open Spec

/-- A path as it is returned: nodes with arrivals. From each entry, after waiting if need be, a road leads to the next one. -/
inductive Itinerary (R : Network) : Nat → Rat → List (Nat × Rat) → Nat → Rat → Prop where
  | last (u : Nat) (a : Rat) : Itinerary R u a [(u, a)] u a
  | step {u v w : Nat} {a τ b y : Rat} {l : List (Nat × Rat)} : a ≤ τ → R u v τ b → Itinerary R v b l w y → Itinerary R u a ((u, a) :: l) w y

/-- Edges, each with the arrival at its end, driven one directly after the other; `heads` are the ends of all edges. -/
def Rides (R : Network) (heads : List Nat) : Nat → Rat → List (Nat × Rat) → Nat → Rat → Prop
  | u, τ, [], v, y => u = v ∧ τ = y
  | u, τ, e :: es, v, y => ∃ w, heads[e.1]? = some w ∧ R u w τ e.2 ∧ Rides R heads w e.2 es v y

/-- Unpacking an arc leads from its start to its end, and takes no longer than evaluating it says. -/
def UnpackOK (G : Graph) (R : Network) (heads : List Nat) (depth : Nat) : Prop := ∀ (dir : Bool) (id : Nat) (a : Arc), (G.arcs dir)[id]? = some a →
  ∀ τ v, evalArc G depth dir id τ = some v → ∃ es y, unpackAt G depth dir id τ = some es ∧ y ≤ τ + v ∧ Rides R heads (a.src' dir) τ es (a.dst dir) y

/-- Leaving earlier on an arc does not mean arriving later. -/
def ArcsFifo (G : Graph) (depth : Nat) : Prop := ∀ (dir : Bool) (id : Nat) (τ τ' v v' : Rat), τ' ≤ τ → evalArc G depth dir id τ = some v →
  evalArc G depth dir id τ' = some v' → τ' + v' ≤ τ + v

end Verif.Catchup
