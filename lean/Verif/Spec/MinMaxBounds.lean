import Verif.Model.MinMax
/- What the bounds stored for the arcs of a hierarchy mean. -/
namespace Verif
namespace MinMax
open Spec

/-- The graph with one of the bounds as weight. -/
def BGraph.proj (g : BGraph) (w : Bounds → Nat) : FOGraph := ⟨g.firstOut, g.head, g.bounds.map w⟩

/-- The arcs of the graph, as seen through `link_iter`. -/
def BArc (g : BGraph) (u v : Nat) (b : Bounds) : Prop := ∃ ls, g.links u = some ls ∧ (v, b) ∈ ls

/-- The bounds hold for the way from `x` to `y`: the live upper bound from the current time `now` on, the predicted one from the time
given with it. `INFINITY` bounds nothing. -/
structure Means (trip : Nat → Nat → Nat → Nat → Prop) (now x y : Nat) (b : Bounds) : Prop where
  live : b.liveUpper < INFINITY → TakesBetween trip x y b.lower b.liveUpper now
  pred : b.predictedUpper < INFINITY → TakesBetween trip x y b.lower b.predictedUpper (max now b.predictedFrom)

end MinMax
end Verif
