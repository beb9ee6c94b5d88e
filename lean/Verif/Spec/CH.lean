import Verif.Model.Graph
import Verif.Spec.Graph
/- Specification notions for contraction hierarchies. -/
namespace Verif.Spec

/-- No node has two outgoing arcs to the same other node. -/
def NoParallelArcs (links : Nat → Option (List Link)) : Prop :=
  ∀ u ls, links u = some ls → ((ls.filter (fun l => decide (l.node ≠ u))).map Link.node).Nodup

/-- Every arc between different nodes is a shortest path. -/
def ArcsAreShortest (A : Nat → Nat → Nat → Prop) : Prop := ∀ u v w d, A u v w → u ≠ v → Walk A u v d → w ≤ d

/-- Where there is a path, there is one shorter than `INFINITY`. -/
def DistancesFit (A : Nat → Nat → Nat → Prop) : Prop := ∀ u v d, Walk A u v d → ∃ d', d' < INFINITY ∧ Walk A u v d'

/-- The arcs `H` are the arcs and shortcuts of a contraction hierarchy (in original node ids) for the graph with arcs `A`: each of them
is a path of the graph, and for each path of the graph there is one that is not longer and consists of arcs to higher
ranks followed by arcs to lower ranks. -/
structure AugmentedBy (A : Nat → Nat → Nat → Prop) (rank : Nat → Option Nat) (H : Nat → Nat → Nat → Prop) : Prop where
  sound : ∀ u v w, H u v w → w < INFINITY → Walk A u v w
  covers : ∀ s t d, Walk A s t d → ∃ m a b, Walk (fun u v w => H u v w ∧ ∃ x y, rank u = some x ∧ rank v = some y ∧ x < y) s m a ∧
    Walk (fun u v w => H u v w ∧ ∃ x y, rank u = some x ∧ rank v = some y ∧ y < x) m t b ∧ a + b ≤ d

end Verif.Spec
