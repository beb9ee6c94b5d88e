import Verif.Model.Graph
/- Vocabulary for the properties of graph transformations. -/
namespace Verif

/-- How often the link ⟨v, w⟩ is reported for node `u` by an adjacency function (a node that does not exist has no
links). Two graphs with equal counts have the same arcs with the same multiplicities. -/
def GraphOps.linkCount (links : Nat → Option (List Link)) (u v w : Nat) : Nat := ((links u).getD []).count ⟨v, w⟩

namespace Spec

/-- The arc with id `e` leads from `u` to `v` and has weight `w`, read off the arrays of a graph. -/
def EdgeAt (firstOut head weight : List Nat) (e u v w : Nat) : Prop :=
  ∃ a b, firstOut[u]? = some a ∧ firstOut[u + 1]? = some b ∧ a ≤ e ∧ e < b ∧ head[e]? = some v ∧ weight[e]? = some w

/-- A walk over edges with turn costs: `TurnWalk E cost e f d`: starting with edge `e`, one can go on to edge `f`, where
consecutive edges meet, all turns are allowed, and `d` is the total weight of all edges but the last plus turn costs. -/
inductive TurnWalk (E : Nat → Nat → Nat → Nat → Prop) (cost : Nat → Nat → Option Nat) : Nat → Nat → Nat → Prop
  | nil (e : Nat) : TurnWalk E cost e e 0
  | cons {e e' f u v v' w w' c d : Nat} : E e u v w → E e' v v' w' → cost e e' = some c → TurnWalk E cost e' f d →
      TurnWalk E cost e f (w + c + d)

end Spec
end Verif
