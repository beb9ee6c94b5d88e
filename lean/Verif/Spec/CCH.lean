import Verif.Spec.Graph
/- Vocabulary for the properties of contraction hierarchies. Nodes are ranks. -/
namespace Verif.Spec

/-- `LowPath E k u w`: there is a path from `u` to `w` in `E` whose inner nodes are all below `k`. -/
inductive LowPath (E : Nat → Nat → Prop) (k : Nat) : Nat → Nat → Prop
  | one {u w : Nat} : E u w → LowPath E k u w
  | cons {u v w : Nat} : E u v → v < k → LowPath E k v w → LowPath E k u w

/-- `UpWalk A s m d`: a walk from `s` to `m` of weight `d` along arcs that lead to larger nodes. -/
inductive UpWalk (A : Nat → Nat → Nat → Prop) : Nat → Nat → Nat → Prop
  | nil (u : Nat) : UpWalk A u u 0
  | cons {u v t w d : Nat} : A u v w → u < v → UpWalk A v t d → UpWalk A u t (w + d)

/-- An ancestor in a forest given by the parent function (every node is its own ancestor). -/
inductive Anc (parent : Nat → Option Nat) : Nat → Nat → Prop
  | refl (u : Nat) : Anc parent u u
  | step {u p x : Nat} : parent u = some p → Anc parent p x → Anc parent u x

theorem Anc.trans {parent : Nat → Option Nat} {u v w : Nat} (h1 : Anc parent u v) (h2 : Anc parent v w) : Anc parent u w := by
  induction h1 with
  | refl => exact h2
  | step hp _ ih => exact .step hp (ih h2)

end Verif.Spec

namespace Verif.Spec

/-- Ranks `x ≠ y` are adjacent in the undirected version of the graph with arcs `A`, where `nodeAt x` is the node of rank `x`. -/
def RankAdj (A : Nat → Nat → Nat → Prop) (nodeAt : Nat → Option Nat) (x y : Nat) : Prop :=
  x ≠ y ∧ ∃ u v w, nodeAt x = some u ∧ nodeAt y = some v ∧ (A u v w ∨ A v u w)

end Verif.Spec

namespace Verif.Spec

/-- `UpDown F B s t d`: an up-down path from `s` to `t` of weight `d`: upwards along `F` to some node, and from there
downwards, along arcs that `B` stores at their lower end. -/
def UpDown (F B : Nat → Nat → Nat → Prop) (s t d : Nat) : Prop :=
  ∃ m a b, UpWalk F s m a ∧ UpWalk B t m b ∧ d = a + b

/-- The arcs `A`, with nodes replaced by their ranks. -/
def InRanks (A : Nat → Nat → Nat → Prop) (nodeAt : Nat → Option Nat) (x y w : Nat) : Prop :=
  ∃ u v, nodeAt x = some u ∧ nodeAt y = some v ∧ A u v w

end Verif.Spec
