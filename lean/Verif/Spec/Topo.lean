import Verif.Spec.Graph
import Verif.Model.TopoDijkstra
/- Chains of nodes of low degree. -/
namespace Verif.Spec

/-- `LowRun A deg three u ns v l`: the nodes `ns ++ [v]` are a simple path of length `l` from `u` to `v`; all nodes of it but `u` have degree at most
two, except that one of them has degree three if `three` is true. -/
inductive LowRun (A : Nat → Nat → Nat → Prop) (deg : Nat → Option SymDeg) : Bool → Nat → List Nat → Nat → Nat → Prop
  | start (u : Nat) : LowRun A deg false u [] u 0
  | two {h : Bool} {u x v w l : Nat} {ns : List Nat} : LowRun A deg h u ns x l → A x v w → deg v = some .lessEqTwo → v ∉ ns ++ [x] →
      LowRun A deg h u (ns ++ [x]) v (l + w)
  | three {u x v w l : Nat} {ns : List Nat} : LowRun A deg false u ns x l → A x v w → deg v = some .three → v ∉ ns ++ [x] →
      LowRun A deg true u (ns ++ [x]) v (l + w)

/-- Chains of nodes of low degree, together with the arcs at both ends, are not longer than `C`. -/
def ChainsWithin (A : Nat → Nat → Nat → Prop) (deg : Nat → Option SymDeg) (C : Nat) : Prop :=
  ∀ h u ns x l v w, LowRun A deg h u ns x l → A x v w → v ∉ ns ++ [x] → l + w ≤ C

end Verif.Spec
