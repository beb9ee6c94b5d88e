/- Specification: which arcs of a hierarchy can still be unpacked. -/
namespace Verif.Spec

/-- What an arc stands for: another pair of arcs (the first one downwards, the second one upwards), an original edge, or nothing. -/
inductive Via where
  | pair (down up : Nat)
  | edge (e : Nat)
  | nothing
deriving DecidableEq, Repr

/-- The arc `e` (upwards or downwards) is good, and there is a way to unpack it completely into original edges in which all arcs are good. -/
inductive Unpacks (good : Bool → Nat → Prop) (sources : Bool → Nat → List Via) : Bool → Nat → Prop
  | edge {up : Bool} {e o : Nat} : good up e → Via.edge o ∈ sources up e → Unpacks good sources up e
  | pair {up : Bool} {e a b : Nat} : good up e → Via.pair a b ∈ sources up e → Unpacks good sources false a → Unpacks good sources true b →
      Unpacks good sources up e

/-- `e` is an arc of node `x` in the adjacency array `fo` -/
def ArcOf (fo : List Nat) (x e : Nat) : Prop := ∃ a b, fo[x]? = some a ∧ fo[x + 1]? = some b ∧ a ≤ e ∧ e < b

end Verif.Spec
