import Verif.Model.Base
/-
Specification of a resettable vector: a plain list. A reset refills it with the default.
-/
namespace Verif.Spec
variable {α : Type}

/-- API calls of a resettable vector. `modify i f` is `f(&mut v[i])`. -/
inductive VecOp (α : Type)
  | get (i : Nat) | set (i : Nat) (x : α) | modify (i : Nat) (f : α → α) | reset

/-- One call on a plain vector: the value read (if it is a read) and the new vector; `none` = index out of bounds. -/
def plainExec (d : α) (l : List α) : VecOp α → Option (Option α × List α)
  | .get i => if h : i < l.length then some (some l[i], l) else none
  | .set i x => if i < l.length then some (none, l.set i x) else none
  | .modify i f => if h : i < l.length then some (none, l.set i (f l[i])) else none
  | .reset => some (none, List.replicate l.length d)

/-- A history of calls: the list of results, or `none` if one of the calls panics. -/
def runHistory {S O : Type} (exec : S → VecOp α → Option (O × S)) : S → List (VecOp α) → Option (List O)
  | _, [] => some []
  | s, op :: ops =>
    match exec s op with
    | none => none
    | some (out, s') => (runHistory exec s' ops).map (out :: ·)

end Verif.Spec
