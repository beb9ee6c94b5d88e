import Verif.Model.Base
/-
Sorting. The code uses `sort_unstable`, `sort_unstable_by_key` and `dedup` of the standard library.
-/
namespace Verif

/-- Insertion into a sorted list. -/
def insertSorted {α : Type} (key : α → Nat) (x : α) : List α → List α
  | [] => [x]
  | y :: ys => if key x ≤ key y then x :: y :: ys else y :: insertSorted key x ys

/-- `sort_unstable` on integers (there is only one sorted permutation of a list of integers, so the choice of algorithm does
not matter), and one possible `sort_by_key`. -/
def isort {α : Type} (key : α → Nat) (l : List α) : List α := l.foldr (insertSorted key) []

/-- `Vec::dedup`: removes consecutive repeated elements. -/
def dedup {α : Type} [DecidableEq α] : List α → List α
  | [] => []
  | [x] => [x]
  | x :: y :: l => if x = y then dedup (y :: l) else x :: dedup (y :: l)

end Verif
