/- Specification of the merging iterators and of `filter_covered`. -/
namespace Verif.Spec

/-- Elements of two lists in turn, until both run out. -/
def alternate {α : Type _} : List α → List α → List α
  | [], b => b
  | x :: a, b => x :: alternate b a
termination_by a b => a.length + b.length
decreasing_by simp; omega

/-- the key of a pair from a sweep over two sequences -/
def sweepKey {α : Type _} : Option α × Option α → Option α
  | (some x, _) => some x
  | (none, y) => y

/-- Half-open ranges. -/
structure Rng where
  start : Nat
  stop : Nat
deriving DecidableEq, Repr

/-- `b` lies within `a` -/
def Rng.Contains (a b : Rng) : Prop := a.start ≤ b.start ∧ b.stop ≤ a.stop

/-- contains no other range of the list -/
def MinimalIn (l : List Rng) (r : Rng) : Prop := r ∈ l ∧ ∀ r' ∈ l, r.Contains r' → r' = r

end Verif.Spec
