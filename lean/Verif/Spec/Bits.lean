/-
Specification of bit vectors and rank maps: sets of indices, given by their characteristic function.
-/
namespace Verif.Spec

/-- a set of indices -/
abbrev IdxSet := Nat → Bool

/-- calls that change a bit vector; `removeWord i` removes the 64 indices sharing a word with `i` -/
inductive SetOp where
  | insert (i : Nat)
  | remove (i : Nat)
  | removeWord (i : Nat)
  | removeAll
  | insertAll
deriving DecidableEq

/-- the set after one call -/
def SetOp.apply (s : IdxSet) : SetOp → IdxSet
  | .insert i => fun j => j == i || s j
  | .remove i => fun j => j != i && s j
  | .removeWord i => fun j => j / 64 != i / 64 && s j
  | .removeAll => fun _ => false
  | .insertAll => fun _ => true

/-- the set after a history, starting with the empty set -/
def setAfter (ops : List SetOp) : IdxSet := ops.foldl SetOp.apply (fun _ => false)

/-- the index an operation mentions -/
def SetOp.index : SetOp → Option Nat
  | .insert i | .remove i | .removeWord i => some i
  | .removeAll | .insertAll => none

/-- the number of elements below `n` -/
def IdxSet.below (s : IdxSet) (n : Nat) : Nat := ((List.range n).filter s).length

/-- What the documentation of `slice::binary_search` promises for a sorted slice: `Ok(i)` is the position of *some* match;
`Err(i)` is the position where the value could be inserted. -/
inductive Lookup where
  | ok (i : Nat)
  | err (i : Nat)
deriving DecidableEq, Repr

/-- `r` is an allowed answer of `binary_search` -/
def Lookup.Valid (l : List Nat) (v : Nat) : Lookup → Prop
  | .ok i => l[i]? = some v
  | .err i => i ≤ l.length ∧ v ∉ l ∧ (∀ (j x : Nat), l[j]? = some x → j < i → x < v) ∧ (∀ (j x : Nat), l[j]? = some x → i ≤ j → v < x)

/-- a function with that documentation -/
def BinarySearch (bs : List Nat → Nat → Lookup) : Prop :=
  ∀ (l : List Nat) (v : Nat), l.Pairwise (· ≤ ·) → (bs l v).Valid l v

/-- In case of several matches the last one is returned, as the standard library does since Rust 1.82. -/
def LastMatch (bs : List Nat → Nat → Lookup) : Prop :=
  ∀ (l : List Nat) (v i : Nat), l.Pairwise (· ≤ ·) → bs l v = .ok i → ∀ j x : Nat, l[j]? = some x → i < j → v < x

end Verif.Spec
