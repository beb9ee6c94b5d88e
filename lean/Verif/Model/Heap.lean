import Verif.Model.Base
import Verif.Spec.Heap
/-
Model of `engine/src/datastr/heap.rs`: a binary max heap that keeps the popped elements behind the heap. `≤` of the `Ord` instance is
the parameter `le`. A `Hole` is its position and the element taken out; leaving the scope fills it (`Drop for Hole`, l.358-366). An
unchecked access out of bounds is `none`.
-/
namespace Verif
open Spec

/-- `struct Heap` (`heap.rs:6-10`) -/
structure Heap (α : Type) where
  data : List α
  split : Nat
deriving DecidableEq, Repr

namespace Heap
variable {α : Type} (le : α → α → Bool)

/-- `new` (`heap.rs:14-17`) -/
def new : Heap α := ⟨[], 0⟩

/-- `sift_up` (`heap.rs:59-81`) from the hole on; the element in the hole is `x`. `pos` decreases, it is the fuel. -/
def siftUpAux (start : Nat) (x : α) : Nat → List α → Nat → Option (List α)
  | 0, ds, pos => upd ds pos x
  | fuel + 1, ds, pos =>
    if pos > start then do
      let parent := (pos - 1) / 2
      let p ← ds[parent]?
      if le x p then upd ds pos x
      else do
        let ds ← upd ds pos p
        siftUpAux start x fuel ds parent
    else upd ds pos x

/-- `sift_up` (`heap.rs:59-81`); the returned position is not used by any caller -/
def siftUp (ds : List α) (start pos : Nat) : Option (List α) := do
  let x ← ds[pos]?
  siftUpAux le start x pos ds pos

/-- `child += (get(child) <= get(child + 1)) as usize` (`heap.rs:103`, `heap.rs:164`) -/
def greaterChild (ds : List α) (child : Nat) : Option Nat := do
  let a ← ds[child]?
  let b ← ds[child + 1]?
  return if le a b then child + 1 else child

/-- `sift_down_range` (`heap.rs:89-127`) from the hole on -/
def siftDownAux (end' : Nat) (x : α) : Nat → List α → Nat → Option (List α)
  | 0, _, _ => none
  | fuel + 1, ds, pos =>
    let child := 2 * pos + 1
    if child ≤ end' - 2 then do
      let c ← greaterChild le ds child
      let xc ← ds[c]?
      if le xc x then upd ds pos x
      else do
        let ds ← upd ds pos xc
        siftDownAux end' x fuel ds c
    else if child = end' - 1 then do
      let xc ← ds[child]?
      if le xc x then upd ds pos x
      else do
        let ds ← upd ds pos xc
        upd ds child x
    else upd ds pos x

/-- `sift_down` (`heap.rs:132-137`), the hole created -/
def siftDown (h : Heap α) (pos : Nat) : Option (Heap α) := do
  let x ← h.data[pos]?
  let ds ← siftDownAux le h.split x (h.split + 1) h.data pos
  return ⟨ds, h.split⟩

/-- `sift_down_to_bottom` (`heap.rs:148-183`): the way down. Returns the data with the hole filled and the position of the hole. -/
def bottomAux (end' : Nat) (x : α) : Nat → List α → Nat → Option (List α × Nat)
  | 0, _, _ => none
  | fuel + 1, ds, pos =>
    let child := 2 * pos + 1
    if child ≤ end' - 2 then do
      let c ← greaterChild le ds child
      let xc ← ds[c]?
      let ds ← upd ds pos xc
      bottomAux end' x fuel ds c
    else if child = end' - 1 then do
      let xc ← ds[child]?
      let ds ← upd ds pos xc
      let ds ← upd ds child x
      return (ds, child)
    else do
      let ds ← upd ds pos x
      return (ds, pos)

/-- `sift_down_to_bottom` (`heap.rs:148-183`) -/
def siftDownToBottom (h : Heap α) (pos : Nat) : Option (Heap α) := do
  let x ← h.data[pos]?
  let (ds, p) ← bottomAux le h.split x (h.split + 1) h.data pos
  let ds ← siftUp le ds pos p
  return ⟨ds, h.split⟩

/-- `[T]::swap` -/
def swap (ds : List α) (i j : Nat) : Option (List α) := do
  let a ← ds[i]?
  let b ← ds[j]?
  let ds ← upd ds i b
  upd ds j a

/-- `pop` (`heap.rs:22-34`) -/
def pop (h : Heap α) : Option (Option α × Heap α) :=
  match h.split with
  | 0 => some (none, h)
  | 1 => do
    let x ← h.data[0]?
    return (some x, ⟨h.data, 0⟩)
  | s + 1 => do
    let ds ← swap h.data 0 s
    let h ← siftDownToBottom le ⟨ds, s⟩ 0
    let x ← h.data[h.split]?
    return (some x, h)

/-- `push` (`heap.rs:36-45`) -/
def push (h : Heap α) (x : α) : Option (Heap α) := do
  let ds := h.data ++ [x]
  let ds ← swap ds h.split (ds.length - 1)
  let ds ← siftUp le ds 0 h.split
  return ⟨ds, h.split + 1⟩

/-- `rebuild` (`heap.rs:222-231`): `n` counts down -/
def rebuild : Nat → Heap α → Option (Heap α)
  | 0, h => some h
  | n + 1, h => do
    let h ← siftDown le h n
    rebuild n h

/-- the loop `for i in start..self.split { sift_up(0, i) }` (`heap.rs:215-218`), `k` iterations left -/
def siftTail : Nat → Nat → List α → Option (List α)
  | 0, _, ds => some ds
  | k + 1, i, ds => do
    let ds ← siftUp le ds 0 i
    siftTail k (i + 1) ds

/-- `rebuild_tail` (`heap.rs:186-220`); `log2_fast` is the binary logarithm rounded down -/
def rebuildTail (h : Heap α) (start : Nat) : Option (Heap α) :=
  if start = h.split then some h
  else
    let tailLen := h.split - start
    let better : Bool :=
      if start < tailLen then true
      else if h.split ≤ 2048 then decide (2 * h.split < tailLen * start.log2)
      else decide (2 * h.split < tailLen * 11)
    if better then rebuild le (h.split / 2) h
    else do
      let ds ← siftTail le (h.split - start) start h.data
      return ⟨ds, h.split⟩

/-- the closure passed to `Vec::retain` (`heap.rs:256-269`) on the elements from index `i` on: kept elements, `removed_from_heap`,
`first_removed`. The predicate has no side effects. -/
def retainLoop (keep : α → Bool) (split : Nat) : List α → Nat → Nat → Nat → List α × Nat × Nat
  | [], _, removed, first => ([], removed, first)
  | e :: es, i, removed, first =>
    let k := keep e
    let removed := if !k && decide (i < split) then removed + 1 else removed
    let first := if !k && decide (i < first) then i else first
    let r := retainLoop keep split es (i + 1) removed first
    (if k then e :: r.1 else r.1, r.2)

/-- `retain` (`heap.rs:252-273`); the subtraction is checked -/
def retain (h : Heap α) (keep : α → Bool) : Option (Heap α) :=
  let r := retainLoop keep h.split h.data 0 0 h.split
  if r.2.1 ≤ h.split then rebuildTail le ⟨r.1, h.split - r.2.1⟩ r.2.2 else none

/-- `peek` (`heap.rs:275-281`) -/
def peek (h : Heap α) : Option α := if h.split > 0 then h.data[0]? else none

/-- `clear` (`heap.rs:283-286`) -/
def clear (_ : Heap α) : Heap α := ⟨[], 0⟩

/-- `popped` (`heap.rs:288-290`) -/
def popped (h : Heap α) : List α := h.data.drop h.split

/-- one call and what it returns -/
def step (h : Heap α) : TailHeapOp α → Option (Option α × Heap α)
  | .push x => do
    let h ← push le h x
    return (none, h)
  | .pop => pop le h
  | .retain keep => do
    let h ← retain le h keep
    return (none, h)
  | .clear => some (none, h.clear)

/-- a history of calls; the results in order -/
def run (h : Heap α) : List (TailHeapOp α) → Option (List (Option α) × Heap α)
  | [] => some ([], h)
  | op :: ops => do
    let (o, h) ← step le h op
    let (os, h) ← run h ops
    return (o :: os, h)

end Heap
end Verif
