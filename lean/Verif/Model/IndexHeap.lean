import Verif.Model.Base
/-
Model of `engine/src/datastr/index_heap.rs`: the 4-ary min heap with a position index that all
Dijkstra variants of the crate use as their priority queue.
-/
namespace Verif

/-- Elements of an indexed heap: the traits `Ord` (here the strict comparison `lt`) and `Indexing`
(`index_heap.rs:38-42`). -/
class HeapElem (α : Type) where
  lt : α → α → Bool
  idx : α → Nat

/-- `Ord` promises a total order. -/
class LawfulHeapElem (α : Type) [HeapElem α] : Prop where
  irrefl : ∀ a : α, HeapElem.lt a a = false
  trans : ∀ a b c : α, HeapElem.lt a b = true → HeapElem.lt b c = true → HeapElem.lt a c = true
  total : ∀ a b : α, HeapElem.lt a b = false → HeapElem.lt b a = false → a = b

/-- `IndexdMinHeap` (`index_heap.rs:50-53`). `positions[id] = none` models `INVALID_POSITION = usize::MAX`
(l.56), which is never a real position because a `Vec` has at most `isize::MAX` bytes. -/
structure IHeap (α : Type) where
  positions : List (Option Nat)
  data : List α
deriving DecidableEq, Repr

namespace IHeap
variable {α : Type} [HeapElem α]
open HeapElem

/-- `index_heap.rs:62-67` -/
def new (maxId : Nat) : IHeap α := ⟨List.replicate maxId none, []⟩

/-- `index_heap.rs:70-72` -/
def len (h : IHeap α) : Nat := h.data.length

/-- `index_heap.rs:75-77` -/
def isEmpty (h : IHeap α) : Bool := h.len == 0

/-- `index_heap.rs:80-82`; indexing `positions` panics out of bounds. -/
def containsIndex (h : IHeap α) (id : Nat) : Option Bool :=
  (h.positions[id]?).map Option.isSome

/-- `index_heap.rs:84-86`; outer `none` is the out-of-bounds panic. `data.get(usize::MAX)` is `None`. -/
def get (h : IHeap α) (id : Nat) : Option (Option α) :=
  match h.positions[id]? with
  | none => none
  | some none => some none
  | some (some p) => some h.data[p]?

/-- `index_heap.rs:94-99` -/
def clear (h : IHeap α) : Option (IHeap α) :=
  let rec go : List α → List (Option Nat) → Option (List (Option Nat))
    | [], ps => some ps
    | x :: xs, ps => do
      let ps ← upd ps (idx x) none
      go xs ps
  do
    let ps ← go h.data h.positions
    return ⟨ps, []⟩

/-- `index_heap.rs:103-105` -/
def peek (h : IHeap α) : Option α := h.data.head?

/-- `index_heap.rs:168-183`. The loop runs at most `position` times since `parent < position`; that number is the
fuel. Running out of fuel with `position > 0` would be `none`. -/
def moveUpAux : Nat → IHeap α → Nat → Option (IHeap α)
  | 0, h, pos => if pos = 0 then some h else none
  | fuel + 1, h, pos =>
    if pos = 0 then some h
    else do
      let parent := (pos - 1) / 4
      let xp ← h.data[parent]?
      let x ← h.data[pos]?
      if lt xp x then some h
      else do
        -- `self.positions.swap(a, b)`
        let pa ← h.positions[idx xp]?
        let pb ← h.positions[idx x]?
        let ps ← upd h.positions (idx xp) pb
        let ps ← upd ps (idx x) pa
        -- `self.data.swap(parent, position)`
        let ds ← upd h.data parent x
        let ds ← upd ds pos xp
        moveUpAux fuel ⟨ps, ds⟩ parent

/-- `index_heap.rs:168-183` -/
def moveUp (h : IHeap α) (pos : Nat) : Option (IHeap α) := moveUpAux pos h pos

/-- `index_heap.rs:238-242` `children_index_range` as an explicit list. -/
def childrenRange (parent size : Nat) : List Nat :=
  (List.range (min (4 * parent + 4 + 1) size - (4 * parent + 1))).map (· + (4 * parent + 1))

/-- `Iterator::min_by_key` with key `data[i]` (`index_heap.rs:222`): the first minimal element wins. -/
def minByKey (data : List α) : List Nat → Option (Option Nat)
  | [] => some none
  | i :: is =>
    let rec go : Nat → α → List Nat → Option Nat
      | best, _, [] => some best
      | best, xb, j :: js =>
        match data[j]? with
        | none => none
        | some xj => if lt xj xb then go j xj js else go best xb js
    match data[i]? with
    | none => none
    | some xi => (go i xi is).map some

/-- The loop of `index_heap.rs:216-236`, with the `Hole` spelled out: `x` is the element taken out,
`pos` the position of the hole. `data[pos]` is never read while the hole is there; leaving the loop fills
the hole (`Drop for Hole`, l.297-305). Fuel: `pos` strictly increases and stays below the length. -/
def moveDownAux : Nat → List (Option Nat) → List α → Nat → α → Option (IHeap α)
  | 0, _, _, _, _ => none
  | fuel + 1, ps, ds, pos, x => do
    match ← minByKey ds (childrenRange pos ds.length) with
    | some c =>
      let xc ← ds[c]?
      if lt xc x = false then
        -- `hole.get(smallest_child) >= hole.element()`
        let ps ← upd ps (idx x) (some pos)
        let ds ← upd ds pos x
        return ⟨ps, ds⟩
      else
        let ps ← upd ps (idx xc) (some pos)
        let ds ← upd ds pos xc
        moveDownAux fuel ps ds c x
    | none =>
      let ps ← upd ps (idx x) (some pos)
      let ds ← upd ds pos x
      return ⟨ps, ds⟩

/-- `index_heap.rs:216-236` -/
def moveDown (h : IHeap α) (pos : Nat) : Option (IHeap α) := do
  let x ← h.data[pos]?
  moveDownAux (h.data.length + 1) h.positions h.data pos x

/-- `index_heap.rs:108-120`. Outer `none`: panic. -/
def pop (h : IHeap α) : Option (Option α × IHeap α) :=
  match h.data.getLast? with
  | none => some (none, h)
  | some item => do
    let ds := h.data.dropLast
    let ps ← upd h.positions (idx item) none
    match ds with
    | [] => return (some item, ⟨ps, ds⟩)
    | top :: rest =>
      let ps ← upd ps (idx item) (some 0)
      let ps ← upd ps (idx top) none
      let h' ← moveDown ⟨ps, item :: rest⟩ 0
      return (some top, h')

/-- `index_heap.rs:131-137` -/
def push (h : IHeap α) (x : α) : Option (IHeap α) := do
  if ← h.containsIndex (idx x) then none -- `assert!` failed
  else
    let insertPosition := h.len
    let ps ← upd h.positions (idx x) (some insertPosition)
    moveUp ⟨ps, h.data ++ [x]⟩ insertPosition

/-- `index_heap.rs:123-127` -/
def pushUnlessContained (h : IHeap α) (x : α) : Option (IHeap α) := do
  if ← h.containsIndex (idx x) then return h else h.push x

/-- `index_heap.rs:150-154`. `data[INVALID_POSITION]` panics. -/
def decreaseKey (h : IHeap α) (x : α) : Option (IHeap α) := do
  let p ← h.positions[idx x]?
  let pos ← p
  let ds ← upd h.data pos x
  moveUp ⟨h.positions, ds⟩ pos

/-- `index_heap.rs:158-162` -/
def increaseKey (h : IHeap α) (x : α) : Option (IHeap α) := do
  let p ← h.positions[idx x]?
  let pos ← p
  let ds ← upd h.data pos x
  moveDown ⟨h.positions, ds⟩ pos

/-- `index_heap.rs:140-146` -/
def updateKey (h : IHeap α) (x : α) : Option (IHeap α) := do
  let p ← h.positions[idx x]?
  let pos ← p
  let old ← h.data[pos]?
  if lt x old then h.decreaseKey x
  else if lt old x then h.increaseKey x
  else return h

end IHeap

/-- Queue entries of the Dijkstra variants, `engine/src/algo/dijkstra.rs:24-35`: `#[derive(PartialOrd, Ord)]` compares
`key` first, then `node`; `as_index` is the node. -/
structure QState where
  key : Nat
  node : Nat
deriving DecidableEq, Repr

instance : HeapElem QState where
  lt a b := a.key < b.key || (a.key == b.key && a.node < b.node)
  idx a := a.node

instance : LawfulHeapElem QState where
  irrefl a := by simp [HeapElem.lt]
  trans a b c := by simp only [HeapElem.lt, Bool.or_eq_true, Bool.and_eq_true, decide_eq_true_eq, beq_iff_eq]; omega
  total a b := by
    simp only [HeapElem.lt, Bool.or_eq_false_iff, Bool.and_eq_false_iff, decide_eq_false_iff_not, beq_eq_false_iff_ne]
    intro h1 h2
    have : a.key = b.key ∧ a.node = b.node := by omega
    cases a; cases b; simp_all

end Verif
