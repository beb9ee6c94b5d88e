import Verif.Model.Base
/-
Models of the small containers: `util/in_range_option.rs`, `datastr/node_order.rs`,
`datastr/timestamped_vector.rs`, `datastr/clearlist_vector.rs`.
-/
namespace Verif

/-! ### `engine/src/util/in_range_option.rs` -/

/-- `trait Sentinel` (`in_range_option.rs:7-9`). -/
class Sentinel (α : Type) where
  sentinel : α

/-- `u32::MAX` (l.11-13). -/
instance : Sentinel UInt32 := ⟨4294967295⟩
/-- `(u32::MAX, u32::MAX)` (l.15-17). -/
instance : Sentinel (UInt32 × UInt32) := ⟨(4294967295, 4294967295)⟩
/-- `(u32::MAX, u32::MAX, u32::MAX)` (l.19-21). -/
instance : Sentinel (UInt32 × UInt32 × UInt32) := ⟨(4294967295, 4294967295, 4294967295)⟩
/-- `i32::MIN` (l.23-25). -/
instance : Sentinel Int32 := ⟨-2147483648⟩
/-- `u64::MAX` (l.27-29); `usize` (l.31-33) is the same on 64 bit targets. -/
instance : Sentinel UInt64 := ⟨18446744073709551615⟩

/-- `struct InRangeOption<T>(T)` (l.44). -/
structure InRangeOption (α : Type) where
  raw : α
deriving DecidableEq

namespace InRangeOption
variable {α : Type} [Sentinel α] [DecidableEq α]

/-- l.47 -/
def NONE : InRangeOption α := ⟨Sentinel.sentinel⟩

/-- l.49-53; `none` is the failed assertion. -/
def some' (v : α) : Option (InRangeOption α) :=
  if v ≠ Sentinel.sentinel then some ⟨v⟩ else none

/-- l.55-64; `none` is the failed assertion. -/
def new : Option α → Option (InRangeOption α)
  | some v => if v ≠ Sentinel.sentinel then some ⟨v⟩ else none
  | none => some ⟨Sentinel.sentinel⟩

/-- l.66-74 -/
def value (o : InRangeOption α) : Option α :=
  if o.raw ≠ Sentinel.sentinel then some o.raw else none
end InRangeOption

/-! ### `engine/src/datastr/node_order.rs` -/

/-- `struct NodeOrder` (`node_order.rs:14-20`). -/
structure NodeOrder where
  nodeOrder : List Nat
  ranks : List Nat
deriving DecidableEq, Repr

namespace NodeOrder

/-- l.24-29 -/
def identity (n : Nat) : NodeOrder := ⟨List.range n, List.range n⟩

/-- The loop of l.37-39 (and l.55-57): `inv[xs[i]] = i`, starting at index `i`. -/
def invertGo : List Nat → Nat → List Nat → Option (List Nat)
  | [], _, inv => some inv
  | x :: xs, i, inv => do
    let inv ← upd inv x i
    invertGo xs (i + 1) inv

/-- Lines 33-41 (and 51-59): assertion on the size, inverse array, and the `debug_assert` that no entry was left
out. -/
def invert (xs : List Nat) : Option (List Nat) :=
  let n := xs.length
  if n < U32 - 1 then do
    let inv ← invertGo xs 0 (List.replicate n n)
    if n ∈ inv then none else some inv
  else none

/-- l.32-47 -/
def fromNodeOrder (order : List Nat) : Option NodeOrder := do
  let ranks ← invert order
  return ⟨order, ranks⟩

/-- l.50-65 -/
def fromRanks (ranks : List Nat) : Option NodeOrder := do
  let order ← invert ranks
  return ⟨order, ranks⟩

/-- l.78-80 -/
def rank (o : NodeOrder) (v : Nat) : Option Nat := o.ranks[v]?

/-- l.83-85 -/
def node (o : NodeOrder) (r : Nat) : Option Nat := o.nodeOrder[r]?

/-- l.88-90 -/
def len (o : NodeOrder) : Nat := o.nodeOrder.length
end NodeOrder

/-! ### `engine/src/datastr/timestamped_vector.rs` -/

/-- `struct TimestampedVector<T>` (`timestamped_vector.rs:40-47`). `default` is `T::DEFAULT`. -/
structure TSVec (α : Type) where
  data : List α
  current : Nat
  timestamps : List Nat
  default : α
deriving DecidableEq, Repr

namespace TSVec
variable {α : Type}

/-- l.51-58 -/
def new (d : α) (size : Nat) : TSVec α := ⟨List.replicate size d, 0, List.replicate size 0, d⟩

/-- l.62-72: `overflowing_add`. -/
def reset (v : TSVec α) : TSVec α :=
  let new := (v.current + 1) % U32
  let overflow := v.current + 1 ≥ U32
  { v with
    current := new
    data := if overflow then v.data.map (fun _ => v.default) else v.data }

/-- l.76-80 -/
def set (v : TSVec α) (i : Nat) (x : α) : Option (TSVec α) := do
  let data ← upd v.data i x
  let ts ← upd v.timestamps i v.current
  return { v with data := data, timestamps := ts }

/-- `Index::index`, l.118-126 -/
def get (v : TSVec α) (i : Nat) : Option α := do
  let t ← v.timestamps[i]?
  if t = v.current then v.data[i]? else some v.default

/-- `IndexMut::index_mut`, l.130-136, followed by a modification `f` of the returned reference. -/
def modify (v : TSVec α) (i : Nat) (f : α → α) : Option (TSVec α) := do
  let t ← v.timestamps[i]?
  if t ≠ v.current then
    let ts ← upd v.timestamps i v.current
    let data ← upd v.data i v.default
    let x ← data[i]?
    let data ← upd data i (f x)
    return { v with data := data, timestamps := ts }
  else
    let x ← v.data[i]?
    let data ← upd v.data i (f x)
    return { v with data := data }

/-- l.83-85 -/
def len (v : TSVec α) : Nat := v.data.length
end TSVec

/-- `struct AtomicDists` (`timestamped_vector.rs:141-144`): every entry packs a weight and a timestamp in a `u64`.
The `Relaxed` atomic accesses are modelled as plain reads and writes of one entry; interleavings of writes
through `&self` by several threads are then sequences of `set` calls. -/
structure AtomicDists where
  data : List Nat
  current : Nat
deriving DecidableEq, Repr

namespace AtomicDists
/-- l.192-194 (`transmute`; only the round trip with `toPair` matters) -/
def fromPair (w ts : Nat) : Nat := w + U32 * ts
/-- l.195-197 -/
def toPair (c : Nat) : Nat × Nat := (c % U32, c / U32)

/-- l.147-152 -/
def new (size : Nat) : AtomicDists := ⟨List.replicate size (fromPair INFINITY 0), 0⟩

/-- l.156-166 -/
def reset (v : AtomicDists) : AtomicDists :=
  let new := (v.current + 1) % U32
  let overflow := v.current + 1 ≥ U32
  { current := new, data := if overflow then v.data.map (fun _ => fromPair INFINITY 0) else v.data }

/-- l.168-170 -/
def set (v : AtomicDists) (i : Nat) (w : Nat) : Option AtomicDists := do
  let data ← upd v.data i (fromPair w v.current)
  return { v with data := data }

/-- l.172-179 -/
def get (v : AtomicDists) (i : Nat) : Option Nat := do
  let c ← v.data[i]?
  let (w, ts) := toPair c
  if ts = v.current then some w else some INFINITY
end AtomicDists

/-! ### `engine/src/datastr/clearlist_vector.rs` -/

/-- `struct ClearlistVector<T>` (`clearlist_vector.rs:9-13`). -/
structure ClearVec (α : Type) where
  data : List α
  clearlist : List Nat
  default : α
deriving DecidableEq, Repr

namespace ClearVec
variable {α : Type} [DecidableEq α]

/-- l.17-23 -/
def new (size : Nat) (d : α) : ClearVec α := ⟨List.replicate size d, [], d⟩

/-- the loop of l.27-29 -/
def resetGo (d : α) : List Nat → List α → Option (List α)
  | [], data => some data
  | i :: is, data => do
    let data ← upd data i d
    resetGo d is data

/-- l.26-31 -/
def reset (v : ClearVec α) : Option (ClearVec α) := do
  let data ← resetGo v.default v.clearlist v.data
  return { v with data := data, clearlist := [] }

/-- l.37-39 -/
def get (v : ClearVec α) (i : Nat) : Option α := v.data[i]?

/-- `index_mut`, l.43-48, followed by a modification `f` of the returned reference. -/
def modify (v : ClearVec α) (i : Nat) (f : α → α) : Option (ClearVec α) := do
  let x ← v.data[i]?
  let cl := if x = v.default then v.clearlist ++ [i] else v.clearlist
  let data ← upd v.data i (f x)
  return { v with data := data, clearlist := cl }
end ClearVec

end Verif
