import Verif.Model.Graph
import Verif.Spec.Bits
/-
Model of `engine/src/datastr/rank_select_map.rs`: bit vectors, rank maps and their inversion. A `u64` is a `Nat` below `2^64`;
`count_ones` and `trailing_zeros` are defined by their documentation.
-/
namespace Verif
namespace Bits

/-- the number of indices below `n` with `f` -/
def cnt (f : Nat → Bool) (n : Nat) : Nat := (List.range n).countP f

/-- `u64::count_ones` -/
def popcount (w : Nat) : Nat := cnt w.testBit 64

/-- `u64::trailing_zeros` -/
def trailingZeros (w : Nat) : Nat := ((List.range 64).find? w.testBit).getD 64

/-- `!w` for `u64` -/
def not64 (w : Nat) : Nat := 18446744073709551615 ^^^ w

/-- `struct BitVec` (`rank_select_map.rs:23-26`) -/
structure BitVec where
  data : List Nat
  size : Nat
deriving DecidableEq, Repr

namespace BitVec

/-- `BitVec::new` (`rank_select_map.rs:30-43`). The allocation itself is not modelled; for `size = 0` it has size zero, which
`alloc_zeroed` does not allow. -/
def new (size : Nat) : BitVec := ⟨List.replicate ((size + 63) / 64) 0, size⟩

/-- `get` (`rank_select_map.rs:46-50`) -/
def get (b : BitVec) (index : Nat) : Option Bool := do
  if index < b.size then
    let w ← b.data[index / 64]?
    return w &&& (1 <<< (index % 64)) != 0
  else none

/-- `set` (`rank_select_map.rs:53-57`) -/
def set (b : BitVec) (index : Nat) : Option BitVec := do
  if index < b.size then
    let w ← b.data[index / 64]?
    let d ← upd b.data (index / 64) (w ||| (1 <<< (index % 64)))
    return { b with data := d }
  else none

/-- `unset` (`rank_select_map.rs:60-64`) -/
def unset (b : BitVec) (index : Nat) : Option BitVec := do
  if index < b.size then
    let w ← b.data[index / 64]?
    let d ← upd b.data (index / 64) (w &&& not64 (1 <<< (index % 64)))
    return { b with data := d }
  else none

/-- `unset_all_around` (`rank_select_map.rs:67-70`) -/
def unsetAllAround (b : BitVec) (index : Nat) : Option BitVec := do
  if index < b.size then
    let d ← upd b.data (index / 64) 0
    return { b with data := d }
  else none

/-- `clear` (`rank_select_map.rs:83-87`) -/
def clear (b : BitVec) : BitVec := { b with data := b.data.map (fun _ => 0) }

/-- `set_all` (`rank_select_map.rs:90-94`) -/
def setAll (b : BitVec) : BitVec := { b with data := b.data.map (fun _ => not64 0) }

/-- `count_ones` (`rank_select_map.rs:97-99`) -/
def countOnes (b : BitVec) : Nat := (b.data.map popcount).sum

/-- `len` (`rank_select_map.rs:73-75`) -/
def len (b : BitVec) : Nat := b.size

end BitVec

open Spec (SetOp Lookup)

/-- a call of a mutating method -/
def BitVec.step (b : BitVec) : SetOp → Option BitVec
  | .insert i => b.set i
  | .remove i => b.unset i
  | .removeWord i => b.unsetAllAround i
  | .removeAll => some b.clear
  | .insertAll => some b.setAll

/-- a history -/
def BitVec.run (b : BitVec) (ops : List SetOp) : Option BitVec := ops.foldlM BitVec.step b

/-! ### `FastClearBitVec` -/

/-- `struct FastClearBitVec` (`rank_select_map.rs:123-126`) -/
structure FastClear where
  data : List Nat
  toClear : List Nat
deriving DecidableEq, Repr

namespace FastClear

/-- `new` (`rank_select_map.rs:130-135`) -/
def new (size : Nat) : FastClear := ⟨List.replicate ((size + 63) / 64) 0, []⟩

/-- `get` (`rank_select_map.rs:138-141`) -/
def get (b : FastClear) (index : Nat) : Option Bool := do
  let w ← b.data[index / 64]?
  return w &&& (1 <<< (index % 64)) != 0

/-- `set` (`rank_select_map.rs:144-150`) -/
def set (b : FastClear) (index : Nat) : Option FastClear := do
  let w ← b.data[index / 64]?
  let tc := if w = 0 then b.toClear ++ [index / 64] else b.toClear
  let d ← upd b.data (index / 64) (w ||| (1 <<< (index % 64)))
  return ⟨d, tc⟩

/-- `clear` (`rank_select_map.rs:153-158`) -/
def clear (b : FastClear) : Option FastClear := do
  let d ← b.toClear.foldlM (fun d i => upd d i 0) b.data
  return ⟨d, []⟩

/-- `struct SetBitsIter` (`rank_select_map.rs:170-175`), without the borrowed data -/
structure Iter where
  rest : List Nat
  bits : Nat
  idx : Nat

/-- fetching the next word, `rank_select_map.rs:181-188`; `some none` is `return None`. -/
def load (data : List Nat) (it : Iter) : Option (Option Iter) :=
  if it.bits = 0 then
    match it.rest with
    | i :: r => (data[i]?).map (fun w => some ⟨r, w, i⟩)
    | [] => some none
  else some (some it)

/-- `SetBitsIter::next` (`rank_select_map.rs:180-194`); `some none` is the end of the iteration. -/
def next (data : List Nat) (it : Iter) : Option (Option (Nat × Iter)) := do
  match ← load data it with
  | none => return none
  | some it =>
    if it.bits = 0 then none
    let k := trailingZeros it.bits
    return some (it.idx * 64 + k, ⟨it.rest, it.bits &&& not64 (1 <<< k), it.idx⟩)

/-- Collecting an iterator; `fuel` bounds the number of elements. -/
def collect (data : List Nat) : Nat → Iter → Option (List Nat)
  | 0, _ => none
  | fuel + 1, it => do
    match ← next data it with
    | none => return []
    | some (x, it) => do
      let r ← collect data fuel it
      return x :: r

/-- `set_bits_iter` (`rank_select_map.rs:160-167`) collected; there are at most `64` elements per word. -/
def setBits (b : FastClear) : Option (List Nat) := collect b.data (64 * b.toClear.length + 1) ⟨b.toClear, 0, 0⟩

/-- a call of a mutating method; there are only `set` and `clear` -/
def step (b : FastClear) : SetOp → Option FastClear
  | .insert i => b.set i
  | .removeAll => b.clear
  | _ => none

def run (b : FastClear) (ops : List SetOp) : Option FastClear := ops.foldlM step b

end FastClear

/-! ### `RankSelectMap` -/

/-- `struct RankSelectMap` (`rank_select_map.rs:207-210`) -/
structure RankMap where
  flags : BitVec
  prefixSum : List Nat
deriving DecidableEq, Repr

/-- `data[a..b]` popcounts summed up; the slice panics when it is out of range. -/
def onesIn (data : List Nat) (a b : Nat) : Option Nat := do
  let s ← slice data a b
  return (s.map popcount).sum

/-- `bit_count_entire_range` (`rank_select_map.rs:251-257`) -/
def bitCountEntire (b : BitVec) (i : Nat) : Option Nat := onesIn b.data (i * 8) (min ((i + 1) * 8) b.data.length)

/-- `compile` (`rank_select_map.rs:242-249`): the entries from index `i` on, `k` of them -/
def compile (b : BitVec) : Nat → Nat → Nat → Option (List Nat)
  | 0, _, _ => some []
  | k + 1, i, previous => do
    let c ← bitCountEntire b (i - 1)
    let r ← compile b k (i + 1) (c + previous)
    return (c + previous) :: r

namespace RankMap

/-- `RankSelectMap::new` (`rank_select_map.rs:217-227`); entry 0 stays 0. -/
def new (b : BitVec) : Option RankMap := do
  let r ← compile b ((b.len + 511) / 512) 1 0
  return ⟨b, 0 :: r⟩

/-- `len` (`rank_select_map.rs:230-235`) -/
def len (m : RankMap) : Nat := m.prefixSum.getLast?.getD 0

/-- `bit_count_partial_range` (`rank_select_map.rs:286-293`) -/
def bitCountPartial (m : RankMap) (key : Nat) : Option Nat := do
  let index := key / 64
  let w ← m.flags.data[index]?
  let num := popcount (w % (1 <<< (key % 64)))
  let sum ← onesIn m.flags.data (index / 8 * 8) index
  return sum + num

/-- `at` (`rank_select_map.rs:261-264`) -/
def at' (m : RankMap) (key : Nat) : Option Nat := do
  let g ← m.flags.get key
  if !g then none
  let p ← m.prefixSum[key / 512]?
  let c ← m.bitCountPartial key
  return p + c

/-- `at_or_next_lower` (`rank_select_map.rs:268-275`); the subtraction may underflow. -/
def atOrNextLower (m : RankMap) (key : Nat) : Option Nat := do
  let p ← m.prefixSum[key / 512]?
  let c ← m.bitCountPartial key
  let g ← m.flags.get key
  if g then return p + c
  else if p + c = 0 then none else return p + c - 1

/-- `get` (`rank_select_map.rs:278-284`) -/
def get (m : RankMap) (key : Nat) : Option (Option Nat) := do
  if key < m.flags.size then
    let g ← m.flags.get key
    if g then
      let p ← m.prefixSum[key / 512]?
      let c ← m.bitCountPartial key
      return some (p + c)
    else return none
  else return none

end RankMap

/-! ### `InvertableRankSelectMap` -/

/-- `struct InvertableRankSelectMap` (`rank_select_map.rs:306-309`) -/
structure InvMap where
  map : RankMap
  blocks : List Nat
deriving DecidableEq, Repr

namespace InvMap

/-- the `while` loop of `new` (`rank_select_map.rs:320-323`) for block `bi` with prefix sums `lo`, `hi` -/
def fillBlock (lo hi bi : Nat) : Nat → List Nat × Nat → Option (List Nat × Nat)
  | 0, _ => none
  | fuel + 1, st =>
    if lo ≤ st.2 ∧ st.2 < hi then do
      let b ← upd st.1 (st.2 / 256) bi
      fillBlock lo hi bi fuel (b, st.2 + 256)
    else some st

/-- the loop over `windows(2)` (`rank_select_map.rs:319-324`) -/
def fillBlocks : List Nat → Nat → List Nat × Nat → Option (List Nat × Nat)
  | lo :: hi :: ps, bi, st => do
    let st ← fillBlock lo hi bi (hi + 1) st
    fillBlocks (hi :: ps) (bi + 1) st
  | _, _, st => some st

/-- `new` (`rank_select_map.rs:313-327`) -/
def new (m : RankMap) : Option InvMap := do
  let groups := 1 + (m.len + 255) / 256
  let blocks ← upd (List.replicate groups 0) (groups - 1) (m.prefixSum.length - 1)
  let st ← fillBlocks m.prefixSum 0 (blocks, 0)
  return ⟨m, st.1⟩

/-- one halving step of `int_local_index` (`rank_select_map.rs:372-378`, …) with the assertion before it; state: word, rank, shifted -/
def halve (h : Nat) (st : Nat × Nat × Nat) : Option (Nat × Nat × Nat) :=
  if st.2.1 < 2 * h then
    let lower := popcount (st.1 % 2 ^ h)
    if lower ≤ st.2.1 then some (st.1 >>> h, st.2.1 - lower, st.2.2 + h) else some st
  else none

/-- `while adjusted_rank > 0 { word &= word - 1; adjusted_rank -= 1 }` (`rank_select_map.rs:397-400`) -/
def dropBits : Nat → Nat → Option Nat
  | 0, w => some w
  | r + 1, w => if w = 0 then none else dropBits r (w &&& (w - 1))

/-- `int_local_index` (`rank_select_map.rs:366-404`) -/
def intLocalIndex (w rank : Nat) : Option Nat := do
  if popcount w ≤ rank then none
  let st ← halve 32 (w, rank, 0)
  let st ← halve 16 st
  let st ← halve 8 st
  if 8 ≤ st.2.1 then none
  let w ← dropBits st.2.1 st.1
  let k := trailingZeros w
  if k = 64 then none
  return st.2.2 + k

/-- the loop of `block_local_index` (`rank_select_map.rs:349-361`); state: popcount sum, skipped bits. `iter.next().unwrap()`
panics at the end of the block. -/
def scanBlock (rank : Nat) : List Nat → Nat → Nat → Option Nat
  | [], _, _ => none
  | w :: ws, sum, skipped =>
    if sum + popcount w > rank then do
      let k ← intLocalIndex w (rank - sum)
      return skipped + k
    else scanBlock rank ws (sum + popcount w) (skipped + 64)

/-- `block_local_index` (`rank_select_map.rs:344-364`) -/
def blockLocalIndex (m : InvMap) (block rank : Nat) : Option Nat := do
  let d := m.map.flags.data
  let s ← slice d (block * 8) (min ((block + 1) * 8) d.length)
  scanBlock rank s 0 0

/-- `rank_select_map.rs:333-336`: the index of the block in the searched range; the subtraction may underflow. -/
def blockOf : Lookup → Option Nat
  | .ok i => some i
  | .err i => if i = 0 then none else some (i - 1)

/-- `inverse` (`rank_select_map.rs:330-342`); `bs` is `slice::binary_search`. -/
def inverse (bs : List Nat → Nat → Lookup) (m : InvMap) (value : Nat) : Option Nat := do
  if m.map.len ≤ value then none
  let group := value / 256
  let a ← m.blocks[group]?
  let b ← m.blocks[group + 1]?
  let s ← slice m.map.prefixSum a (b + 1)
  let i ← blockOf (bs s value)
  let block := i + a
  let p ← m.map.prefixSum[block]?
  if value < p then none
  let k ← m.blockLocalIndex block (value - p)
  return block * 512 + k

end InvMap
/-! ### `slice::binary_search`

Not part of the repository. These are the two algorithms the Rust standard library has used, transcribed from its source: the one
since version 1.82 and the one of versions 1.52 to 1.81. -/

/-- `while size > 1 { let half = size / 2; let mid = base + half; base = if self[mid] > v { base } else { mid }; size -= half; }` -/
def searchLoop (l : List Nat) (v : Nat) : Nat → Nat → Nat → Nat
  | 0, base, _ => base
  | fuel + 1, base, size =>
    if size > 1 then
      let half := size / 2
      let mid := base + half
      searchLoop l v fuel (if l.getD mid 0 > v then base else mid) (size - half)
    else base

/-- `binary_search` since 1.82 -/
def stdSearch (l : List Nat) (v : Nat) : Lookup :=
  if l.length = 0 then .err 0
  else
    let base := searchLoop l v l.length 0 l.length
    if l.getD base 0 = v then .ok base else .err (base + if l.getD base 0 < v then 1 else 0)

/-- `while left < right { let mid = left + (right - left) / 2; … if self[mid] == v { return Ok(mid) } }`, `Err(left)` at the end -/
def oldLoop (l : List Nat) (v : Nat) : Nat → Nat → Nat → Lookup
  | 0, left, _ => .err left
  | fuel + 1, left, right =>
    if left < right then
      let mid := left + (right - left) / 2
      if l.getD mid 0 < v then oldLoop l v fuel (mid + 1) right
      else if l.getD mid 0 > v then oldLoop l v fuel left mid
      else .ok mid
    else .err left

/-- `binary_search` before 1.82 -/
def oldSearch (l : List Nat) (v : Nat) : Lookup := oldLoop l v (l.length + 1) 0 l.length

end Bits
end Verif
