import Verif.Model.BitVec
import Verif.Model.Sort
import Verif.Spec.Sequences
/- Model of the iterator adaptors of `engine/src/util.rs` and of `filter_covered`
(`engine/src/algo/minimal_nonshortest_subpaths.rs`). An iterator is the list of its remaining elements. -/
namespace Verif.Seq
open Spec

/-! ### `Interleave` -/

/-- `struct Interleave` (`util.rs:207-211`) -/
structure Interleave (α : Type) where
  a : List α
  b : List α
  flag : Bool

/-- `next` of a (fused) iterator -/
def pull {α : Type} : List α → Option (α × List α)
  | [] => none
  | x :: l => some (x, l)

/-- `interleave` (`util.rs:218-228`) -/
def Interleave.new {α : Type} (a b : List α) : Interleave α := ⟨a, b, false⟩

/-- `Interleave::next` (`util.rs:237-250`); `none` is the end of the iteration. -/
def Interleave.next {α : Type} (s : Interleave α) : Option (α × Interleave α) :=
  if !s.flag then
    match pull s.a with
    | some (x, a) => some (x, ⟨a, s.b, true⟩)
    | none => (pull s.b).map (fun p => (p.1, ⟨s.a, p.2, true⟩))
  else
    match pull s.b with
    | some (x, b) => some (x, ⟨s.a, b, false⟩)
    | none => (pull s.a).map (fun p => (p.1, ⟨p.2, s.b, false⟩))

/-- `Interleave::size_hint` (`util.rs:252-254`, `257-266`) for iterators that know their length; sums stay below `usize::MAX` -/
def Interleave.sizeHint {α : Type} (s : Interleave α) : Nat × Option Nat := (s.a.length + s.b.length, some (s.a.length + s.b.length))

/-- Collecting an iterator; `none` if it does not end within `fuel` calls. -/
def collect {σ α : Type} (next : σ → Option (α × σ)) : Nat → σ → Option (List α)
  | 0, _ => none
  | fuel + 1, s =>
    match next s with
    | none => some []
    | some (x, s) => (collect next fuel s).map (x :: ·)

/-! ### `CoordinateSweepIter` -/

/-- `CoordinateSweepIter::next` (`util.rs:295-308`) on the remaining elements of both sides -/
def sweepNext (s : List Nat × List Nat) : Option ((Option Nat × Option Nat) × List Nat × List Nat) :=
  match s with
  | (x :: a, y :: b) =>
    if x < y then some ((some x, none), a, y :: b)
    else if y < x then some ((none, some y), x :: a, b)
    else some ((some x, some y), a, b)
  | (x :: a, []) => some ((some x, none), a, [])
  | ([], y :: b) => some ((none, some y), [], b)
  | ([], []) => none

/-! ### `filter_covered` -/

/-- The `BTreeMap` from ends to lists of indices: its entries, in any order. -/
abbrev Active := List (Nat × List Nat)

/-- `BTreeMap::split_off`: what stays and what is returned (keys `≥ k`) -/
def splitOff (m : Active) (k : Nat) : Active × Active := (m.filter (fun e => e.1 < k), m.filter (fun e => k ≤ e.1))

/-- `entry(k).or_insert_with(Vec::new).push(i)` -/
def pushAt (m : Active) (k i : Nat) : Active :=
  if m.any (fun e => e.1 == k) then m.map (fun e => if e.1 = k then (e.1, e.2 ++ [i]) else e) else m ++ [(k, [i])]

/-- one round of the loop of `filter_covered` (`minimal_nonshortest_subpaths.rs:432-444`) for range `i`; state: `active`, `covered` -/
def coverStep (st : Active × Bits.BitVec) (p : Rng × Nat) : Option (Active × Bits.BitVec) := do
  let active := (splitOff st.1 p.1.start).2
  let (active, over) := splitOff active p.1.stop
  let covered ← over.foldlM (fun c e => e.2.foldlM (fun c idx => c.set idx) c) st.2
  return (pushAt active p.1.stop p.2, covered)

/-- the order of the comparison function (`minimal_nonshortest_subpaths.rs:420-427`) -/
def rngLe (a b : Rng) : Prop := a.start < b.start ∨ a.start = b.start ∧ b.stop ≤ a.stop

/-- `filter_covered` (`minimal_nonshortest_subpaths.rs:419-447`); `srt` is `sort_unstable_by` with that comparison function. -/
def filterCovered (srt : List Rng → List Rng) (ranges : List Rng) : Option (List Rng) := do
  let l := srt ranges
  let st ← l.zipIdx.foldlM coverStep ([], Bits.BitVec.new l.length)
  let flags ← (List.range l.length).mapM st.2.get
  return ((l.zip flags).filter (fun p => !p.2)).map Prod.fst

end Verif.Seq
