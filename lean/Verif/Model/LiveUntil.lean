import Verif.Model.Sources
import Verif.Model.FlPlf
import Verif.Spec.LiveUntil
/- Model of the computation from when on arcs of the hierarchy are not affected by live traffic (`engine/src/algo/td_astar.rs:907-951`), and of the
cursor over the sources of an arc (`engine/src/datastr/graph/floating_time_dependent/shortcut_source.rs:603-658`). Simplifications as in
`Verif.Model.FlPlf`: `f64` is `Rat`, `EPSILON` is the parameter `eps`. -/
namespace Verif
namespace LiveUntil
open Spec

/-- `binary_search_by` on sources -/
abbrev Search := (Rat × Via → Ordering) → List (Rat × Via) → Except Nat Nat

/-- `struct SourceCursor` (`shortcut_source.rs:603-607`) without the sources -/
structure Cursor where
  index : Nat
  offset : Rat
deriving DecidableEq, Repr

/-- `valid_at` (`shortcut_source.rs:610-637`) -/
def Cursor.validAt (bs : Search) (eps : Rat) (l : List (Rat × Via)) (t : Rat) : Option Cursor :=
  let s := Fl.splitDay t
  match bs (fun p => Fl.cmp eps p.1 s.2) l with
  | .ok i => some ⟨i, s.1 * day⟩
  | .error i => if i = 0 then none else some ⟨i - 1, s.1 * day⟩

/-- `cur` (`shortcut_source.rs:639-641`) -/
def Cursor.cur (l : List (Rat × Via)) (c : Cursor) : Option (Rat × Via) := do
  let x ← l[c.index]?
  return (x.1 + c.offset, x.2)

/-- `next` (`shortcut_source.rs:643-649`) -/
def Cursor.next (l : List (Rat × Via)) (c : Cursor) : Option (Rat × Via) :=
  if c.index + 1 = l.length then do
    let x ← l[0]?
    return (x.1 + c.offset + day, x.2)
  else do
    let x ← l[c.index + 1]?
    return (x.1 + c.offset, x.2)

/-- `advance` (`shortcut_source.rs:651-657`) -/
def Cursor.advance (l : List (Rat × Via)) (c : Cursor) : Cursor :=
  if c.index + 1 = l.length then ⟨0, c.offset + day⟩ else ⟨c.index + 1, c.offset⟩

/-- `(f64::from(…) * 1000.0).ceil() as Timestamp` (`td_astar.rs:936`); the cast saturates. -/
def ceilMs (x : Rat) : Nat := min (x * 1000).ceil.toNat (U32 - 1)

/-- `fw_validity` and `bw_validity` -/
structure Times where
  fw : List Nat
  bw : List Nat
deriving DecidableEq, Repr

/-- the array for a direction -/
def Times.dir (r : Times) : Bool → List Nat
  | true => r.fw
  | false => r.bw

/-- write to the array for a direction -/
def Times.write (r : Times) : Bool → Nat → Nat → Option Times
  | true, e, x => (upd r.fw e x).map fun l => { r with fw := l }
  | false, e, x => (upd r.bw e x).map fun l => { r with bw := l }

/-- An access to a slice `…_below`, which covers the arcs from `offset` to `start` (`td_astar.rs:920-921, 931`) -/
def belowN (offset start : Nat) (l : List Nat) (e : Nat) : Option Nat := if offset ≤ e ∧ e < start then l[e]? else none

/-- `source_live_until` (`td_astar.rs:929-935`); `ended` are the values of `live_ended_at`. -/
def liveUntil (ended : List Nat) (offset start : Nat) (r : Times) : Via → Option Nat
  | .pair a b => do
    let x ← belowN offset start r.bw a
    let y ← belowN offset start r.fw b
    return max x y
  | .edge o => ended[o]?
  | .nothing => some 0

/-- The loop over the sources of an arc (`td_astar.rs:928-938`); the first argument bounds the number of iterations. -/
def scan (eps longest : Rat) (live : Via → Option Nat) (l : List (Rat × Via)) : Nat → Cursor → Nat → Option Nat
  | 0, _, _ => none
  | fuel + 1, c, v => do
    let x ← c.cur l
    if Fl.flt eps x.1 longest then do
      let u ← live x.2
      let y ← c.next l
      scan eps longest live l fuel (c.advance l) (max v (min u (ceilMs y.1)))
    else return v

/-- What is read: as `Sources.Arrays`, with the times of the sources -/
structure TimedArrays where
  firstOut : List Nat
  fwFirst : List Nat
  fwSources : List (Rat × Via)
  bwFirst : List Nat
  bwSources : List (Rat × Via)
deriving DecidableEq, Repr

/-- `&sources[first_source[edge_idx]..first_source[edge_idx + 1]]` (`td_astar.rs:924-925`) -/
def TimedArrays.sources (d : TimedArrays) (up : Bool) (e : Nat) : Option (List (Rat × Via)) := do
  let first := if up then d.fwFirst else d.bwFirst
  let a ← first[e]?
  let b ← first[e + 1]?
  slice (if up then d.fwSources else d.bwSources) a b

/-- `longest_live` (`td_astar.rs:907-911`) -/
def longestLive (ended : List Nat) : Nat := ended.foldl max 0

/-- One iteration of `set_validity_for_edges` (`td_astar.rs:923-940`) -/
def edgeStep (bs : Search) (eps : Rat) (ended : List Nat) (tLive fuel : Nat) (d : TimedArrays) (offset start : Nat) (up : Bool) (r : Times) (e : Nat) :
    Option Times := do
  let l ← d.sources up e
  if l.isEmpty then return r
  else do
    let c ← Cursor.validAt bs eps l ((tLive : Rat) / 1000)
    let v ← (r.dir up)[e]?
    let v ← scan eps ((longestLive ended : Rat) / 1000) (liveUntil ended offset start r) l fuel c v
    r.write up e v

/-- One iteration of `set_prediction_validity_from_sources` (`td_astar.rs:918-944`) for a node in a task which works on the arcs from `offset` on -/
def nodeStep (bs : Search) (eps : Rat) (ended : List Nat) (tLive fuel : Nat) (d : TimedArrays) (offset : Nat) (r : Times) (x : Nat) : Option Times := do
  let a ← d.firstOut[x]?
  let b ← d.firstOut[x + 1]?
  if a < offset then none
  else do
    let r ← (List.range' a (b - a)).foldlM (edgeStep bs eps ended tLive fuel d offset a true) r
    (List.range' a (b - a)).foldlM (edgeStep bs eps ended tLive fuel d offset a false) r

/-- The whole computation (`td_astar.rs:913-951`): all nodes in the order in which the tasks process them; `offset x` is the `edge_offset` of the task
that processes `x`. The step for a node is atomic in the model. -/
def validFrom (bs : Search) (eps : Rat) (ended : List Nat) (tLive fuel : Nat) (d : TimedArrays) (offset : Nat → Nat) (L : List Nat) (m : Nat) : Option Times :=
  L.foldlM (fun r x => nodeStep bs eps ended tLive fuel d (offset x) r x) ⟨List.replicate m 0, List.replicate m 0⟩

end LiveUntil
end Verif
