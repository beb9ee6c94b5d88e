import Verif.Spec.TravelTime
/- Model of the travel time functions of CATCHUp (`engine/src/datastr/graph/floating_time_dependent/`): evaluation, inverse
evaluation and linking of periodic functions.

Simplifications: `f64` is `Rat`, so there are no rounding errors; `EPSILON` of the comparisons is the parameter `eps` (0.000001 in the code).
Debug assertions are part of the model: one that fails is a panic (`none`), and so is a division by zero (debug assertion in `Div`,
`mod.rs:179-186`, not a number in release builds). Theorems about results that are not `none` hold for release builds, too.

File names: `plf` is `piecewise_linear_function.rs`, `cursor` is `piecewise_linear_function/cursor.rs`. -/
namespace Verif
namespace Fl
open Spec

/-- `fuzzy_eq` (`mod.rs:57-59`) -/
def feq (eps x y : Rat) : Bool := decide (x - y ≤ eps) && decide (y - x ≤ eps)

/-- `fuzzy_lt` (`mod.rs:63-65`) -/
def flt (eps x y : Rat) : Bool := decide (x - y < -eps)

/-- `debug_assert!` -/
def assert (b : Bool) : Option Unit := if b then some () else none

/-- `/` (`mod.rs:179-186`) -/
def div (eps x y : Rat) : Option Rat := if feq eps y 0 then none else some (x / y)

/-- `split_of_period` (`mod.rs:233-240`): the *number* of days and the time of day -/
def splitDay (t : Rat) : Rat × Rat := (((t / day).floor : Rat), t - (t / day).floor * day)

/-- `TTFPoint::shifted` (`geometry/point.rs:16-21`) -/
def shifted (p : Pt) (off : Rat) : Pt := ⟨p.t + off, p.v⟩

/-- `interpolate_linear` (`geometry/point.rs:55-58`) -/
def interpolate (eps : Rat) (p q : Pt) (t : Rat) : Option Rat := do
  let frac ← div eps (t - p.t) (q.t - p.t)
  return p.v + (q.v - p.v) * frac

/-- The order of `x` and `y` as used in the binary searches (`plf:96-105, 554-562`, `cursor:46-54`): less, equal up to `EPSILON`, greater -/
def cmp (eps x y : Rat) : Ordering := if feq eps x y then .eq else if x < y then .lt else .gt

/-- The type of `binary_search_by` on a list of points; `.ok i` if an equal point was found, `.error i` with the place to insert it. -/
abbrev Search := (Pt → Ordering) → List Pt → Except Nat Nat

/-- `PartialPiecewiseLinearFunction::eval` (`plf:544-571`). The debug assertions on the range are included; `get_unchecked` out of bounds is
a panic here. -/
def eval (bs : Search) (eps : Rat) (ipps : List Pt) (t : Rat) : Option Rat :=
  match ipps with
  | [] => none
  | [p] => some p.v
  | first :: rest => do
    let last ← (first :: rest).getLast?
    assert (!flt eps last.t t)
    assert (!flt eps t first.t)
    match bs (fun p => cmp eps p.t t) (first :: rest) with
    | .ok i => (first :: rest)[i]?.map Pt.v
    | .error i =>
      if i = 0 then none
      else do
        let prev ← (first :: rest)[i - 1]?
        let next ← (first :: rest)[i]?
        interpolate eps prev next t

/-- `PeriodicPiecewiseLinearFunction::evaluate` (`plf:75-78`) -/
def evaluate (bs : Search) (eps : Rat) (ipps : List Pt) (t : Rat) : Option Rat := eval bs eps ipps (splitDay t).2

/-- `PeriodicPiecewiseLinearFunction::inverse_evaluate` (`plf:82-120`) -/
def inverseEvaluate (bs : Search) (eps : Rat) (ipps : List Pt) (t : Rat) : Option Rat :=
  match ipps with
  | [] => none
  | [p] => some (t - p.v)
  | first :: rest => do
    let d := splitDay (t - first.v)
    let t := d.2 + first.v
    let last ← (first :: rest).getLast?
    assert (!flt eps (last.t + last.v) t)
    assert (!flt eps t (first.t + first.v))
    match bs (fun p => cmp eps (p.t + p.v) t) (first :: rest) with
    | .ok i => (first :: rest)[i]?.map (fun p => d.1 + p.t)
    | .error i =>
      if i = 0 then none
      else do
        let prev ← (first :: rest)[i - 1]?
        let next ← (first :: rest)[i]?
        let frac ← div eps (t - (prev.t + prev.v)) ((next.t + next.v) - (prev.t + prev.v))
        return d.1 + (prev.t + (next.t - prev.t) * frac)

/-- `append_too_close` (`plf:54-66`) -/
def appendTooClose (eps : Rat) (pts : List Pt) (p : Pt) : Option (List Pt) := do
  let last ← pts.getLast?
  assert (decide (last.t ≤ p.t))
  let s := p.t - eps
  let other : Option (List Pt) := some (pts ++ [⟨last.t + eps, p.v⟩])
  match pts.dropLast.getLast? with
  | none => other
  | some prev =>
    if flt eps prev.t s then do
      let v ← interpolate eps prev last s
      return pts.dropLast ++ [⟨s, v⟩, p]
    else other

/-- `append_point` (`plf:28-51`); `co` is the feature `tdcch-prevent-colinear`. -/
def appendPoint (co : Bool) (eps : Rat) (pts : List Pt) (p : Pt) : Option (List Pt) := do
  assert (decide (0 ≤ p.v))
  match pts.getLast? with
  | none => return [p]
  | some last =>
    if feq eps last.t p.t then
      if feq eps last.v p.v then return pts else appendTooClose eps pts p
    else do
      let drop ← match co, pts.dropLast.getLast? with
        | true, some prev => do
          let v ← interpolate eps prev p last.t
          pure (feq eps v last.v)
        | _, _ => pure false
      let pts := if drop then pts.dropLast else pts
      assert (match pts.getLast? with
        | none => true
        | some l => flt eps l.t p.t)
      return pts ++ [p]

/-- `PartialPlfLinkCursor` (`cursor:177-182`) -/
structure LinkCur where
  rest : List Pt
  cur : Pt
  prev : Pt
  done : Bool
deriving DecidableEq, Repr

/-- `PartialPlfLinkCursor::new` (`cursor:186-194`) -/
def LinkCur.new : List Pt → Option LinkCur
  | [] => none
  | p :: rest => some ⟨rest, p, ⟨p.t - 1, p.v⟩, false⟩

/-- `PartialPlfLinkCursor::advance` (`cursor:204-212`) -/
def LinkCur.advance (c : LinkCur) : LinkCur :=
  match c.rest with
  | p :: rest => ⟨rest, p, c.cur, c.done⟩
  | [] => ⟨[], ⟨c.cur.t + 1, c.cur.v⟩, c.cur, true⟩

/-- `Cursor` (`cursor:19-23`) -/
structure Cursor where
  ipps : List Pt
  idx : Nat
  offset : Rat
deriving DecidableEq, Repr

/-- `match pos { Ok(i) => i, Err(i) => i }` (`cursor:56-59`) -/
def place : Except Nat Nat → Nat
  | .ok i => i
  | .error i => i

/-- `Cursor::starting_at_or_after` (`cursor:26-72`) -/
def Cursor.startingAt (bs : Search) (eps : Rat) (ipps : List Pt) (t : Rat) : Cursor :=
  let d := splitDay t
  let offset := d.1 * day
  if ipps.length = 1 then
    if d.2 > 0 then ⟨ipps, 0, day + offset⟩ else ⟨ipps, 0, offset⟩
  else
    let i := place (bs (fun p => cmp eps p.t d.2) ipps)
    if i = ipps.length - 1 then ⟨ipps, 0, day + offset⟩ else ⟨ipps, i, offset⟩

/-- `Cursor::cur` (`cursor:85-87`) -/
def Cursor.cur (c : Cursor) : Option Pt := (c.ipps[c.idx]?).map (shifted · c.offset)

/-- `Cursor::next` (`cursor:89-95`) -/
def Cursor.next (c : Cursor) : Option Pt :=
  if c.ipps.length = 1 then c.ipps.head?.map (shifted · (c.offset + day))
  else (c.ipps[c.idx + 1]?).map (shifted · c.offset)

/-- `Cursor::prev` (`cursor:97-106`) -/
def Cursor.prev (c : Cursor) : Option Pt :=
  if c.ipps.length = 1 then c.ipps.head?.map (shifted · (c.offset - day))
  else if c.idx = 0 then
    if c.ipps.length < 2 then none else (c.ipps[c.ipps.length - 2]?).map (shifted · (c.offset - day))
  else (c.ipps[c.idx - 1]?).map (shifted · c.offset)

/-- `Cursor::advance` (`cursor:108-114`) -/
def Cursor.advance (c : Cursor) : Cursor :=
  if (c.idx + 1) % c.ipps.length = c.ipps.length - 1 ∨ c.ipps.length = 1 then { c with offset := c.offset + day, idx := 0 }
  else { c with idx := c.idx + 1 }

/-- One step of the loop in `link` (`plf:272-298`): the next point and the cursors after it -/
def linkStep (eps : Rat) (f : LinkCur) (g : Cursor) : Option (Pt × LinkCur × Cursor) := do
  let gc ← g.cur
  if feq eps gc.t (f.cur.t + f.cur.v) then
    return (⟨f.cur.t, gc.v + f.cur.v⟩, f.advance, g.advance)
  else if gc.t < f.cur.t + f.cur.v then do
    assert (flt eps gc.t (f.cur.t + f.cur.v))
    let m ← div eps (f.cur.t - f.prev.t) (f.cur.t + f.cur.v - f.prev.t - f.prev.v)
    let x := m * (gc.t - f.prev.t - f.prev.v) + f.prev.t
    return (⟨x, gc.t + gc.v - x⟩, f, g.advance)
  else do
    assert (flt eps (f.cur.t + f.cur.v) gc.t)
    let gp ← g.prev
    let m ← div eps (gc.v - gp.v) (gc.t - gp.t)
    return (⟨f.cur.t, gp.v + m * (f.cur.t + f.cur.v - gp.t) + f.cur.v⟩, f.advance, g)

/-- The loop in `link` (`plf:272-309`), with a bound on the number of steps (running out of it counts as a panic) -/
def linkLoop (co : Bool) (eps : Rat) : Nat → LinkCur → Cursor → List Pt → Option (List Pt)
  | 0, _, _, _ => none
  | fuel + 1, f, g, res => do
    let (p, f, g) ← linkStep eps f g
    if !flt eps p.t day then return res
    else do
      assert (!flt eps p.t 0)
      let res ← appendPoint co eps res ⟨max (min p.t day) 0, p.v⟩
      linkLoop co eps fuel f g res

/-- `result.last_mut().unwrap().at = t` (`plf:260, 313`) -/
def setLastTime (pts : List Pt) (t : Rat) : Option (List Pt) := do
  let last ← pts.getLast?
  return pts.dropLast ++ [⟨t, last.v⟩]

/-- The points of `link` for a constant first function (`plf:238-258`) -/
def shiftPoints (val off zero : Rat) (g : List Pt) : List Pt :=
  ⟨0, zero + val⟩ :: (g.filter (fun p => decide (off < p.t))).map (fun p => ⟨p.t - off, p.v + val⟩) ++
    (g.filter (fun p => decide (p.t < off))).map (fun p => ⟨p.t + day - off, p.v + val⟩) ++ [⟨day, zero + val⟩]

/-- `PeriodicPiecewiseLinearFunction::link` (`plf:228-318`) -/
def link (bs : Search) (co : Bool) (eps : Rat) (f g : List Pt) : Option (List Pt) :=
  match f, g with
  | [p], [q] => some [⟨0, p.v + q.v⟩]
  | [p], g => do
    let zero ← evaluate bs eps g p.v
    let res ← (shiftPoints p.v (splitDay p.v).2 zero g).foldlM (appendPoint co eps) []
    setLastTime res day
  | f, [q] => some (f.map (fun p => ⟨p.t, p.v + q.v⟩))
  | f, g => do
    let fc ← LinkCur.new f
    let gc := Cursor.startingAt bs eps g (0 + fc.cur.v)
    let res ← linkLoop co eps (f.length + g.length + 2) fc gc []
    let first ← res.head?
    let res ← appendPoint co eps res ⟨day, first.v⟩
    let res ← setLastTime res day
    assert (decide (res.length ≤ f.length + g.length + 1))
    return res

end Fl
end Verif
