import Verif.Model.FlPlf
/- Model of merging periodic travel time functions of CATCHUp (`engine/src/datastr/graph/floating_time_dependent/`).

Simplifications as in `Verif.Model.FlPlf`: `f64` is `Rat`; the tolerances are parameters (`Tol`). The debug assertions of `merge_in_bounds` are switched by
`dbg`; those of the helpers are always checked. The two branches of the main loop for a point of only one of the functions are the same code with
exchanged roles, written once here (`sideStep`). -/
namespace Verif
namespace Fl
open Spec

/-- The tolerances: `EPSILON` (`mod.rs:55`) and the two literals in `ccw` (`geometry/point.rs:136, 140`) -/
structure Tol where
  eps : Rat
  tiny : Rat
  small : Rat

/-- the values in the code -/
def Tol.code : Tol := ⟨1 / 1000000, 1 / 10000000000, 1 / 10⟩

/-- without tolerance -/
def Tol.exact : Tol := ⟨0, 0, 1 / 10⟩

/-- `debug_assert!` -/
def dassert (dbg : Bool) (b : Bool) : Option Unit := if !dbg || b then some () else none

/-- `perp_dot_product` (`geometry/point.rs:151-153`) -/
def perp (p q : Pt) : Rat := p.t * q.v - q.t * p.v

/-- `Sub` for points (`geometry/point.rs:33-41`) -/
def ptSub (p q : Pt) : Pt := ⟨p.t - q.t, p.v - q.v⟩

/-- equal up to `EPSILON` -/
def near (tl : Tol) (p q : Pt) : Bool := feq tl.eps p.t q.t && feq tl.eps p.v q.v

/-- `ccw` (`geometry/point.rs:120-149`). A division by zero is infinite or not a number there, then the comparison is false. -/
def ccw (tl : Tol) (a b c : Pt) : Int :=
  if near tl a b then 0
  else if near tl a c then 0
  else if near tl b c then 0
  else
    let v1 := ptSub c a
    let v2 := ptSub b a
    let x := perp v1 v2
    if x < tl.tiny ∧ -x < tl.tiny then 0
    else if (x < tl.small ∧ -x < tl.small) ∧
        ((v2.t ≠ 0 ∧ feq tl.eps v1.v (v1.t / v2.t * v2.v) = true) ∨ (v1.t ≠ 0 ∧ feq tl.eps v2.v (v2.t / v1.t * v1.v) = true)) then 0
    else if 0 < x then 1
    else -1

/-- `counter_clockwise` (`geometry/point.rs:101-103`) -/
def counterClockwise (tl : Tol) (p q r : Pt) : Bool := ccw tl p q r == -1

/-- `clockwise` (`geometry/point.rs:106-108`) -/
def clockwise (tl : Tol) (p q r : Pt) : Bool := ccw tl p q r == 1

/-- `intersect` (`geometry/point.rs:60-81`) -/
def intersect (tl : Tol) (f1 f2 g1 g2 : Pt) : Bool :=
  !(ccw tl f1 f2 g1 == 0) && !(ccw tl f1 f2 g2 == 0) && !(ccw tl g1 g2 f1 == 0) && !(ccw tl g1 g2 f2 == 0) &&
    !(ccw tl f1 f2 g1 == ccw tl f1 f2 g2) && !(ccw tl g1 g2 f1 == ccw tl g1 g2 f2)

/-- `intersection_point` (`geometry/point.rs:83-98`) -/
def intersectionPoint (tl : Tol) (f1 f2 g1 g2 : Pt) : Option Pt := do
  let nom := perp (ptSub g1 g2) (ptSub g1 f1)
  let d := perp (ptSub g1 g2) (ptSub f2 f1)
  assert (decide (d ≠ 0))
  let frac := nom / d
  let res : Pt := ⟨f1.t + frac * (f2.t - f1.t), f1.v + frac * (f2.v - f1.v)⟩
  let vf ← interpolate tl.eps f1 f2 res.t
  let vg ← interpolate tl.eps g1 g2 res.t
  assert (feq tl.eps vf res.v)
  assert (feq tl.eps vg res.v)
  assert (feq tl.eps vf vg)
  return res

/-- `colinear_ordered` (`geometry/point.rs:111-117`) -/
def colinearOrdered (tl : Tol) (p q r : Pt) : Option Bool := do
  assert (flt tl.eps p.t q.t)
  assert (flt tl.eps q.t r.t)
  return feq tl.eps q.v (p.v + (q.t - p.t) / (r.t - p.t) * (r.v - p.v))

/-- `Cursor::new` (`cursor:77-83`) -/
def Cursor.new (l : List Pt) : Cursor := ⟨l, 0, 0⟩

/-- times from which on `f` (`true`) or `g` (`false`) is better -/
abbrev Better := List (Rat × Bool)

/-- `better.last().unwrap().1` -/
def lastB (l : Better) : Option Bool := l.getLast?.map Prod.snd

/-- The sweep that looks for a change (`plf:891-916`): whether the functions have to be merged; the number of steps is bounded by the first argument. -/
def sweep (tl : Tol) : Nat → Bool → Cursor → Cursor → Option Bool
  | 0, _, _, _ => none
  | fuel + 1, b, f, g => do
    let fp ← f.prev
    let gp ← g.prev
    if flt tl.eps day fp.t && flt tl.eps day gp.t then return false
    else do
      let fc ← f.cur
      let gc ← g.cur
      if feq tl.eps fc.t gc.t then
        if !feq tl.eps fc.v gc.v && (decide (fc.v < gc.v) != b) then return true
        else sweep tl fuel b f.advance g.advance
      else if fc.t < gc.t then do
        let delta := fc.v - (← interpolate tl.eps gp gc fc.t)
        if !feq tl.eps delta 0 && (decide (delta < 0) != b) then return true
        else sweep tl fuel b f.advance g
      else do
        let delta := gc.v - (← interpolate tl.eps fp fc gc.t)
        if !feq tl.eps delta 0 && (decide (0 < delta) != b) then return true
        else sweep tl fuel b f g.advance

/-- The intersection of the current segments (`plf:947-960, 1113-1126`) -/
def crossStep (co dbg : Bool) (tl : Tol) (fp fc gp gc : Pt) (res : List Pt) (better : Better) : Option (List Pt × Better) :=
  if intersect tl fp fc gp gc then do
    let x ← intersectionPoint tl fp fc gp gc
    if flt tl.eps 0 x.t && flt tl.eps x.t day then do
      let b ← lastB better
      let b' := counterClockwise tl gp fc gc
      dassert dbg (b != b')
      let res ← appendPoint co tl.eps res x
      return (res, better ++ [(x.t, b')])
    else return (res, better)
  else return (res, better)

/-- A point of both functions (`plf:962-1024`); `fp`, `fc`, `fn` are `f.prev()`, `f.cur()`, `f.next()`, the same for `g`. -/
def bothStep (co dbg : Bool) (tl : Tol) (fp fc fn gp gc gn : Pt) (res : List Pt) (better : Better) : Option (List Pt × Better) := do
  let b ← lastB better
  if feq tl.eps fc.v gc.v then do
    let res ← appendPoint co tl.eps res (if b then fc else gc)
    let up := !b && counterClockwise tl fc fn gn
    dassert (dbg && up) (!counterClockwise tl gp fp fc)
    let better := if up then better ++ [(fc.t, true)] else better
    let b := b || up
    let down := b && clockwise tl fc fn gn
    dassert (dbg && down) (!clockwise tl gp fp fc)
    return (res, if down then better ++ [(fc.t, false)] else better)
  else if fc.v < gc.v then do
    let res ← appendPoint co tl.eps res fc
    dassert dbg (flt tl.eps fc.v gc.v)
    dassert dbg b
    if b then return (res, better)
    else do
      let x ← intersectionPoint tl fp fc gp gc
      return (res, better ++ [(x.t, true)])
  else do
    let res ← appendPoint co tl.eps res gc
    dassert dbg (decide (gc.v < fc.v))
    dassert dbg (!b)
    if !b then return (res, better)
    else do
      let x ← intersectionPoint tl fp fc gp gc
      return (res, better ++ [(x.t, false)])

/-- A point `c` of one function within the segment `op`, `oc` of the other one (`plf:1027-1061` with `mine = true` for a point of `f`, `plf:1063-1097` with
`mine = false` for a point of `g`); `nx` is the next point, `before` the result of the test `counter_clockwise(&g.prev(), &f.prev(), &f.cur())`
(`l.1048`) or `counter_clockwise(&g.prev(), &g.cur(), &f.prev())` (`l.1084`), `missed` the intersection for the case that it was missed. -/
def sideStep (co dbg : Bool) (tl : Tol) (mine : Bool) (c nx op oc : Pt) (before : Bool) (missed : Option Pt) (res : List Pt) (better : Better) :
    Option (List Pt × Better) := do
  let b ← lastB better
  if counterClockwise tl op c oc then do
    let res ← appendPoint co tl.eps res c
    dassert dbg (b == mine)
    if b == mine then return (res, better)
    else do
      let x ← missed
      return (res, better ++ [(x.t, mine)])
  else do
    let col ← colinearOrdered tl op c oc
    if col then do
      let up := !(b == mine) && counterClockwise tl c nx oc
      let better := if up then better ++ [(c.t, mine)] else better
      let own := (b == mine) || up
      let res ← if before || counterClockwise tl c nx oc then do
          let res ← appendPoint co tl.eps res c
          dassert dbg own
          pure res
        else pure res
      return (res, if own && clockwise tl c nx oc then better ++ [(c.t, !mine)] else better)
    else return (res, better)

/-- The main loop (`plf:946-1100`) -/
def mergeLoop (co dbg : Bool) (tl : Tol) : Nat → Cursor → Cursor → List Pt → Better → Option (Cursor × Cursor × List Pt × Better)
  | 0, _, _, _, _ => none
  | fuel + 1, f, g, res, better => do
    let fc ← f.cur
    let gc ← g.cur
    if fc.t < day ∨ gc.t < day then do
      let fp ← f.prev
      let gp ← g.prev
      let fn ← f.next
      let gn ← g.next
      let (res, better) ← crossStep co dbg tl fp fc gp gc res better
      if feq tl.eps fc.t gc.t then do
        let (res, better) ← bothStep co dbg tl fp fc fn gp gc gn res better
        mergeLoop co dbg tl fuel f.advance g.advance res better
      else if fc.t < gc.t then do
        dassert dbg (flt tl.eps fc.t gc.t)
        let (res, better) ← sideStep co dbg tl true fc fn gp gc (counterClockwise tl gp fp fc) (intersectionPoint tl fp fc gp gc) res better
        mergeLoop co dbg tl fuel f.advance g res better
      else do
        dassert dbg (decide (gc.t < fc.t))
        let (res, better) ← sideStep co dbg tl false gc gn fp fc (counterClockwise tl gp gc fp) (intersectionPoint tl fp fc gp gc) res better
        mergeLoop co dbg tl fuel f g.advance res better
    else return (f, g, res, better)

/-- `better.windows(2)` are in order and alternate (`plf:1139-1157`) -/
def windowsOK : Better → Bool
  | a :: b :: l => decide (a.1 < b.1) && (a.2 != b.2) && windowsOK (b :: l)
  | _ => true

/-- The debug assertions at the end (`plf:1138-1167`); indexing is a panic, too. -/
def endChecks (tl : Tol) (n m : Nat) (fc gc : Pt) (res : List Pt) (better : Better) : Option Unit := do
  assert (decide (res.length ≤ 2 * n + 2 * m + 2))
  assert (windowsOK better)
  assert (better.all (fun x => !flt tl.eps x.1 0 && !flt tl.eps day x.1))
  assert (feq tl.eps fc.v gc.v || (better.head?.map Prod.snd == better.getLast?.map Prod.snd))
  let r0 ← res[0]?
  assert (!flt tl.eps 0 r0.t)
  let r1 ← res[1]?
  assert (flt tl.eps 0 r1.t)
  let rl ← res[res.length - 1]?
  assert (!flt tl.eps rl.t day)
  let rp ← res[res.length - 2]?
  assert (flt tl.eps rp.t day)

/-- `upper_bound` (`plf:536-538`) -/
def upperBound : List Pt → Option Rat
  | [] => none
  | p :: l => some (l.foldl (fun m q => max m q.v) p.v)

/-- `lower_bound` (`plf:532-534`) -/
def lowerBound : List Pt → Option Rat
  | [] => none
  | p :: l => some (l.foldl (fun m q => min m q.v) p.v)

/-- `intersect_fuzzy_on_start` (`plf:871-872`): the functions intersect at the start up to `EPSILON` -/
def fuzzyStart (tl : Tol) (fc fn gc gn : Pt) : Option Bool :=
  if intersect tl fc fn gc gn then (intersectionPoint tl fc fn gc gn).map (fun x => feq tl.eps x.t 0) else some false

/-- The comparison at the start (`plf:870-885`): which function is better first, whether merging is needed already, and `intersect_fuzzy_on_start` -/
def mergeStart (tl : Tol) (fc fn gc gn : Pt) : Option (Bool × Bool × Bool) := do
  let fuzzy ← fuzzyStart tl fc fn gc gn
  if feq tl.eps fc.v gc.v || fuzzy then
    if intersect tl fc fn gc gn then do
      let x ← intersectionPoint tl fc fn gc gn
      let inside := flt tl.eps 0 x.t && flt tl.eps x.t day
      return (clockwise tl fc fn gn == inside, inside, fuzzy)
    else return (!clockwise tl fc fn gn, false, fuzzy)
  else return (decide (fc.v < gc.v), false, fuzzy)

/-- The first point, or the first two points (`plf:925-940`) -/
def mergeFirst (co : Bool) (tl : Tol) (b fuzzy : Bool) (fc fn gc gn : Pt) : Option (List Pt) :=
  if fuzzy then do
    let res ← appendPoint co tl.eps [] ⟨0, min fc.v gc.v⟩
    let t := 0 + tl.eps * (11 / 10)
    let v ← if b then interpolate tl.eps fc fn t else interpolate tl.eps gc gn t
    appendPoint co tl.eps res ⟨t, v⟩
  else appendPoint co tl.eps [] (if b then fc else gc)

/-- The last point (`plf:1128-1136`) -/
def mergeLast (co : Bool) (tl : Tol) (res : List Pt) : Option (List Pt) := do
  let first ← res.head?
  if 1 < res.length then appendPoint co tl.eps res ⟨day, first.v⟩ else return res

/-- Merging (`plf:922-1174`) -/
def mergeMain (co dbg : Bool) (tl : Tol) (f g : List Pt) (b fuzzy : Bool) (fc fn gc gn : Pt) : Option (List Pt × Better) := do
  let res ← mergeFirst co tl b fuzzy fc fn gc gn
  let (cf, cg, res, better) ← mergeLoop co dbg tl (f.length + g.length + 1) (Cursor.new f).advance (Cursor.new g).advance res [(0, b)]
  let fp ← cf.prev
  let fc ← cf.cur
  let gp ← cg.prev
  let gc ← cg.cur
  dassert dbg (!flt tl.eps fc.t day)
  dassert dbg (!flt tl.eps gc.t day)
  let (res, better) ← crossStep co dbg tl fp fc gp gc res better
  let res ← mergeLast co tl res
  if dbg then endChecks tl f.length g.length fc gc res better else pure ()
  return (res, better)

/-- `needs_merging` after the sweep (`plf:891-918`) -/
def needsMerging (tl : Tol) (f g : List Pt) (b needs : Bool) : Option Bool :=
  if needs then some true else sweep tl (2 * (f.length + g.length) + 3) b (Cursor.new f).advance (Cursor.new g).advance

/-- `PeriodicPiecewiseLinearFunction::merge` (`plf:322-329`), that is `merge_in_bounds` for cursors of periodic functions on the full range
(`plf:833-1174`): the merged function and which function is better from when on -/
def merge (co dbg : Bool) (tl : Tol) (f g : List Pt) : Option (List Pt × Better) := do
  let fu ← upperBound f
  let gl ← lowerBound g
  if fu < gl then return (f, [(0, true)])
  else do
    let gu ← upperBound g
    let fl ← lowerBound f
    if gu < fl then return (g, [(0, false)])
    else do
      let fc ← (Cursor.new f).cur
      let fn ← (Cursor.new f).next
      let gc ← (Cursor.new g).cur
      let gn ← (Cursor.new g).next
      let (b, needs, fuzzy) ← mergeStart tl fc fn gc gn
      let needs ← needsMerging tl f g b needs
      if !needs && !fuzzy then return (if b then f else g, [(0, b)])
      else mergeMain co dbg tl f g b fuzzy fc fn gc gn

end Fl
end Verif
