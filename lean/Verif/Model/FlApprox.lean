import Verif.Model.FlMerge
import Verif.Model.Base
/- Model of the approximation of periodic travel time functions of CATCHUp (`engine/src/datastr/graph/floating_time_dependent/piecewise_linear_function.rs`,
without the feature `tdcch-approx-imai-iri`).

Simplifications as in `Verif.Model.FlPlf`: `f64` is `Rat`, `EPSILON` and `APPROX` are parameters. The recursion of Douglas and Peucker is bounded by the
number of points (running out of it counts as a panic; the theorems show that it does not happen). -/
namespace Verif
namespace Fl
open Spec

/-- `FlWeight::abs` (`mod.rs:107-109`) -/
def absv (x : Rat) : Rat := max x (-x)

/-- `max_by_key`: the last one of the largest -/
def lastMax : List (Nat × Rat) → Option (Nat × Rat)
  | [] => none
  | x :: l => match lastMax l with
    | none => some x
    | some y => if y.2 < x.2 then some x else some y

/-- `min_by_key`: the first one of the smallest -/
def firstMin : List (Nat × Rat) → Option (Nat × Rat)
  | [] => none
  | x :: l => match firstMin l with
    | none => some x
    | some y => if y.2 < x.2 then some y else some x

/-- The differences of the inner points to the line from the first to the last point, with their numbers (`plf:1185-1188, 1217-1220`) -/
def deltas (eps : Rat) (first last : Pt) (l : List Pt) : Option (List (Nat × Rat)) :=
  (l.dropLast.zipIdx.drop 1).mapM (fun x => do
    let v ← interpolate eps first last x.1.t
    return (x.2, x.1.v - v))

/-- `douglas_peuker` (`plf:1176-1203`); the points pushed to `result` -/
def dp (eps approx : Rat) : Nat → List Pt → Option (List Pt)
  | 0, _ => none
  | fuel + 1, l =>
    if l.length ≤ 2 then some l
    else do
      let first ← l.head?
      let last ← l.getLast?
      let ds ← deltas eps first last l
      let m ← lastMax (ds.map (fun x => (x.1, absv x.2)))
      if approx < m.2 then do
        let a ← dp eps approx fuel (l.take (m.1 + 1))
        let b ← dp eps approx fuel (l.drop m.1)
        return a.dropLast ++ b
      else return [first, last]

/-- The number of the point with the largest difference and the difference (`plf:1222-1229`) -/
def worst (mn mx : Nat × Rat) : Nat × Rat := if absv mx.2 < absv mn.2 then (mn.1, absv mn.2) else (mx.1, absv mx.2)

/-- `douglas_peuker_combined` (`plf:1207-1262`): the two buffers -/
def dpc (eps approx : Rat) : Nat → List Pt → List Pt → List Pt → Option (List Pt × List Pt)
  | 0, _, _, _ => none
  | fuel + 1, l, lo, up =>
    if l.length ≤ 2 then some (lo ++ l, up ++ l)
    else do
      let first ← l.head?
      let last ← l.getLast?
      let ds ← deltas eps first last l
      let mn ← firstMin ds
      let mx ← lastMax ds
      if approx < (worst mn mx).2 then do
        let r ← dpc eps approx fuel (l.take ((worst mn mx).1 + 1)) lo up
        let prevMin := (r.1.getLast?.map Pt.v).getD 0
        let prevMax := (r.2.getLast?.map Pt.v).getD 0
        let n := r.1.dropLast.length
        let r ← dpc eps approx fuel (l.drop (worst mn mx).1) r.1.dropLast r.2.dropLast
        let a ← r.1[n]?
        let b ← r.2[n]?
        let lo ← upd r.1 n ⟨a.t, min a.v prevMin⟩
        let up ← upd r.2 n ⟨b.t, max b.v prevMax⟩
        return (lo, up)
      else
        return (lo ++ [⟨first.t, first.v + min 0 mn.2⟩, ⟨last.t, last.v + min 0 mn.2⟩],
          up ++ [⟨first.t, first.v + max 0 mx.2⟩, ⟨last.t, last.v + max 0 mx.2⟩])

/-- `PartialPiecewiseLinearFunction::fifoize_down` (`plf:1305-1309`); only used for lists that are not empty (`len() - 1` panics otherwise) -/
def fifoDown : List Pt → List Pt
  | [] => []
  | p :: l => match fifoDown l with
    | [] => [p]
    | q :: r => ⟨p.t, min p.v (q.v + q.t - p.t)⟩ :: q :: r

/-- the loop of `fifoize_up` -/
def fifoUpFrom : Pt → List Pt → List Pt
  | _, [] => []
  | p, q :: l =>
    let q' : Pt := ⟨q.t, max q.v (p.v + p.t - q.t)⟩
    q' :: fifoUpFrom q' l

/-- `PartialPiecewiseLinearFunction::fifoize_up` (`plf:1311-1315`) -/
def fifoUp : List Pt → List Pt
  | [] => []
  | p :: l => p :: fifoUpFrom p l

/-- `plf.first_mut().unwrap().val = v` -/
def setFirst (l : List Pt) (v : Rat) : Option (List Pt) :=
  match l with
  | [] => none
  | p :: l => some (⟨p.t, v⟩ :: l)

/-- `plf.last_mut().unwrap().val = v` -/
def setLast (l : List Pt) (v : Rat) : Option (List Pt) := do
  let p ← l.getLast?
  return l.dropLast ++ [⟨p.t, v⟩]

/-- the value of the first point -/
def firstVal (l : List Pt) : Option Rat := l.head?.map Pt.v

/-- the value of the last point -/
def lastVal (l : List Pt) : Option Rat := l.getLast?.map Pt.v

/-- `PeriodicPiecewiseLinearFunction::fifoize_down` (`plf:439-446`) -/
def periodicDown (eps : Rat) (l : List Pt) : Option (List Pt) := do
  let l := fifoDown l
  let a ← firstVal l
  let b ← lastVal l
  let l ← if feq eps b a then some l else (setLast l a).map fifoDown
  let a ← firstVal l
  let b ← lastVal l
  assert (feq eps a b)
  return l

/-- `PeriodicPiecewiseLinearFunction::fifoize_up` (`plf:448-455`) -/
def periodicUp (eps : Rat) (l : List Pt) : Option (List Pt) := do
  let l := fifoUp l
  let a ← firstVal l
  let b ← lastVal l
  let l ← if feq eps a b then some l else (setFirst l b).map fifoUp
  let a ← firstVal l
  let b ← lastVal l
  assert (feq eps a b)
  return l

/-- `make_lower_bound_periodic` (`plf:423-429`); its assertion is the last one of `fifoize_down` again -/
def makeLower (eps : Rat) (l : List Pt) : Option (List Pt) := do
  let a ← firstVal l
  let b ← lastVal l
  let l ← setFirst l (min a b)
  let l ← setLast l (min a b)
  periodicDown eps l

/-- `make_upper_bound_periodic` (`plf:431-437`); its assertion is the last one of `fifoize_up` again -/
def makeUpper (eps : Rat) (l : List Pt) : Option (List Pt) := do
  let a ← firstVal l
  let b ← lastVal l
  let l ← setFirst l (max a b)
  let l ← setLast l (max a b)
  periodicUp eps l

/-- `PartialPiecewiseLinearFunction::try_from(self).unwrap()` (`plf:463-472`) -/
def tryPartial (l : List Pt) : Option (List Pt) := if 1 < l.length then some l else none

/-- `PeriodicPiecewiseLinearFunction::approximate` (`plf:335-341`) -/
def approximate (eps approx : Rat) (l : List Pt) : Option (List Pt) := do
  let l ← tryPartial l
  dp eps approx l.length l

/-- `PeriodicPiecewiseLinearFunction::bound_ttfs` (`plf:387-401`) -/
def boundTtfs (eps approx : Rat) (l : List Pt) : Option (List Pt × List Pt) := do
  let l ← tryPartial l
  let r ← dpc eps approx l.length l [] []
  let lo ← makeLower eps r.1
  let up ← makeUpper eps r.2
  return (lo, up)

/-- `PeriodicPiecewiseLinearFunction::lower_bound_ttf` (`plf:345-362`) -/
def lowerBoundTtf (eps approx : Rat) (l : List Pt) : Option (List Pt) := do
  let l ← tryPartial l
  let r ← dpc eps approx l.length l [] []
  let a ← firstVal r.1
  let b ← lastVal r.1
  let lo ← setFirst r.1 (min a b)
  let lo ← setLast lo (min a b)
  periodicDown eps lo

/-- `PeriodicPiecewiseLinearFunction::upper_bound_ttf` (`plf:366-383`) -/
def upperBoundTtf (eps approx : Rat) (l : List Pt) : Option (List Pt) := do
  let l ← tryPartial l
  let r ← dpc eps approx l.length l [] []
  let a ← firstVal r.2
  let b ← lastVal r.2
  let up ← setFirst r.2 (max a b)
  let up ← setLast up (max a b)
  periodicUp eps up

/-- `PartialPiecewiseLinearFunction::bound_ttfs` (`plf:1289-1303`): a part of a day -/
def partialBounds (eps approx : Rat) (l : List Pt) : Option (List Pt × List Pt) := do
  let r ← dpc eps approx l.length l [] []
  return (fifoDown r.1, fifoUp r.2)

/-- `PartialPiecewiseLinearFunction::lower_bound_ttf` (`plf:1264-1275`) -/
def partialLower (eps approx : Rat) (l : List Pt) : Option (List Pt) := do
  let r ← dpc eps approx l.length l [] []
  return fifoDown r.1

/-- `PartialPiecewiseLinearFunction::upper_bound_ttf` (`plf:1277-1288`) -/
def partialUpper (eps approx : Rat) (l : List Pt) : Option (List Pt) := do
  let r ← dpc eps approx l.length l [] []
  return fifoUp r.2

end Fl
end Verif
