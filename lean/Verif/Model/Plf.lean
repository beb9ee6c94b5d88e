import Verif.Model.Graph
import Verif.Spec.Bits
import Verif.Spec.Plf
/- Model of `engine/src/datastr/graph/time_dependent/`: piecewise linear functions and live traffic. -/
namespace Verif
open Spec (Lookup PERIOD)

/-- `u32` subtraction -/
def sub32 (a b : Nat) : Option Nat := if b ≤ a then some (a - b) else none

/-- `u32::saturating_add` -/
def satAdd (a b : Nat) : Nat := min (a + b) (U32 - 1)

namespace Plf

/-- `PiecewiseLinearFunction` (`time_dependent/piecewise_linear_function.rs:6-9`): departure and travel times -/
structure Fn where
  dt : List Nat
  tt : List Nat
deriving DecidableEq, Repr

/-- `Location` (`time_dependent/sorted_search_slice_ext.rs:7-10`) -/
inductive Loc where
  | on (i : Nat)
  | between (lo up : Nat)
deriving DecidableEq, Repr

/-- the result of the binary search as a location (`time_dependent/sorted_search_slice_ext.rs:38-46`) -/
def locOf : Lookup → Option Loc
  | .ok i => some (.on i)
  | .err u => if u = 0 then none else some (.between (u - 1) u)

/-- `locate` (`time_dependent/sorted_search_slice_ext.rs:28-48`) -/
def locate (bs : List Nat → Nat → Lookup) (dt : List Nat) (time : Nat) : Option Loc :=
  if time = 0 then some (.on 0)
  else if time = PERIOD then (if dt.length = 0 then none else some (.on (dt.length - 1)))
  else locOf (bs dt time)

/-- `into_monotone_at_line().interpolate_tt_in_range(x)` on the line from `(x0, v0)` to `(x1, v1)`
(`time_dependent/geometry/line.rs:31-62`). The product of two `u32` fits a `u64`. -/
def interpolate (x0 v0 x1 v1 x : Nat) : Option Nat := do
  let a0 ← add32 x0 v0
  let a1 ← add32 x1 v1
  let dx ← sub32 x1 x0
  let dy ← sub32 a1 a0
  let rx ← sub32 x x0
  if dx = 0 then none
  else sub32 ((a0 + rx * dy / dx) % U32) x

/-- `evaluate` (`time_dependent/piecewise_linear_function.rs:132-151`). Unchecked accesses out of bounds are `none` here. -/
def evaluate (bs : List Nat → Nat → Lookup) (f : Fn) (t : Nat) : Option Nat :=
  if f.dt.length ≤ 2 then f.tt[0]?
  else do
    match ← locate bs f.dt t with
    | .on i => f.tt[i]?
    | .between lo up =>
      let x0 ← f.dt[lo]?
      let v0 ← f.tt[lo]?
      let x1 ← f.dt[up]?
      let v1 ← f.tt[up]?
      interpolate x0 v0 x1 v1 t

/-- `eval` (`time_dependent/piecewise_linear_function.rs:47-49`) -/
def eval (bs : List Nat → Nat → Lookup) (f : Fn) (t : Nat) : Option Nat := evaluate bs f (t % PERIOD)

/-- `lower_bound` (`time_dependent/piecewise_linear_function.rs:52-54`) -/
def lowerBound (f : Fn) : Option Nat := f.tt.min?

/-- `upper_bound` (`time_dependent/piecewise_linear_function.rs:126-128`) -/
def upperBound (f : Fn) : Option Nat := f.tt.max?

/-- index and extra value at the start of a range (`time_dependent/piecewise_linear_function.rs:72-75`, `106-109`) -/
def firstOf (bs : List Nat → Nat → Lookup) (f : Fn) (t : Nat) : Option (Nat × Nat) := do
  match ← locate bs f.dt t with
  | .on i => some (i, INFINITY)
  | .between _ up => do
    let v ← evaluate bs f t
    return (up, v)

/-- index and extra value at the end of a range (`time_dependent/piecewise_linear_function.rs:77-80`, `111-114`) -/
def lastOf (bs : List Nat → Nat → Lookup) (f : Fn) (t : Nat) : Option (Nat × Nat) := do
  match ← locate bs f.dt t with
  | .on i => some (i, INFINITY)
  | .between lo _ => do
    let v ← evaluate bs f t
    return (lo, v)

/-- the values over which the bounds of a range are taken (`time_dependent/piecewise_linear_function.rs:72-86`, `106-120`) -/
def included (bs : List Nat → Nat → Lookup) (f : Fn) (a b : Nat) : Option (List Nat) := do
  let (i, v) ← firstOf bs f a
  let (j, w) ← lastOf bs f b
  let s ← slice f.tt i (j + 1)
  return s ++ [v, w]

/-- `lower_bound_in_included` (`time_dependent/piecewise_linear_function.rs:68-89`) -/
def lowerIncluded (bs : List Nat → Nat → Lookup) (f : Fn) (a b : Nat) : Option Nat :=
  if b ≤ a then some INFINITY
  else do
    let s ← included bs f a b
    s.min?

/-- `upper_bound_in_included` (`time_dependent/piecewise_linear_function.rs:102-123`) -/
def upperIncluded (bs : List Nat → Nat → Lookup) (f : Fn) (a b : Nat) : Option Nat :=
  if b ≤ a then some INFINITY
  else do
    let s ← included bs f a b
    s.max?

/-- `split` (`time_dependent/math.rs:29-58`) -/
def split (a b at_ : Nat) : (Nat × Nat) × (Nat × Nat) :=
  if at_ < a then ((at_, at_), (a, b))
  else if b ≤ at_ then ((a, b), (at_, at_))
  else ((a, at_), (at_, b))

/-- `lower_bound_in_range` (`time_dependent/piecewise_linear_function.rs:57-66`) -/
def lowerInRange (bs : List Nat → Nat → Lookup) (f : Fn) (a b : Nat) : Option Nat :=
  match f.tt with
  | [c] => some c
  | _ => do
    let (r, s) := split a b PERIOD
    let x ← lowerIncluded bs f r.1 r.2
    let y ← lowerIncluded bs f (s.1 % PERIOD) (s.2 % PERIOD)
    return min x y

/-- `upper_bound_in_range` (`time_dependent/piecewise_linear_function.rs:91-100`) -/
def upperInRange (bs : List Nat → Nat → Lookup) (f : Fn) (a b : Nat) : Option Nat :=
  match f.tt with
  | [c] => some c
  | _ => do
    let (r, s) := split a b PERIOD
    let x ← upperIncluded bs f r.1 r.2
    let y ← upperIncluded bs f (s.1 % PERIOD) (s.2 % PERIOD)
    return max x y

/-- The break points of one arc after `Graph::new` (`time_dependent/graph.rs:34-57`); `none` is the failed assertion. -/
def normalize (f : Fn) : Option Fn := do
  let d0 ← f.dt[0]?
  let t0 ← f.tt[0]?
  if f.dt.length > 1 then
    let dt := if d0 ≠ 0 then 0 :: f.dt else f.dt
    let tt := if d0 ≠ 0 then t0 :: f.tt else f.tt
    let l ← dt.getLast?
    if l ≠ PERIOD then return ⟨dt ++ [PERIOD], tt ++ [t0]⟩ else return ⟨dt, tt⟩
  else return ⟨[0], [t0]⟩

/-- `LiveTDGraph::eval` for one arc (`time_dependent/graph.rs:284-300`); `live` is its live travel time -/
def evalLive (bs : List Nat → Nat → Lookup) (f : Fn) (soon : Nat) (live : Option Nat) (t : Nat) : Option Nat := do
  let predicted ← eval bs f t
  match live with
  | none => return predicted
  | some l =>
    if t < soon then return l
    else
      let s ← eval bs f soon
      if s < l then
        let e ← add32 l soon
        return max (e - t) predicted
      else
        let e ← sub32 (satAdd l t) soon
        return min e predicted

/-- `PessimisticLiveTDGraph::eval` for one arc (`time_dependent/graph.rs:401-415`) -/
def evalPess (bs : List Nat → Nat → Lookup) (f : Fn) (live : Option (Nat × Nat)) (t : Nat) : Option Nat := do
  let predicted ← eval bs f t
  match live with
  | none => return predicted
  | some (l, soon) =>
    if soon ≤ t then
      let x ← eval bs f t
      return max predicted x
    else
      let s ← eval bs f soon
      return max predicted (min l (satAdd s (soon - t)))

/-- `PessimisticLiveTDGraph::upper_bound` for one arc (`time_dependent/graph.rs:417-424`) -/
def upperPess (bs : List Nat → Nat → Lookup) (f : Fn) (live : Option (Nat × Nat)) (now : Nat) : Option Nat := do
  let u ← upperBound f
  let e ← evalPess bs f live now
  return max u (min ((live.map Prod.fst).getD 0) e)

/-- `PessimisticLiveTDGraph::live_lower_bound` for one arc (`time_dependent/graph.rs:426-438`) -/
def liveLower (bs : List Nat → Nat → Lookup) (f : Fn) (live : Option (Nat × Nat)) (now until_ : Nat) : Option Nat :=
  match live with
  | some (l, soon) =>
    if soon ≤ until_ then lowerInRange bs f soon until_
    else do
      let s ← eval bs f soon
      return min l (satAdd s (soon - until_))
  | none => lowerInRange bs f now until_

end Plf
end Verif
