import Verif.Model.TdDijkstra
import Verif.Model.CCH
/-
Model of `PiecewiseLinearFunction::average` and of the construction of the server for time-dependent sampling
(`engine/src/algo/time_dependent_sampling.rs`), release builds.
-/
namespace Verif
open Spec (Lookup PERIOD)

namespace Plf

/-- `index_range` (`time_dependent/sorted_search_slice_ext.rs:50-68`) -/
def indexRange (bs : List Nat → Nat → Lookup) (dt : List Nat) (a b : Nat) : Option (Nat × Nat) :=
  if a = b then some (0, 0)
  else do
    let i := match ← locate bs dt a with
      | .on i => i
      | .between lo _ => lo
    let j := match ← locate bs dt b with
      | .on i => i + 1
      | .between _ up => up + 1
    return (i, j)

/-- `non_wrapping_seg_iter` (`time_dependent/piecewise_linear_function.rs:152-166`): the values at both ends of each segment and
the length of its part within the range, as `average` uses them -/
def segs (bs : List Nat → Nat → Lookup) (f : Fn) (a b : Nat) : Option (List (Nat × Nat × Nat)) := do
  let (i, j) ← indexRange bs f.dt a b
  let ds ← slice f.dt i j
  let ts ← slice f.tt i j
  ((ds.zip ds.tail).zip (ts.zip ts.tail)).mapM fun s => do
    let d ← sub32 (min s.1.2 b) (max s.1.1 a)
    return (s.2.1, s.2.2, d)

/-- `average` over the wrapping range from `a` to `b` (`time_dependent/piecewise_linear_function.rs:32-43`, `monotonize` in
`time_dependent/wrapping_range.rs:40-45`). The sums fit `u64`. -/
def average (bs : List Nat → Nat → Lookup) (f : Fn) (a b : Nat) : Option Nat := do
  let b := if b ≤ a then b + PERIOD else b
  let total ← sub32 b a
  let (r1, r2) := split a b PERIOD
  let s1 ← segs bs f r1.1 r1.2
  let s2 ← segs bs f r2.1 r2.2
  let sum := ((s1 ++ s2).map (fun s => s.1 * s.2.2 + s.2.1 * s.2.2)).sum
  if total = 0 then none else return sum / 2 / total % U32

end Plf

namespace Sampling

/-- the windows of the samples in hours (`time_dependent_sampling.rs:42-47`) -/
def windows : List (Nat × Nat) := [(22, 5), (7, 10), (11, 15), (16, 19)]

/-- the average travel time of each arc in a window (`time_dependent_sampling.rs:49-61`) -/
def metric (bs : List Nat → Nat → Lookup) (g : TD.Graph) (w : Nat × Nat) : Option (List Nat) :=
  (List.range g.head.length).mapM fun e => do
    Plf.average bs (← g.ttf e) (w.1 * (PERIOD / 24)) (w.2 * (PERIOD / 24))

/-- `Server::new` (`time_dependent_sampling.rs:37-72`): one customization per window -/
def serverNew (bs : List Nat → Nat → Lookup) (g : TD.Graph) (c : CCH.Cch) : Option (List CCH.Weights) :=
  windows.mapM fun w => do
    let m ← metric bs g w
    CCH.customize c ⟨g.firstOut, g.head, m⟩

end Sampling

end Verif
