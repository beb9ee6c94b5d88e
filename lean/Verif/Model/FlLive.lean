import Verif.Model.FlTdDijkstra
import Verif.Model.FlMerge
/- Model of graphs with live travel times (`engine/src/datastr/graph/floating_time_dependent/graph.rs:254-391`, `UpdatedPiecewiseLinearFunction` in `piecewise_linear_function.rs:1716-1787`), in
exact arithmetic. `dbg` switches the debug assertions of `UpdatedPiecewiseLinearFunction` and `PartialPiecewiseLinearFunction::new`; those of the helpers are always checked. -/
namespace Verif.FlTd
open Spec Fl

/-- the loop of `switchpoint` (`floating_time_dependent/graph.rs:298-321`); the number of steps is bounded by the last but one argument -/
def switchLoop (tl : Tol) (live soon : Rat) (below : Bool) : Nat → Cursor → Option Pt
  | 0, _ => none
  | n + 1, c => do
    let cur ← c.cur
    let line := if below then soon + live - cur.t else live + cur.t - soon
    if feq tl.eps line cur.v then some cur
    else if (below && flt tl.eps line cur.v) || (!below && flt tl.eps cur.v line) then do
      let prev ← c.prev
      intersectionPoint tl prev cur ⟨soon, live⟩ ⟨cur.t, line⟩
    else switchLoop tl live soon below n c.advance

/-- `switchpoint` (`floating_time_dependent/graph.rs:291-322`) -/
def switchpoint (bs : Search) (tl : Tol) (fuel : Nat) (plf : List Pt) (live soon : Rat) : Option Pt := do
  let e ← evaluate bs tl.eps plf soon
  if feq tl.eps e live then some ⟨soon, live⟩
  else switchLoop tl live soon (flt tl.eps e live) fuel (Cursor.startingAt bs tl.eps plf soon)

/-- `LiveGraph` (`floating_time_dependent/graph.rs:254-259`) -/
structure LiveGraph where
  graph : Graph
  first : List Nat
  ipps : List Pt

/-- the points of one arc (`floating_time_dependent/graph.rs:267-281`) -/
def livePoints (bs : Search) (tl : Tol) (dbg : Bool) (fuel : Nat) (g : Graph) (now : Rat) (e : Nat) : Option (Nat × Nat) → Option (List Pt)
  | none => some []
  | some (l, s) => do
    let live : Rat := (l : Rat) / 1000
    let soon : Rat := (s : Rat) / 1000
    let plf ← g.ttf e
    let sw ← switchpoint bs tl fuel plf live soon
    let v ← evaluate bs tl.eps plf sw.t
    dassert dbg (feq tl.eps v sw.v)
    some ((if flt tl.eps soon sw.t then [⟨now, live⟩, ⟨soon, live⟩] else [⟨now, live⟩]) ++ [sw])

/-- one arc in `LiveGraph::new` (`floating_time_dependent/graph.rs:266-283`) -/
def liveStep (bs : Search) (tl : Tol) (dbg : Bool) (fuel : Nat) (g : Graph) (now : Rat) (st : List Nat × List Pt) (x : Option (Nat × Nat) × Nat) : Option (List Nat × List Pt) := do
  let pts ← livePoints bs tl dbg fuel g now x.2 x.1
  some (st.1 ++ [(st.2 ++ pts).length], st.2 ++ pts)

/-- `LiveGraph::new` (`floating_time_dependent/graph.rs:262-290`) -/
def LiveGraph.new (bs : Search) (tl : Tol) (dbg : Bool) (fuel : Nat) (g : Graph) (now : Rat) (live : List (Option (Nat × Nat))) : Option LiveGraph := do
  let st ← live.zipIdx.foldlM (liveStep bs tl dbg fuel g now) ([0], [])
  some ⟨g, st.1, st.2⟩

/-- `UpdatedPiecewiseLinearFunction` (`piecewise_linear_function.rs:1716-1721`) -/
structure Updated where
  plf : List Pt
  update : List Pt

/-- `UpdatedPiecewiseLinearFunction::new` (`piecewise_linear_function.rs:1724-1730`) -/
def Updated.new (bs : Search) (tl : Tol) (dbg : Bool) (plf update : List Pt) : Option Updated := do
  dassert dbg (update.length != 1)
  if dbg then
    match update.getLast? with
    | some p => do
      let v ← evaluate bs tl.eps plf p.t
      assert (feq tl.eps v p.v)
      some ⟨plf, update⟩
    | none => some ⟨plf, update⟩
  else some ⟨plf, update⟩

/-- `LiveGraph::travel_time_function` (`floating_time_dependent/graph.rs:325-332`) -/
def LiveGraph.ttf (bs : Search) (tl : Tol) (dbg : Bool) (G : LiveGraph) (e : Nat) : Option Updated := do
  let plf ← G.graph.ttf e
  let a ← G.first[e]?
  let b ← G.first[e + 1]?
  Updated.new bs tl dbg plf (← slice G.ipps a b)

/-- `PartialPiecewiseLinearFunction::new` (`piecewise_linear_function.rs:508-517`) -/
def partialNew (eps : Rat) (dbg : Bool) (pts : List Pt) : Option (List Pt) := do
  dassert dbg (!pts.isEmpty)
  dassert dbg ((pts.zip pts.tail).all (fun x => flt eps x.1.t x.2.t && !flt eps (x.2.v - x.1.v) (x.1.t - x.2.t)))
  some pts

/-- the part of `evaluate` after its debug assertion (`piecewise_linear_function.rs:1763-1767`) -/
def Updated.evaluateMain (bs : Search) (tl : Tol) (dbg : Bool) (f : Updated) (t : Rat) : Option Rat :=
  match f.update.getLast? with
  | some p =>
    if t ≤ p.t then do eval bs tl.eps (← partialNew tl.eps dbg f.update) t
    else evaluate bs tl.eps f.plf t
  | none => evaluate bs tl.eps f.plf t

/-- `UpdatedPiecewiseLinearFunction::evaluate` (`piecewise_linear_function.rs:1761-1768`) -/
def Updated.evaluate (bs : Search) (tl : Tol) (dbg : Bool) (f : Updated) (t : Rat) : Option Rat :=
  if dbg then do
    let p ← f.update[0]?
    assert (!flt tl.eps t p.t)
    f.evaluateMain bs tl dbg t
  else f.evaluateMain bs tl dbg t

/-- `lower_bound` (`piecewise_linear_function.rs:1744-1749`, `lower_bound` of the parts: `plf:162-164, 532-534`) -/
def Updated.lower (f : Updated) : Option Rat := do
  let l ← (f.plf.map (·.v)).min?
  some (min l (((f.update.map (·.v)).min?).getD 2147483647))

/-- `upper_bound` (`piecewise_linear_function.rs:1751-1753`, `upper_bound` of the parts: `plf:166-168, 536-538`) -/
def Updated.upper (f : Updated) : Option Rat := do
  let l ← (f.plf.map (·.v)).max?
  some (max l (((f.update.map (·.v)).max?).getD 0))

/-- `travel_time_function(e).evaluate(t)` for `LiveGraph` -/
def LiveGraph.time (bs : Search) (tl : Tol) (dbg : Bool) (G : LiveGraph) (e : Nat) (t : Rat) : Option Rat := do
  (← G.ttf bs tl dbg e).evaluate bs tl dbg t

/-- `t_live` (`floating_time_dependent/graph.rs:334-336`) -/
def LiveGraph.now (G : LiveGraph) : Option Rat := G.ipps[0]?.map Pt.t

/-- `evaluate_path` (`floating_time_dependent/graph.rs:343-349`); `ev`: `travel_time_function(e).evaluate(t)` -/
def evaluatePath (ev : Nat → Rat → Option Rat) (t : Rat) (es : List Nat) : Option Rat :=
  es.foldlM (fun tt e => do let x ← ev e (t + tt); some (tt + x)) 0

end Verif.FlTd
