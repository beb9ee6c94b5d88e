import Verif.Model.MultiCrit
import Verif.Model.FixSubPaths
/-
Model of `TrafficAwareServer` (`engine/src/algo/traffic_aware.rs:379-522`). Of the reports only the distances and the final path are kept.
-/
namespace Verif.Traffic
open Spec UBS CCH

/-- the weight of the cheapest edge (l.469-473): `min_by_key` and `unwrap`; only the weight of the edge is used -/
def minWeight (g : FOGraph) (u v : Nat) : Option Nat := do
  let es ← g.edgeIndices u v
  let ws ← es.mapM (fun e => (g.link e).map Link.weight)
  ws.min?

/-- `position(…)` (l.475-484) from index `i` on -/
def position (dist : Nat) (act : Active) : List Lab → Nat → Option Nat
  | [], _ => none
  | l :: ls, i => do
    let hit ← if l.dist = dist then l.act.isSubset act else some false
    if hit then return i else position dist act ls (i + 1)

/-- The loop that builds the path (l.464-487). The path is kept reversed, the last node pushed first. The number of steps is bounded by
the fuel. -/
def unpack (g : FOGraph) (d : MData) (from_ : Nat) : Nat → Nat → List Nat → Nat → Option (List Nat)
  | 0, _, _, _ => none
  | fuel + 1, last, rest, idx =>
    if last = from_ then some (last :: rest)
    else do
      let q ← d.dist.get last
      let l ← q.popped[idx]?
      let w ← minWeight g l.parent last
      let x ← minus l.dist w
      let pq ← d.dist.get l.parent
      let idx ← position x l.pact pq.popped 0
      unpack g d from_ fuel l.parent (last :: rest) idx

/-- `struct TrafficAwareServer` (l.379-385): the borrowed parts -/
structure Server (σ : Type) where
  ubs : CchServer
  live : FOGraph
  pot : Potential σ

/-- the fields that change -/
structure TState (σ : Type) where
  ubs : State PathState PathState
  data : MData
  pot : σ
  ops : Blocked

/-- `new` (l.388-398); the data of the `ubs_checker` and of the potential are given -/
def TState.new {σ : Type} (live : FOGraph) (ubs : State PathState PathState) (pot : σ) : TState σ :=
  ⟨ubs, MData.new live.numNodes, pot, Blocked.new live.numNodes live.numArcs⟩

/-- One search (l.425-488): `None` if the target was not reached, otherwise `final_live_dist` and the path. -/
def searchPath {σ : Type} (dbg : Bool) (S : Server σ) (fuel : Nat) (st : TState σ) (s t : Nat) : Option (Option (Nat × List Nat) × TState σ) := do
  let (d, c) ← st.data.init S.pot st.pot s
  let (d, c) ← d.search S.pot S.live st.ops t fuel c
  let st : TState σ := { st with data := d, pot := c }
  let q ← d.dist.get t
  match q.popped with
  | [] => return (none, st)
  | l :: ls =>
    check dbg (ls = [])
    let path ← unpack S.live d s fuel t [] 0
    return (some (l.dist, path), st)

/-- `for violating_range in violating` (l.501-504) -/
def forbid (dbg : Bool) (g : FOGraph) (path : List Nat) : List Rng → Blocked → Option Blocked
  | [], b => some b
  | r :: rs, b => do
    let part ← slice path r.start (r.stop + 1)
    let b ← b.add dbg g part
    forbid dbg g path rs b

/-- The result of a query: found, with the path and its reported length, or `None`; the flag says whether the time limit was the reason. -/
inductive Outcome
  | found (path : List Nat) (dist : Nat)
  | failed (late : Bool)
deriving DecidableEq, Repr

/-- The `loop` (l.415-505), iteration `i`. `late i` says whether the time limit `TRAFFIC_MAX_QUERY_TIME` has passed before iteration `i`.
`inner` bounds the steps of one search, `fuel` the number of iterations. -/
def loop {σ : Type} (dbg : Bool) (S : Server σ) (srt : List Rng → List Rng) (thr : Nat → Nat) (late : Nat → Bool) (inner s t : Nat) :
    Nat → Nat → TState σ → Option (Outcome × TState σ)
  | 0, _, _ => none
  | fuel + 1, i, st =>
    if late i then some (.failed true, st)
    else do
      let (r, st) ← searchPath dbg S inner st s t
      match r with
      | none => return (.failed false, st)
      | some (dist, path) =>
        let (viol, u) ← S.ubs.find dbg srt st.ubs thr path
        let st : TState σ := { st with ubs := u }
        if viol = [] then return (.found path dist, st)
        else
          let ops ← forbid dbg S.live path viol st.ops
          loop dbg S srt thr late inner s t fuel (i + 1) { st with ops := ops }

/-- `query` (l.400-521). The subtraction in the report (l.516) is checked. `thr d` is `(d as f64 * epsilon) as Weight`. -/
def query {σ : Type} (dbg : Bool) (S : Server σ) (srt : List Rng → List Rng) (late : Nat → Bool) (inner fuel : Nat) (st : TState σ)
    (thr : Nat → Nat) (s t : Nat) : Option (Outcome × TState σ) := do
  let ops ← st.ops.reset S.live
  let c ← S.pot.init st.pot t
  let (c, base) ← S.pot.get c s
  let st : TState σ := { st with ops := ops, pot := c }
  match base with
  | none => return (.failed false, st)
  | some base =>
    let (o, st) ← loop dbg S srt thr late inner s t fuel 0 st
    match o with
    | .found _ dist =>
      let _ ← minus dist base
      return (o, st)
    | .failed _ => return (o, st)

/-- One call of `query`: the threshold function of its `epsilon`, from, to, and when the time limit is noticed. -/
structure Call where
  thr : Nat → Nat
  s : Nat
  t : Nat
  late : Nat → Bool

/-- Several queries with one server, one after the other. -/
def queries {σ : Type} (dbg : Bool) (S : Server σ) (srt : List Rng → List Rng) (inner fuel : Nat) :
    TState σ → List Call → Option (List Outcome × TState σ)
  | st, [] => some ([], st)
  | st, q :: qs => do
    let (o, st) ← query dbg S srt q.late inner fuel st q.thr q.s q.t
    let (os, st) ← queries dbg S srt inner fuel st qs
    return (o :: os, st)

end Verif.Traffic
