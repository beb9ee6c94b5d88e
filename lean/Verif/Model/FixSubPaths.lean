import Verif.Model.CCHPathPot
/-
Model of the repair of paths with violating subpaths and of the path statistics
(`engine/src/algo/minimal_nonshortest_subpaths.rs:31-70, 118-260`). Reports are omitted.
-/
namespace Verif.UBS
open Spec CCH

/-! ### `fix_violating_subpaths` -/

/-- `violating.retain(…)` (l.150-158) with `covered_until` -/
def retainDisjoint : Nat → List Rng → List Rng
  | _, [] => []
  | covered, r :: l => if r.start ≥ covered then r :: retainDisjoint r.stop l else retainDisjoint covered l

/-- The loop `while *fixed_path.last().unwrap() != orig_path[r.end]` (l.174-178): the nodes that are pushed. The number of steps is
bounded by the fuel. -/
def followTree (order : NodeOrder) (parents : List (Nat × Nat)) (goal : Nat) : Nat → Nat → Option (List Nat)
  | 0, last => if last = goal then some [] else none
  | fuel + 1, last =>
    if last = goal then some []
    else do
      let r ← order.rank last
      let p ← parents[r]?
      let parent ← order.node p.1
      let rest ← followTree order parents goal fuel parent
      return parent :: rest

/-- The variables of the loop `for r in violating` (l.165-181): `fixed_path`, `pushed_until` and the potential. -/
structure Fix where
  fixed : List Nat
  pushed : Nat
  tgt : PathState

/-- The body of the loop `for r in violating` (l.165-181) -/
def fixRange (dbg : Bool) (s : CchServer) (n : Nat) (path : List Nat) (st : Fix) (r : Rng) : Option Fix := do
  let part ← slice path st.pushed (r.start + 1)
  let fixed := st.fixed ++ part
  let goal ← path[r.stop]?
  let segEnd ← s.order.rank goal
  let from_ ← path[r.start]?
  let segStart ← s.order.rank from_
  let tgt ← s.target.init st.tgt segEnd
  let tgt ← s.target.unpack dbg ((n + 1) * (n + 1)) tgt segStart
  let last ← fixed.getLast?
  let seg ← followTree s.order tgt.parents goal n last
  return ⟨fixed ++ seg, r.stop + 1, tgt⟩

/-- `fix_violating_subpaths_int` (l.143-184). `byStart` is `sort_unstable_by_key(|r| r.start)`. -/
def fixOnce (dbg : Bool) (s : CchServer) (srt byStart : List Rng → List Rng) (thr : Nat → Nat) (st : State PathState PathState) (path : List Nat) :
    Option (Option (List Nat) × State PathState PathState) := do
  let (viol, st) ← s.find dbg srt st thr path
  if viol = [] then return (none, st)
  else
    let viol := retainDisjoint 0 (byStart viol)
    let f ← viol.foldlM (fixRange dbg s st.ranks.length path) ⟨[], 0, st.tgt⟩
    let rest ← slice path f.pushed path.length
    return (some (f.fixed ++ rest), { st with tgt := f.tgt })

/-- What `fix_violating_subpaths` returns: `Ok(None)`, `Ok(Some(path))` or `Err(path)`. -/
inductive Fixed
  | ok (p : Option (List Nat))
  | late (p : List Nat)
deriving DecidableEq, Repr

/-- The loop of `fix_violating_subpaths` (l.118-141), iteration `i`; `result` is the variable of that name. `late i` says whether the
time limit `TRAFFIC_MAX_QUERY_TIME` has passed after iteration `i`. The number of iterations is bounded by the fuel. -/
def fixLoop (dbg : Bool) (s : CchServer) (srt byStart : List Rng → List Rng) (thr : Nat → Nat) (late : Nat → Bool) (orig : List Nat) :
    Nat → Nat → Option (List Nat) → State PathState PathState → Option (Fixed × State PathState PathState)
  | 0, _, _, _ => none
  | fuel + 1, i, result, st => do
    let (r, st) ← fixOnce dbg s srt byStart thr st (result.getD orig)
    match r with
    | none => return (.ok result, st)
    | some fixed =>
      if late (i + 1) then return (.late fixed, st)
      else fixLoop dbg s srt byStart thr late orig fuel (i + 1) (some fixed) st

/-- `fix_violating_subpaths` (l.118-141) -/
def CchServer.fix (dbg : Bool) (s : CchServer) (srt byStart : List Rng → List Rng) (late : Nat → Bool) (fuel : Nat) (st : State PathState PathState)
    (thr : Nat → Nat) (path : List Nat) : Option (Fixed × State PathState PathState) :=
  fixLoop dbg s srt byStart thr late path fuel 0 none st

/-! ### `find_ubs_violating_subpaths_lazy_rphast_naive` -/

/-- The inner loop (l.54-65) for the first node of rank `u`: the first rank from `i` on at which the path is too long -/
def naiveInner (dbg : Bool) (P : PathPot) (thr : Nat → Nat) (dists : List Nat) (u : Nat) :
    List (Nat × Nat) → PathState → Option (Option Rng × PathState)
  | [], s => some (none, s)
  | (v, i) :: rest, s => do
    let (s, d) ← P.get s v
    let dist ← d
    let x ← dists[i]?
    let y ← dists[u]?
    let pathDist ← minus x y
    check dbg (dist ≤ pathDist)
    check dbg (0 < dist)
    let e ← minus pathDist dist
    if e > thr dist then return (some ⟨u, i⟩, s) else naiveInner dbg P thr dists u rest s

/-- The outer loop (l.52-66) -/
def naiveOuter (dbg : Bool) (P : PathPot) (thr : Nat → Nat) (dists nodes : List Nat) : List (Nat × Nat) → PathState → Option (List Rng × PathState)
  | [], s => some ([], s)
  | (u, i) :: rest, s => do
    let s ← P.init s u
    let (r, s) ← naiveInner dbg P thr dists i (nodes.zipIdx.drop (i + 1)) s
    let (rs, s) ← naiveOuter dbg P thr dists nodes rest s
    return (r.toList ++ rs, s)

/-- `find_ubs_violating_subpaths_lazy_rphast_naive` (l.31-70) -/
def CchServer.findNaive (dbg : Bool) (s : CchServer) (srt : List Rng → List Rng) (st : State PathState PathState) (thr : Nat → Nat)
    (path : List Nat) : Option (List Rng × State PathState PathState) := do
  let dists ← pathDists dbg s.graph path
  let nodes ← path.mapM s.order.rank
  let (ranks, viol) ← markPath st.ranks nodes
  let ranks ← unmark ranks nodes
  if viol ≠ [] then return (viol, { st with ranks := ranks })
  else
    let last ← minus nodes.length 1
    let (viol, src) ← naiveOuter dbg s.source thr dists nodes (nodes.zipIdx.take last) st.src
    let out ← Seq.filterCovered srt viol
    return (out, { st with src := src, ranks := ranks })

/-! ### `local_optimality` and `suboptimal_stats` -/

/-- The closure of `local_optimality` (l.207-214); its state is `local_optimality`. -/
def localOpt (lo : Nat) (_ : Rng) (pathDist dist : Nat) : Option (Nat × Bool) :=
  if pathDist ≠ dist then some (min lo pathDist, true) else some (lo, false)

/-- The closure of `suboptimal_stats` (l.243-253). Its state is `local_optimality` and `ubs`; the floating point number `ubs` is the
fraction `num / den` here, compared without rounding. -/
def subOpt (dbg : Bool) (st : Nat × Nat × Nat) (_ : Rng) (pathDist dist : Nat) : Option ((Nat × Nat × Nat) × Bool) := do
  check dbg (dist ≠ 0)
  if pathDist ≠ dist then
    let e ← minus pathDist dist
    let (num, den) := st.2
    return ((min st.1 pathDist, if e * den > num * dist then (e, dist) else (num, den)), false)
  else return (st, false)

/-- The frame both functions have (l.186-219, 222-259): mark the path (a node that occurs twice is a panic), find, unmark. `init` makes
the state of the closure from `base_dist`. The result is the state of the closure and `base_dist`. -/
def pathStat {κ : Type} (dbg : Bool) (s : CchServer) (init : Nat → κ) (cb : κ → Rng → Nat → Nat → Option (κ × Bool))
    (st : State PathState PathState) (path : List Nat) : Option ((κ × Nat) × State PathState PathState) := do
  let nodes ← path.mapM s.order.rank
  check dbg (st.ranks.all (· = none))
  let n := st.ranks.length
  let (ranks, viol) ← markPath st.ranks nodes
  if viol ≠ [] then none
  else
    let dists ← pathDists dbg s.graph path
    let base ← dists.getLast?
    let f ← treeFind dbg (s.target.oracle dbg n) (s.source.oracle dbg n) ranks nodes dists cb (nodes.length + 1) 0 nodes.length
      ⟨st.tgt, st.src, st.cache, init base⟩
    let ranks ← unmark ranks nodes
    return ((f.cb, base), ⟨f.tgt, f.src, f.cache, ranks⟩)

/-- `local_optimality` (l.186-219): numerator and denominator of the result -/
def CchServer.localOptimality (dbg : Bool) (s : CchServer) (st : State PathState PathState) (path : List Nat) :
    Option ((Nat × Nat) × State PathState PathState) :=
  pathStat dbg s (fun base => base) localOpt st path

/-- `suboptimal_stats` (l.222-259): numerator and denominator of the first result; numerator and denominator of the second result minus
1 (before the first suboptimal subpath is found it is 0, here `0 / 1`) -/
def CchServer.suboptimalStats (dbg : Bool) (s : CchServer) (st : State PathState PathState) (path : List Nat) :
    Option (((Nat × Nat × Nat) × Nat) × State PathState PathState) :=
  pathStat dbg s (fun base => (base, 0, 1)) (subOpt dbg) st path

/-! ### Histories of calls -/

/-- a call of one of the functions above (`late`: see `fixLoop`) -/
inductive PathOp
  | find (thr : Nat → Nat) (path : List Nat)
  | findNaive (thr : Nat → Nat) (path : List Nat)
  | fix (thr : Nat → Nat) (late : Nat → Bool) (path : List Nat)
  | localOptimality (path : List Nat)
  | suboptimalStats (path : List Nat)

inductive Reply
  | ranges (l : List Rng)
  | fixed (r : Fixed)
  | local (lo base : Nat)
  | stats (lo base num den : Nat)
deriving DecidableEq, Repr

def CchServer.op (dbg : Bool) (s : CchServer) (srt byStart : List Rng → List Rng) (fuel : Nat) (st : State PathState PathState) :
    PathOp → Option (Reply × State PathState PathState)
  | .find thr path => do
    let (r, st) ← s.find dbg srt st thr path
    return (.ranges r, st)
  | .findNaive thr path => do
    let (r, st) ← s.findNaive dbg srt st thr path
    return (.ranges r, st)
  | .fix thr late path => do
    let (r, st) ← s.fix dbg srt byStart late fuel st thr path
    return (.fixed r, st)
  | .localOptimality path => do
    let ((lo, base), st) ← s.localOptimality dbg st path
    return (.local lo base, st)
  | .suboptimalStats path => do
    let (((lo, num, den), base), st) ← s.suboptimalStats dbg st path
    return (.stats lo base num den, st)

def CchServer.ops (dbg : Bool) (s : CchServer) (srt byStart : List Rng → List Rng) (fuel : Nat) :
    State PathState PathState → List PathOp → Option (List Reply × State PathState PathState)
  | st, [] => some ([], st)
  | st, o :: os => do
    let (r, st) ← s.op dbg srt byStart fuel st o
    let (rs, st) ← s.ops dbg srt byStart fuel st os
    return (r :: rs, st)

end Verif.UBS
