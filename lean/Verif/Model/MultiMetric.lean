import Verif.Model.TdAStar
import Verif.Model.TdDijkstra
import Verif.Model.CCHPotential
import Verif.Model.Perfect
import Verif.Model.Merging
/-
Model of the potential `MultiMetric` for time-dependent routing (`engine/src/algo/td_astar.rs:81-617`): lower bounds for several ranges of
time, each customized on one CCH, with the edges that can be on a shortest path only.

Not modelled: the statistics, saving and loading, the customization with live traffic (l.226-272). `Vec<u16>` indices are numbers modulo 65536.
-/
namespace Verif
namespace MultiMetric
open Spec (Lookup PERIOD)
open CCH

/-- `TRange` (`td_astar.rs:81-85`) -/
structure TRange where
  start : Nat
  fin : Nat
deriving DecidableEq, Repr

/-- `includes_instant` (`td_astar.rs:88-90`) -/
def TRange.includes (r : TRange) (t : Nat) : Bool := r.start ≤ t && t < r.fin

/-- `duration` (`td_astar.rs:92-94`); an underflow is a panic -/
def TRange.duration (r : TRange) : Option Nat := if r.start ≤ r.fin then some (r.fin - r.start) else none

/-- range, index of the metric, whether the range is repeated every day (`td_astar.rs:118`) -/
abbrev Entry := TRange × Nat × Bool

/-! ### Preprocessing -/

/-- `struct MultiMetricPreprocessed` (`td_astar.rs:165-172`) -/
structure Pre where
  ranges : List Entry
  fwMetrics : List Nat
  bwMetrics : List Nat
  fwUpper : List Nat
  bwUpper : List Nat
  upper : Side × Side
deriving DecidableEq, Repr

/-- the lower bounds for a range (`td_astar.rs:183-185`) -/
def lowerMetric (bs : List Nat → Nat → Lookup) (g : TD.Graph) (r : TRange) : Option (List Nat) :=
  (List.range g.head.length).mapM (fun e => do
    let f ← g.ttf e
    Plf.lowerInRange bs f r.start r.fin)

/-- the upper bounds (`td_astar.rs:207`) -/
def upperMetric (g : TD.Graph) : Option (List Nat) :=
  (List.range g.head.length).mapM (fun e => do
    let f ← g.ttf e
    Plf.upperBound f)

/-- the metric of a group (`td_astar.rs:199-203`) -/
def groupMetric (m : Nat) (metrics : List (List Nat)) (group : List Nat) : Option (List Nat) :=
  (List.range m).mapM (fun e => do
    let ws ← group.mapM (fun i => do
      let x ← metrics[i]?
      x[e]?)
    ws.min?)

/-- the new indices (`td_astar.rs:192-196`) -/
def regroup (groups : List (List Nat)) (ranges : List Entry) : Option (List Entry) :=
  groups.zipIdx.foldlM (fun rs (p : List Nat × Nat) => p.1.foldlM (fun rs i => do
    let r ← rs[i]?
    upd rs i (r.1, p.2 % 65536, r.2.2)) rs) ranges

/-- optional merging of metrics (`td_astar.rs:189-205`) -/
def reduceTo (pick : Nat → Nat) (m : Nat) (reduce : Option Nat) (ranges : List Entry) (metrics : List (List Nat)) : Option (List Entry × List (List Nat)) :=
  match reduce with
  | none => some (ranges, metrics)
  | some target => do
    let groups ← Merging.merge pick metrics target
    let ranges ← regroup groups ranges
    let metrics ← groups.mapM (groupMetric m metrics)
    return (ranges, metrics)

/-- the entries for the given ranges and the one for all times (`td_astar.rs:177-179`) -/
def entries (times : List TRange) : List Entry :=
  (times.zipIdx.map (fun p => (p.1, p.2 % 65536, true))) ++ [(⟨0, INFINITY⟩, times.length % 65536, false)]

/-- `MultiMetricPreprocessed::new` (`td_astar.rs:175-224`); `k` is four times the number of threads. -/
def Pre.new (bs : List Nat → Nat → Lookup) (pick : Nat → Nat) (c : Cch) (k : Nat) (times : List TRange) (g : TD.Graph) (reduce : Option Nat) : Option Pre := do
  let metrics ← (times ++ [(⟨0, INFINITY⟩ : TRange)]).mapM (lowerMetric bs g)
  let (ranges, metrics) ← reduceTo pick g.head.length reduce (entries times) metrics
  let ub ← upperMetric g
  let w ← customize c ⟨g.firstOut, g.head, ub⟩
  let p ← perfect c (List.range c.numNodes).reverse w
  let ws ← metrics.mapM (fun x => customize c ⟨g.firstOut, g.head, x⟩)
  let upper ← rebuildPar c (p.sides w).1 (p.sides w).2 k
  return ⟨ranges, (ws.map Weights.up).flatten, (ws.map Weights.down).flatten, p.up, p.down, upper⟩

/-- The fixed part of `struct MultiMetric` (`td_astar.rs:116-129`) -/
structure MM where
  ranges : List Entry
  fwFo : List Nat
  fwHead : List Nat
  bwFo : List Nat
  bwHead : List Nat
  fwMetrics : List Nat
  bwMetrics : List Nat
  upper : Side × Side
deriving DecidableEq, Repr

/-- metric `i` of `m` edges (`td_astar.rs:318-319`, l.551, l.590) -/
def metricAt (metrics : List Nat) (m i : Nat) : Option (List Nat) := slice metrics (m * i) (m * (i + 1))

/-- The filter of one direction (`td_astar.rs:316-479`): `first_out` and `head` of the edges whose lower bound is at most the upper bound, and
their weights in all metrics. The tasks are those of the model of `rebuild_customized_perfect`; the code here has the same shape with the
condition `lower <= upper` for "not modified". -/
def filterSide (c : Cch) (k : Nat) (lower upper metrics : List Nat) : Option (List Nat × List Nat × List Nat) := do
  let m := c.head.length
  let firsts ← firstNodes c k
  let skip := List.zipWith (fun l u => !(decide (l ≤ u))) lower upper
  let p ← rebuildSide c ⟨lower, skip, List.replicate m (none, none)⟩ k firsts
  let ws ← (List.range (metrics.length / m)).mapM (fun i => do
    let x ← metricAt metrics m i
    let p ← rebuildSide c ⟨x, skip, List.replicate m (none, none)⟩ k firsts
    return p.recs.map EdgeRec.weight)
  return (p.fo, p.recs.map EdgeRec.head, ws.flatten)

/-- `MultiMetric::new` (`td_astar.rs:306-496`) -/
def MM.new (c : Cch) (k : Nat) (p : Pre) : Option MM := do
  let m := c.head.length
  let g ← p.ranges.find? (fun r => !r.2.2 && decide (r.1.start = 0) && decide (r.1.fin = INFINITY))
  let fwLower ← metricAt p.fwMetrics m g.2.1
  let bwLower ← metricAt p.bwMetrics m g.2.1
  let f ← filterSide c k fwLower p.fwUpper p.fwMetrics
  let b ← filterSide c k bwLower p.bwUpper p.bwMetrics
  return ⟨p.ranges, f.1, f.2.1, b.1, b.2.1, f.2.2, b.2.2, p.upper⟩

/-! ### Queries -/

/-- The mutable part of `struct MultiMetric` (`td_astar.rs:116-129`). The stack is empty between calls. -/
structure St where
  pots : TSVec (Option (Nat × Nat))
  bwDist : TSVec Nat
  srv : Server
  current : List (TRange × Nat)

/-- `MultiMetric::new` (`td_astar.rs:488-494`); `m` is the number of edges of the server. -/
def St.new (n m : Nat) : St := ⟨TSVec.new none n, TSVec.new INFINITY n, Server.new n m, []⟩

/-- the copies of a range that include the latest arrival (`td_astar.rs:511-517`) -/
def copies (latest idx : Nat) : Nat → TRange → Option (List (TRange × Nat))
  | 0, _ => some []
  | k + 1, r => do
    let start ← add32 r.start PERIOD
    let fin ← add32 r.fin PERIOD
    let rest ← copies latest idx k ⟨start, fin⟩
    return (if r.includes latest then [(r, idx)] else []) ++ rest

/-- all ranges that include the latest arrival (`td_astar.rs:508-518`) -/
def candidates (ranges : List Entry) (latest : Nat) : Option (List (TRange × Nat)) := do
  let l ← ranges.mapM (fun r => copies latest r.2.1 (if r.2.2 then latest / PERIOD + 1 else 1) r.1)
  return l.flatten

/-- the ranges before the last one that includes the departure are dropped (`td_astar.rs:521-528`) -/
def dropFirst (departure : Nat) (l : List (TRange × Nat)) : List (TRange × Nat) :=
  let inner := (l.findIdx? (fun r => !(r.1.includes departure))).getD l.length
  if inner > 1 then l.drop (inner - 1) else l

/-- `retain` of shorter and shorter ranges (`td_astar.rs:530-538`) -/
def retain : Nat → List (TRange × Nat) → Option (List (TRange × Nat))
  | _, [] => some []
  | prev, r :: l => do
    let d ← r.1.duration
    if d < prev then do
      let l ← retain d l
      return r :: l
    else retain prev l

/-- the metrics of a query (`td_astar.rs:506-538`) -/
def selectMetrics (srt : List (TRange × Nat) → List (TRange × Nat)) (ranges : List Entry) (departure ub : Nat) : Option (List (TRange × Nat)) := do
  let latest ← add32 departure ub
  let l ← candidates ranges latest
  let l := dropFirst departure (srt l)
  let first ← l[0]?
  let d ← first.1.duration
  let d ← add32 d 1
  retain d l

/-- The pruned elimination tree walk (`td_astar.rs:549-556` with `stepped_elimination_tree.rs:82-126`) -/
def prunedWalk (g : FOGraph) (tree : List (Option Nat)) (ub : Nat) : Nat → TSVec Nat → Option Nat → Option (TSVec Nat)
  | _, dist, none => some dist
  | 0, _, some _ => none
  | fuel + 1, dist, some node => do
    let distance ← dist.get node
    let next ← tree[node]?
    if ub < distance then do
      let dist ← dist.modify node (fun _ => INFINITY)
      prunedWalk g tree ub fuel dist next
    else do
      let ls ← g.linkIterIds node
      let dist ← ls.foldlM (tsRelax distance) dist
      prunedWalk g tree ub fuel dist next

/-- The search from the target (`td_astar.rs:540-556`) -/
def backward (mm : MM) (c : Cch) (bwDist : TSVec Nat) (idx target ub : Nat) : Option (TSVec Nat) := do
  let w ← metricAt mm.bwMetrics mm.bwHead.length idx
  let target ← c.order.rank target
  let dist := bwDist.reset
  tsCheckReset c.elimTree dist (c.elimTree.length + 1) (some target)
  let dist ← dist.modify target (fun _ => 0)
  prunedWalk ⟨mm.bwFo, mm.bwHead, w⟩ c.elimTree ub (c.elimTree.length + 1) dist (some target)

/-- `init` (`td_astar.rs:500-558`) -/
def init (srt : List (TRange × Nat) → List (TRange × Nat)) (mm : MM) (c : Cch) (s : St) (source target departure : Nat) : Option St := do
  let departure := departure % PERIOD
  let pots := s.pots.reset
  let (r, srv) ← servePerfect c mm.upper s.srv source target 0
  match r.1 with
  | none => return ⟨pots, s.bwDist, srv, []⟩
  | some ub =>
    let current ← selectMetrics srt mm.ranges departure ub
    let first ← current[0]?
    let bwDist ← backward mm c s.bwDist first.2 target ub
    return ⟨pots, bwDist, srv, current⟩

/-- the last range such that it and all before include the time (`td_astar.rs:562-570`) -/
def relevant (current : List (TRange × Nat)) (t : Nat) : Nat := (current.takeWhile (fun r => r.1.includes t)).length - 1

/-- The first loop of `potential` (`td_astar.rs:583-596`) -/
def climb (tree : List (Option Nat)) (pots : TSVec (Option (Nat × Nat))) (rel : Nat) : Nat → List Nat → Nat → Option (List Nat)
  | 0, _, _ => none
  | fuel + 1, stack, cur => do
    let p ← pots.get cur
    if p.any (fun p => decide (p.2 ≤ rel)) then return stack
    else
      match ← tree[cur]? with
      | some p => climb tree pots rel fuel (cur :: stack) p
      | none => return cur :: stack

/-- One edge in the second loop (`td_astar.rs:604-606`); `assume_some` of a missing value is `none`. -/
def potRelax (pots : TSVec (Option (Nat × Nat))) (dist : Nat) (l : Link) : Option Nat := do
  let p ← pots.get l.node
  let p ← p
  let x ← add32 l.weight p.1
  return min dist x

/-- The second loop of `potential` (`td_astar.rs:597-609`) -/
def popAll (fw : FOGraph) (bwDist : TSVec Nat) (rel : Nat) : List Nat → TSVec (Option (Nat × Nat)) → Option (TSVec (Option (Nat × Nat)))
  | [], pots => some pots
  | node :: stack, pots => do
    let p ← pots.get node
    let b ← bwDist.get node
    let dist := match p with | some p => p.1 | none => b
    let ls ← fw.linkIter node
    let dist ← ls.foldlM (potRelax pots) dist
    let pots ← pots.modify node (fun _ => some (dist, rel))
    popAll fw bwDist rel stack pots

/-- `potential` (`td_astar.rs:559-617`); `dbg`: whether debug assertions are checked -/
def potential (dbg : Bool) (mm : MM) (c : Cch) (s : St) (node : Nat) (t : Option Nat) : Option (St × Option Nat) := do
  let rel ← match t with
    | none => some 0
    | some t => if dbg && decide (2 * PERIOD ≤ t) then none else some (relevant s.current t)
  match s.current[rel]? with
  | none => return (s, none)
  | some e =>
    let w ← metricAt mm.fwMetrics mm.fwHead.length e.2
    let node ← c.order.rank node
    let stack ← climb c.elimTree s.pots rel (c.elimTree.length + 1) [] node
    let pots ← popAll ⟨mm.fwFo, mm.fwHead, w⟩ s.bwDist rel stack s.pots
    let p ← pots.get node
    let p ← p
    return ({ s with pots := pots }, if p.1 < INFINITY then some p.1 else none)

/-- `impl TDPotential for MultiMetric` (`td_astar.rs:499-617`) -/
def pot (dbg : Bool) (srt : List (TRange × Nat) → List (TRange × Nat)) (mm : MM) (c : Cch) : TdAStar.TDPot St where
  init s source target departure := init srt mm c s source target departure
  get s v t := potential dbg mm c s v t

end MultiMetric
end Verif
