import Verif.Model.BiTopo
import Verif.Model.BitVec
import Verif.Model.SubPaths
/-
Model of the alternative routes found with the penalty method, `engine/src/algo/ch_potentials/penalty.rs`: `Penalty` (`alternatives`,
`alternatives_iterative`) and `PenaltyIterative` (`alternatives`), with the edge id maps and `set_edge_weight` of the
`MultiThreadedBiDirSkipLowDegServer` (`query.rs:996-1045`, `1291-1294`).

Simplifications. The searches of the `MultiThreadedBiDirSkipLowDegServer` (modelled for C60) are a parameter: an arbitrary function of the number of the
search and of all that it is given, since their answers may differ from call to call (threads, potentials that are kept). The searches in the graph of
alternatives (`alternative_graph_dijkstra`) are a parameter in the same way. The reports are left out, except for the arithmetic in their arguments,
which is always evaluated; the statistics at the end of `Penalty::alternatives` (floats) are left out. `base_dist as f64 * 1.25 * 1.1` is a parameter;
`base_dist as f64 * 1.25` is exact.
-/
namespace Verif
namespace Penalty
open Bits

/-- What `distance_with_cap` is given (`query.rs:1047-1056`); `query` passes `INFINITY` and `None` (l.1325-1327) -/
structure Call where
  forward : FOGraph
  backward : FOGraph
  s : Nat
  t : Nat
  cap : Nat
  potCap : Option Nat

/-- A `QueryResult` with a path: `distance()`, `node_path()`, `edge_path()` -/
structure Found where
  dist : Nat
  nodes : List Nat
  edges : List Nat
deriving Repr, DecidableEq

/-- the answer to the `i`-th search -/
abbrev Search := Nat → Call → Option Found

/-- `struct Penalty` (`penalty.rs:8-23`) and `struct PenaltyIterative` (l.565-573). `orig` is `alternative_graph_dijkstra.graph().graph.graph`, `cont`
its `contained_edges`; `forward`, `backward` and `f2b` are the graphs and `forward_to_backward_edge_ids` of `shortest_path_penalized`. `calls` counts the
searches. -/
structure Server where
  topo : Topo.VTopo
  orig : FOGraph
  forward : FOGraph
  backward : FOGraph
  f2b : List Nat
  rev : GraphOps.RevIds
  tail : List Nat
  times : List Nat
  reset : List Nat
  cont : FastClear
  calls : Nat

/-- `penalty.rs:38-45`: the tails of the edges -/
def tails (g : FOGraph) : Option (List Nat) := do
  let st ← GraphOps.forLinks g.numNodes (Topo.headsOf g) (fun (st : List Nat × Nat) node _ => do
    let tail ← upd st.1 st.2 node
    return (tail, st.2 + 1)) (List.replicate g.numArcs 0, 0)
  return st.1

/-- `query.rs:1014-1032`: `forward_to_backward_edge_ids` -/
def edgeIdMap (g : FOGraph) : Option (List Nat) := do
  let (ids, m) ← GraphOps.forLinks g.numNodes (Topo.headsOf g) (fun (st : List (List Nat) × Nat) _ h => do
    let l ← st.1[h]?
    let ids ← upd st.1 h (l ++ [st.2])
    let k ← add32 st.2 1
    return (ids, k)) (List.replicate g.numNodes [], 0)
  let (f2b, _) ← ids.foldlM (fun st l => l.foldlM (fun (st : List Nat × Nat) e => do
    let f2b ← upd st.1 e st.2
    let k ← add32 st.2 1
    return (f2b, k)) st) (List.replicate m m, 0)
  return f2b

/-- `Penalty::new` (`penalty.rs:28-78`), `PenaltyIterative::new` (l.576-622). The graph is the one of `new_topo_dijkstra_graphs`: only arcs within the
core. -/
def Server.new (srtN : (Nat → Nat) → List Nat → List Nat) (srt : (Link → Nat) → List Link → List Link) (g : FOGraph) : Option Server := do
  let sv ← Topo.Server.new srtN srt true g
  let main := sv.main
  let rev ← GraphOps.reversedWithEdgeIds main
  let tail ← tails main
  let back ← GraphOps.reversed main.numNodes main.numArcs main.linkIter
  let f2b ← edgeIdMap main
  return ⟨sv.topo, main, main, back, f2b, rev, tail, List.replicate main.numNodes 0, [], FastClear.new main.numArcs, 0⟩

/-- `set_edge_weight` (`query.rs:1291-1294`) -/
def setWeight (sv : Server) (e w : Nat) : Option Server := do
  let fw ← upd sv.forward.weight e w
  let b ← sv.f2b[e]?
  let bw ← upd sv.backward.weight b w
  return { sv with forward := { sv.forward with weight := fw }, backward := { sv.backward with weight := bw } }

/-- a `u32` product -/
def mul32 (a b : Nat) : Option Nat := if a * b < U32 then some (a * b) else none

/-- `let max_num_penalizations = 5;` (`penalty.rs:95`) -/
def maxTimes : Nat := 5

/-- `times_penalized[tail] < max || times_penalized[head] < max` (`penalty.rs:119-120`) -/
def fresh (sv : Server) (e : Nat) : Option Bool := do
  let u ← sv.tail[e]?
  let x ← sv.times[u]?
  if x < maxTimes then return true
  else
    let v ← sv.orig.head[e]?
    let y ← sv.times[v]?
    return decide (y < maxTimes)

/-- the loop body of `penalty.rs:118-125` -/
def penalizeEdge (sv : Server) (e : Nat) : Option Server := do
  if ← fresh sv e then
    let w ← sv.forward.weight[e]?
    let x ← mul32 w 11
    setWeight sv e (x / 10)
  else return sv

/-- `scan` of `penalty.rs:126-131` -/
def scan (w : List Nat) : Nat → List Nat → Option (List Nat)
  | _, [] => some []
  | st, e :: es => do
    let x ← w[e]?
    let st ← add32 st x
    let rest ← scan w st es
    return st :: rest

/-- `weight + (rejoin_penalty as u64 * dist as u64 / total as u64) as Weight` and `set_edge_weight` (`penalty.rs:137-141`, `151-155`). The division by
zero panics. -/
def rejoin (r dist total : Nat) (sv : Server) (e : Nat) : Option Server := do
  let w ← sv.forward.weight[e]?
  if total = 0 then none
  else
    let x ← add32 w (r * dist / total % U32)
    setWeight sv e x

/-- the loop body of `penalty.rs:133-159`, for two consecutive nodes and their distances -/
def rejoinStep (r total : Nat) (sv : Server) (x : (Nat × Nat) × (Nat × Nat)) : Option Server := do
  let ((tail, head), (tailDist, headDist)) := x
  let a ← sv.times[head]?
  let sv ← if a < maxTimes then do
      let ls ← sv.rev.linkIter head
      ls.foldlM (fun sv l => if l.1 ≠ tail then rejoin r headDist total sv l.2 else some sv) sv
    else some sv
  let b ← sv.times[tail]?
  if b < maxTimes then do
    let ls ← GraphOps.headIds sv.orig tail
    ls.foldlM (fun sv l => if l.1 ≠ head then rejoin r tailDist total sv l.2 else some sv) sv
  else some sv

/-- `array_windows::<2>()` -/
def windows {α : Type} (l : List α) : List (α × α) := l.zip l.tail

/-- `penalty.rs:118-159`: the penalties of one round -/
def penalize (r : Nat) (sv : Server) (f : Found) : Option Server := do
  let sv ← f.edges.foldlM penalizeEdge sv
  let rest ← scan sv.forward.weight 0 f.edges
  let dists := 0 :: rest
  let total ← dists.getLast?
  ((windows f.nodes).zip (windows dists)).foldlM (rejoinStep r total) sv

/-- the loop body of `penalty.rs:162-170` -/
def markNode (st : Bool × Server) (v : Nat) : Option (Bool × Server) := do
  let x ← st.2.times[v]?
  let sv := if x = 0 then { st.2 with reset := st.2.reset ++ [v] } else st.2
  if x < maxTimes then
    let times ← upd sv.times v (x + 1)
    return (true, { sv with times := times })
  else return (st.1, sv)

/-- `penalty.rs:161-170` -/
def mark (sv : Server) (nodes : List Nat) : Option (Bool × Server) := nodes.foldlM markNode (false, sv)

/-- the sum of `u32` weights -/
def sum32 (w : List Nat) : List Nat → Option Nat
  | [] => some 0
  | e :: es => do
    let x ← w[e]?
    let y ← sum32 w es
    add32 x y

/-- `add_edges` (`penalty.rs:468-472`) -/
def addEdges (c : FastClear) (es : List Nat) : Option FastClear := es.foldlM FastClear.set c

/-- The numbers of `penalty.rs:87-95` -/
structure Limits where
  s : Nat
  t : Nat
  base : Nat
  maxOrig : Nat
  rejoin : Nat
  cap : Nat

/-- `loop` of `penalty.rs:113-240` (and l.334-437, l.656-769), where `judge` is what is done with a path: it says whether the loop ends. -/
def loop {α : Type} (ask : Search) (L : Limits) (judge : α → FastClear → Found → Option (Bool × α × FastClear)) : Nat → α → Server → Found → Option (α × Server)
  | 0, _, _, _ => none
  | fuel + 1, acc, sv, f => do
    let sv ← penalize L.rejoin sv f
    let (any, sv) ← mark sv f.nodes
    if !any then return (acc, sv)
    else
      let a := ask sv.calls ⟨sv.forward, sv.backward, L.s, L.t, L.cap, some L.maxOrig⟩
      let sv := { sv with calls := sv.calls + 1 }
      match a with
      | none => return (acc, sv)
      | some f => do
        let (stop, acc, cont) ← judge acc sv.cont f
        let sv := { sv with cont := cont }
        if stop then return (acc, sv) else loop ask L judge fuel acc sv f

/-- `penalty.rs:276-283`: `set_edge_weight` with the weight of the graph -/
def restoreEdge (sv : Server) (e : Nat) : Option Server := do
  let w ← sv.orig.weight[e]?
  setWeight sv e w

/-- the loop body of `penalty.rs:274-284` -/
def resetNode (sv : Server) (v : Nat) : Option Server := do
  let times ← upd sv.times v 0
  let sv := { sv with times := times }
  let out ← GraphOps.headIds sv.orig v
  let sv ← out.foldlM (fun sv l => restoreEdge sv l.2) sv
  let inn ← sv.rev.linkIter v
  inn.foldlM (fun sv l => restoreEdge sv l.2) sv

/-- `for node in self.nodes_to_reset.drain(..) { … }` -/
def resetAll (sv : Server) : Option Server := do
  let sv' ← sv.reset.foldlM resetNode sv
  return { sv' with reset := [] }

/-- `penalty.rs:80-83`: a node in the order of the server, or where its component is attached to the core -/
def enter (t : Topo.VTopo) (v : Nat) : Option Nat := do
  let r ← t.order.rank v
  let b ← t.bridgeNode r
  return b.getD r

/-- The common part of the three methods: `penalty.rs:80-112` and the end of the loop. The loop has ended after `5 n + 1` rounds (theorem). `cap11 base`
is `(base as f64 * 1.25 * 1.1) as Weight`; `base as f64 * 1.25` is exact, and the cast saturates. -/
def run {α : Type} (dbg : Bool) (cap11 : Nat → Nat) (ask : Search) (judge : Limits → α → FastClear → Found → Option (Bool × α × FastClear)) (init : α)
    (sv : Server) (src tgt : Nat) : Option (Option α × Server) := do
  let s ← enter sv.topo src
  let t ← enter sv.topo tgt
  let cont ← sv.cont.clear
  let sv := { sv with cont := cont }
  let a := ask sv.calls ⟨sv.forward, sv.backward, s, t, INFINITY, none⟩
  let sv := { sv with calls := sv.calls + 1 }
  match a with
  | none => return (none, sv)
  | some f => do
    let cap ← add32 (cap11 f.dist) (2 * (f.dist / 100))
    let L : Limits := ⟨s, t, f.dist, min (f.dist * 5 / 4) (U32 - 1), f.dist / 100, cap⟩
    let cont ← addEdges sv.cont f.edges
    let sv := { sv with cont := cont }
    let len ← sum32 sv.orig.weight f.edges
    UBS.check dbg (L.base = len)
    let (acc, sv) ← loop ask L (judge L) (5 * sv.orig.numNodes + 2) init sv f
    let sv ← resetAll sv
    return (some acc, sv)

/-- the edges that are not contained -/
def newEdges (c : FastClear) (es : List Nat) : Option (List Nat) := es.filterM (fun e => do
  let b ← c.get e
  return !b)

/-- `report!("sharing_percent", (path_orig_len - nonshared_length) * 100 / base_dist)` -/
def sharing (len nonshared base : Nat) : Option Unit := do
  let x ← UBS.minus len nonshared
  let _ ← mul32 x 100
  if base = 0 then none else some ()

/-- the part of the loop of `PenaltyIterative::alternatives` after the search (`penalty.rs:735-768`) -/
def judgeOne (dbg : Bool) (w : List Nat) (L : Limits) (_ : Option (List Nat)) (c : FastClear) (f : Found) : Option (Bool × Option (List Nat) × FastClear) := do
  let len ← sum32 w f.edges
  UBS.check dbg (L.base ≤ len)
  if len > L.maxOrig ∨ f.dist > L.cap then return (true, none, c)
  else
    let new ← newEdges c f.edges
    let nonshared ← sum32 w new
    if nonshared > len / 5 then
      sharing len nonshared L.base
      return (true, some f.nodes, c)
    else return (false, none, c)

/-- `PenaltyIterative::alternatives` (`penalty.rs:624-796`); the nodes are translated back (l.774-778) -/
def alternative (dbg : Bool) (cap11 : Nat → Nat) (ask : Search) (sv : Server) (src tgt : Nat) : Option (Option (List Nat) × Server) := do
  let (r, sv) ← run dbg cap11 ask (judgeOne dbg sv.orig.weight) none sv src tgt
  match r.join with
  | none => return (none, sv)
  | some p => do
    let p ← p.mapM (fun v => sv.topo.order.node v)
    return (some p, sv)

/-- the part of the loop of `Penalty::alternatives_iterative` after the search (`penalty.rs:404-436`) -/
def judgeMany (w : List Nat) (L : Limits) (alts : List (List Nat)) (c : FastClear) (f : Found) : Option (Bool × List (List Nat) × FastClear) := do
  let len ← sum32 w f.edges
  let new ← newEdges c f.edges
  let nonshared ← sum32 w new
  let tooLong := decide (len > L.maxOrig ∨ f.dist > L.cap)
  if nonshared > len / 5 then
    let c ← addEdges c f.edges
    sharing len nonshared L.base
    let alts := alts ++ [f.nodes]
    return (decide (alts.length > 4) || tooLong, alts, c)
  else return (tooLong, alts, c)

/-- `Penalty::alternatives_iterative` (`penalty.rs:300-459`). The nodes are not translated back. -/
def alternatives (dbg : Bool) (cap11 : Nat → Nat) (ask : Search) (sv : Server) (src tgt : Nat) : Option (Option (List (List Nat)) × Server) :=
  run dbg cap11 ask (judgeMany sv.orig.weight) [] sv src tgt

/-- `path_edges.split(contained).filter(non empty)` (`penalty.rs:199-202`), given for every edge whether it is contained -/
def parts : List (Nat × Bool) → List (List Nat)
  | [] => []
  | (_, true) :: rest => parts rest
  | (e, false) :: rest =>
    match rest, parts rest with
    | (_, false) :: _, p :: ps => (e :: p) :: ps
    | _, ps => [e] :: ps

/-- the loop body of `penalty.rs:204-230`; `sub` is the search in the graph of alternatives -/
def judgePart (sub : FastClear → Nat → Nat → Option Nat) (tail head w : List Nat) (base : Nat) (st : Nat × FastClear) (part : List Nat) : Option (Nat × FastClear) := do
  let e0 ← part.head?
  let u ← tail[e0]?
  let e1 ← part.getLast?
  let v ← head[e1]?
  let len ← sum32 w part
  let a ← mul32 len 20
  if a > base then
    let b ← match sub st.2 u v with
      | some d => mul32 d 25
      | none => some INFINITY
    if a ≤ b then
      let c ← addEdges st.2 part
      return (st.1 + 1, c)
    else return st
  else return st

/-- the part of the loop of `Penalty::alternatives` after the search (`penalty.rs:189-239`); the number counts the new parts -/
def judgeGraph (dbg : Bool) (sub : FastClear → Nat → Nat → Option Nat) (tail head w : List Nat) (L : Limits) (s : Nat) (c : FastClear) (f : Found) :
    Option (Bool × Nat × FastClear) := do
  let len ← sum32 w f.edges
  UBS.check dbg (L.base ≤ len)
  let flags ← f.edges.mapM (fun e => c.get e)
  let (s, c) ← (parts (f.edges.zip flags)).foldlM (judgePart sub tail head w L.base) (s, c)
  return (decide (len > L.maxOrig ∨ f.dist > L.cap ∨ s ≥ 10), s, c)

/-- `Penalty::alternatives` (`penalty.rs:79-290`) -/
def alternativeGraph (dbg : Bool) (cap11 : Nat → Nat) (ask : Search) (sub : FastClear → Nat → Nat → Option Nat) (sv : Server) (src tgt : Nat) :
    Option (Option Nat × Server) :=
  run dbg cap11 ask (judgeGraph dbg sub sv.tail sv.orig.head sv.orig.weight) 0 sv src tgt

/-- a query to one of the three methods -/
inductive Query where
  | one (s t : Nat)
  | many (s t : Nat)
  | graph (s t : Nat)

/-- the source and the target -/
def Query.ends : Query → Nat × Nat
  | .one s t => (s, t)
  | .many s t => (s, t)
  | .graph s t => (s, t)

/-- what the three methods return (of the graph of alternatives only the number of parts is kept) -/
inductive Reply where
  | one (r : Option (List Nat))
  | many (r : Option (List (List Nat)))
  | graph (r : Option Nat)
deriving Repr, DecidableEq

/-- one query -/
def answer (dbg : Bool) (cap11 : Nat → Nat) (ask : Search) (sub : FastClear → Nat → Nat → Option Nat) (sv : Server) : Query → Option (Reply × Server)
  | .one s t => do
    let (r, sv) ← alternative dbg cap11 ask sv s t
    return (.one r, sv)
  | .many s t => do
    let (r, sv) ← alternatives dbg cap11 ask sv s t
    return (.many r, sv)
  | .graph s t => do
    let (r, sv) ← alternativeGraph dbg cap11 ask sub sv s t
    return (.graph r, sv)

/-- one query after another -/
def answers (dbg : Bool) (cap11 : Nat → Nat) (ask : Search) (sub : FastClear → Nat → Nat → Option Nat) : Server → List Query → Option (List Reply × Server)
  | sv, [] => some ([], sv)
  | sv, q :: qs => do
    let (r, sv) ← answer dbg cap11 ask sub sv q
    let (rs, sv) ← answers dbg cap11 ask sub sv qs
    return (r :: rs, sv)

end Penalty
end Verif
