import Verif.Model.TrafficAware
import Verif.Model.Topocore
/-
Model of `BlockedDetoursDijkstra` and `HeuristicTrafficAwareServer` (`engine/src/algo/traffic_aware.rs:299-375`, `522-612`): iterative blocking
of detours with one label per node. The search is `Server` of `ch_potentials/query.rs` on `TopoDijkstraRun` as in `Verif.Model.TopoDijkstra`, but
`link` depends on the predecessors. Counters and reports are omitted, but for the subtraction in the last report.
-/
namespace Verif.Topo
variable {α β σ : Type}

/-- `trait DijkstraOps` for operations whose `link` looks at `parents` and `tail` (`dijkstra.rs:118-135`) -/
abbrev POps (α β : Type) := List (Nat × β) → Nat → DOps α β

/-- `advance` of `TopoDijkstra` (`gen_topo_dijkstra.rs:203-223`) -/
def advanceP (ops : POps α β) (cl : Closures σ) (node dist : Nat) (b : Branch α) (d : DData β) (loc : Loc α β) (s : σ) :
    Option (DData β × Loc α β × σ) :=
  match b.nextEdge with
  | some e => do
    let c ← follow (ops d.pred node) node dist e
    return (d, { loc with chain := some c }, s)
  | none =>
    if b.endpoint then do
      let (q, s) ← enqueue cl d.queue node dist s
      return ({ d with queue := q }, { loc with chain := none }, s)
    else some (d, { loc with chain := none }, s)

/-- `gen_topo_dijkstra.rs:226-241` -/
def secondP (ops : POps α β) (d : DData β) (loc : Loc α β) : Option (Loc α β) :=
  match loc.chain, loc.degThree with
  | none, some (node, e) => do
    let label ← d.dist.get node
    let c ← follow (ops d.pred node) node label e
    return { loc with chain := some c, degThree := none }
  | _, _ => some loc

/-- `gen_topo_dijkstra.rs:150-241`; the predecessor is stored (l.201) before the chain is continued -/
def chainBodyP (sk : Skip) (G : TGraph α) (ops : POps α β) (cl : Closures σ) (c : ChainStep β) (d : DData β) (loc : Loc α β)
    (s : σ) : Option (DData β × Loc α β × σ) := do
  let old ← d.dist.get c.next
  let dist ← d.dist.modify c.next (fun l => if c.dist < l then c.dist else l)
  let d := { d with dist := dist }
  if c.dist < old then
    let label ← dist.get c.next
    let (b, loc, s) ← branch sk G (ops d.pred c.next) cl d.queue c.prev.1 c.next label { loc with chain := none } s
    let pred ← upd d.pred c.next c.prev
    let (d, loc, s) ← advanceP ops cl c.next label b { d with pred := pred } loc s
    let loc ← secondP ops d loc
    return (d, loc, s)
  else
    let loc ← secondP ops d { loc with chain := none }
    return (d, loc, s)

/-- the `while` loop (`gen_topo_dijkstra.rs:144-242`); `none` also if the fuel does not suffice -/
def chainLoopP (sk : Skip) (G : TGraph α) (ops : POps α β) (cl : Closures σ) :
    Nat → DData β → Loc α β → σ → Option (DData β × σ)
  | 0, _, _, _ => none
  | fuel + 1, d, loc, s =>
    match loc.chain with
    | none => some (d, s)
    | some c => do
      let (d, loc, s) ← chainBodyP sk G ops cl c d loc s
      chainLoopP sk G ops cl fuel d loc s

/-- the body of the loop over the edges of the popped node (`gen_topo_dijkstra.rs:132-243`) -/
def relaxEdgeP (fuel : Nat) (sk : Skip) (G : TGraph α) (ops : POps α β) (cl : Closures σ) (node : Nat) (st : DData β × σ)
    (e : α) : Option (DData β × σ) := do
  let label ← st.1.dist.get node
  let c ← follow (ops st.1.pred node) node label e
  chainLoopP sk G ops cl fuel st.1 ⟨some c, none, false⟩ st.2

/-- `TopoDijkstraRun::settle_next_node` (`gen_topo_dijkstra.rs:124-247`) -/
def settleNextP (fuel : Nat) (sk : Skip) (G : TGraph α) (ops : POps α β) (cl : Closures σ) (d : DData β) (s : σ) :
    Option (Option Nat × DData β × σ) := do
  let (o, queue) ← d.queue.pop
  match o with
  | none => return (none, { d with queue := queue }, s)
  | some st =>
    let ls ← G.links st.node
    let (d, s) ← ls.foldlM (relaxEdgeP fuel sk G ops cl st.node) ({ d with queue := queue }, s)
    return (some st.node, d, s)

/-- the loop of `distance_manually_initialized` (`ch_potentials/query.rs:432-445`) -/
def searchLoopP (inner : Nat) (sk : Skip) (G : TGraph α) (ops : POps α β) (P : Potential σ) (to targetPot cap : Nat) :
    Nat → DData β → σ → Option (DData β × σ)
  | 0, _, _ => none
  | fuel + 1, d, s => do
    let (o, d, s) ← settleNextP inner sk G ops (potClosures P) d s
    match o with
    | none => return (d, s)
    | some _ =>
      if ← mayStop d to targetPot cap then return (d, s)
      else searchLoopP inner sk G ops P to targetPot cap fuel d s

/-- `distance_manually_initialized` (`ch_potentials/query.rs:419-458`); only whether there is a result is used -/
def distanceManuallyP (inner : Nat) (sk : Skip) (G : TGraph α) (ops : POps α β) (P : Potential σ) (d : DData β) (s : σ)
    (to cap : Nat) : Option (Bool × DData β × σ) := do
  let (s, targetPot) ← P.get s to
  match targetPot with
  | none => return (false, d, s)
  | some targetPot =>
    let (d, s) ← searchLoopP inner sk G ops P to targetPot cap inner d s
    let dist ← d.dist.get to
    return (decide (dist < INFINITY), d, s)

/-- the loops of `ch_potentials/query.rs:103-117` and `155-168` -/
def compSearchP (inner : Nat) (sk : Skip) (G : TGraph α) (ops : POps α β) (P : Potential σ) (node pot : Nat) :
    Nat → DData β → σ → Option (DData β × σ)
  | 0, _, _ => none
  | fuel + 1, d, s => do
    let (o, d, s) ← settleNextP inner sk G ops (potClosures P) d s
    match o with
    | none => return (d, s)
    | some _ =>
      match d.peekKey with
      | none => return (d, s)
      | some k =>
        let l ← d.dist.get node
        let lim ← add32 l pot
        if k ≥ lim then return (d, s) else compSearchP inner sk G ops P node pot fuel d s

/-- `Server::distance` with `BCC_CORE` (`ch_potentials/query.rs:85-186`), after `permutate`; the operations get the graph they are used with -/
def Server.distanceCoreP (inner : Nat) (sv : Server) (sk : Skip) (ops : FOGraph → POps (Link × Nat) Unit) (P : Potential σ) (d : DData Unit) (s : σ)
    (source to : Nat) : Option (Option Nat × DData Unit × σ) := do
  let s ← P.init s to
  let intoCore := (← sv.topo.bridgeNode source).getD source
  let outOfCore := (← sv.topo.bridgeNode to).getD to
  let (s, _) ← P.get s source
  let (s, pot) ← P.get s intoCore
  match pot with
  | none => return (none, d, s)
  | some pot =>
    let d ← d.init source 0
    let (d, s) ← compSearchP inner sk ⟨sv.comp.linkIterIds, sv.topo.symDeg⟩ (ops sv.comp) P intoCore pot inner d s
    let l ← d.dist.get intoCore
    if l ≥ INFINITY then return (none, d, s)
    else
      let d ← continueQuery d intoCore
      let (found, d, s) ← distanceManuallyP inner sk ⟨sv.main.linkIterIds, sv.topo.symDeg⟩ (ops sv.main) P d s outOfCore INFINITY
      let d ← continueQuery d (if found then outOfCore else source)
      let (d, s) ← compSearchP inner sk ⟨sv.comp.linkIterIds, sv.topo.symDeg⟩ (ops sv.comp) P to 0 inner d s
      let dist ← d.dist.get to
      return (if dist < INFINITY then some dist else none, d, s)

/-- `Server::distance` (`ch_potentials/query.rs:66-186`) -/
def Server.distanceP (inner : Nat) (sv : Server) (sk : Skip) (ops : FOGraph → POps (Link × Nat) Unit) (P : Potential σ) (d : DData Unit) (s : σ)
    (source to : Nat) : Option (Option Nat × DData Unit × σ) :=
  if source = to then some (some 0, d, s)
  else do
    let source ← sv.topo.order.rank source
    let to ← sv.topo.order.rank to
    sv.distanceCoreP inner sk ops (permutatedPot P sv.topo.order) d s source to

end Verif.Topo

namespace Verif.Traffic
open Spec UBS CCH

/-- `struct BlockedDetoursDijkstra` (l.299-303): for every node the forbidden paths that end there, without the last node; the end nodes -/
structure Detours where
  paths : List (List (List Nat))
  ends : List Nat
deriving DecidableEq, Repr

namespace Detours

/-- `new` (l.306-312) -/
def new (n : Nat) : Detours := ⟨List.replicate n [], []⟩

/-- `add_forbidden_path` (l.314-318) -/
def add (b : Detours) (path : List Nat) : Option Detours := do
  let last ← path.getLast?
  let old ← b.paths[last]?
  let paths ← upd b.paths last (old ++ [path.dropLast])
  return ⟨paths, b.ends ++ [last]⟩

/-- `reset` (l.320-324) -/
def reset (b : Detours) : Option Detours := do
  let paths ← b.ends.foldlM (fun ps v => upd ps v []) b.paths
  return ⟨paths, []⟩

/-- The loop of l.347-356 over the reversed forbidden path: whether the parents, from `cur` on, follow it to its start. -/
def follows (parents : List (Nat × Unit)) : List Nat → Nat → Option Bool
  | [], _ => some true
  | f :: fs, cur =>
    if f = cur then do
      let p ← parents[cur]?
      follows parents fs p.1
    else some false

/-- `iter().any(…)` (l.344-358) -/
def illegal (parents : List (Nat × Unit)) (tail : Nat) : List (List Nat) → Option Bool
  | [] => some false
  | p :: ps => do
    if ← follows parents p.reverse tail then return true
    else illegal parents tail ps

/-- `impl DijkstraOps for BlockedDetoursDijkstra<DefaultOpsByEdgeId>` (l.331-375); `merge` is the one of `DefaultOps` -/
def ops (b : Detours) (g : FOGraph) : Topo.POps (Link × Nat) Unit := fun parents tail =>
  { head := fun e => e.1.node
    link := fun label e => do
      let fs ← b.paths[e.1.node]?
      if ← illegal parents tail fs then return INFINITY
      else
        let l ← g.link e.2
        add32 label l.weight
    predLink := fun _ => () }

end Detours

/-- the borrowed and unchanged parts of `HeuristicTrafficAwareServer` (l.524-527) -/
structure HServer (σ : Type) where
  ubs : CchServer
  topo : Topo.Server
  pot : Potential σ

/-- the fields that change -/
structure HState (σ : Type) where
  ubs : State PathState PathState
  data : DData Unit
  pot : σ
  ops : Detours

/-- `new` (l.530-541); the data of the `ubs_checker` and of the potential are given -/
def HState.new {σ : Type} (n : Nat) (ubs : State PathState PathState) (pot : σ) : HState σ := ⟨ubs, DData.new n (), pot, Detours.new n⟩

/-- `Server<…, true, true, true>` (l.526) -/
def hskip : Topo.Skip := ⟨true, true⟩

/-- `self.shortest_path.query(query)` and `node_path` (l.564-580) -/
def hsearch {σ : Type} (inner : Nat) (S : HServer σ) (st : HState σ) (s t : Nat) : Option (Option (Nat × List Nat) × HState σ) := do
  let (r, d, c) ← S.topo.distanceP inner hskip st.ops.ops S.pot st.data st.pot s t
  let st : HState σ := { st with data := d, pot := c }
  match r with
  | none => return (none, st)
  | some dist =>
    let path ← S.topo.nodePath d s t
    return (some (dist, path), st)

/-- `for violating_range in violating` (l.593-595) -/
def forbidDetours (path : List Nat) : List Rng → Detours → Option Detours
  | [], b => some b
  | r :: rs, b => do
    let part ← slice path r.start (r.stop + 1)
    let b ← b.add part
    forbidDetours path rs b

/-- The result of a query; `running` if it has not ended within the given number of rounds. -/
inductive HOutcome
  | found (path : List Nat) (dist : Nat)
  | failed (late : Bool)
  | running
deriving DecidableEq, Repr

/-- The `loop` (l.554-596), iteration `i`; `base` is `base_live_dist`. Also returns `base_live_dist` and `final_live_dist`. `inner` bounds the
steps of one search (`none` if it does not suffice); the number of rounds is the last explicit argument. -/
def hloop {σ : Type} (dbg : Bool) (S : HServer σ) (srt : List Rng → List Rng) (thr : Nat → Nat) (late : Nat → Bool) (inner s t : Nat) :
    Nat → Nat → Option (Nat × Nat) → HState σ → Option (HOutcome × Option (Nat × Nat) × HState σ)
  | 0, _, bf, st => some (.running, bf, st)
  | rounds + 1, i, bf, st =>
    if late i then some (.failed true, bf, st)
    else do
      let (r, st) ← hsearch inner S st s t
      match r with
      | none => return (.failed false, bf, st)
      | some (dist, path) =>
        let bf : Option (Nat × Nat) := some ((bf.map Prod.fst).getD dist, dist)
        let (viol, u) ← S.ubs.find dbg srt st.ubs thr path
        let st : HState σ := { st with ubs := u }
        if viol = [] then return (.found path dist, bf, st)
        else
          let ranks ← path.mapM S.topo.topo.order.rank
          let ops ← forbidDetours ranks viol st.ops
          hloop dbg S srt thr late inner s t rounds (i + 1) bf { st with ops := ops }

/-- `query` (l.543-611), at most `rounds` rounds. The subtraction of the last report (l.603) is checked. -/
def hquery {σ : Type} (dbg : Bool) (S : HServer σ) (srt : List Rng → List Rng) (late : Nat → Bool) (inner rounds : Nat) (st : HState σ)
    (thr : Nat → Nat) (s t : Nat) : Option (HOutcome × HState σ) := do
  let ops ← st.ops.reset
  let (o, bf, st) ← hloop dbg S srt thr late inner s t rounds 0 none { st with ops := ops }
  match o, bf with
  | .running, _ => return (.running, st)
  | o, none => return (o, st)
  | o, some (base, final) =>
    let _ ← minus final base
    return (o, st)

/-- Several queries with one server, one after the other. -/
def hqueries {σ : Type} (dbg : Bool) (S : HServer σ) (srt : List Rng → List Rng) (inner rounds : Nat) :
    HState σ → List Call → Option (List HOutcome × HState σ)
  | st, [] => some ([], st)
  | st, q :: qs => do
    let (o, st) ← hquery dbg S srt q.late inner rounds st q.thr q.s q.t
    let (os, st) ← hqueries dbg S srt inner rounds st qs
    return (o :: os, st)

end Verif.Traffic
