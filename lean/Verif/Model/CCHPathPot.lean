import Verif.Model.CCHPotential
import Verif.Model.BitVec
import Verif.Model.Perfect
import Verif.Model.SubPaths
/-
Model of `CCHPotentialWithPathUnpacking` (`engine/src/algo/ch_potentials.rs`) and of `MinimalNonShortestSubPaths`
(`engine/src/algo/minimal_nonshortest_subpaths.rs`), the version that takes its shortest path trees from it. Statistics are omitted.
-/
namespace Verif
namespace CCH
open UBS Bits

/-- `CCHPotentialWithPathUnpacking` (`ch_potentials.rs:204-217`): the borrowed parts. `flip` is `FLIP_UNPACKING`. -/
structure PathPot where
  tree : List (Option Nat)
  fw : FOGraph
  bw : FOGraph
  fwUnp : List (Option Nat × Option Nat)
  bwUnp : List (Option Nat × Option Nat)
  fwTail : List Nat
  flip : Bool
deriving DecidableEq, Repr

/-- `CCHPotentialWithPathUnpacking` (`ch_potentials.rs:204-217`): the parts that change -/
structure PathState where
  stack : List Nat
  pots : TSVec (Option Nat)
  bwDist : TSVec Nat
  parents : List (Nat × Nat)
  unpacked : FastClear
deriving DecidableEq, Repr

/-- `forward_path_potential` and `backward_path_potential` (`ch_potentials.rs:60-100`): the parts that change -/
def PathState.new (n m : Nat) : PathState := ⟨[], TSVec.new none n, TSVec.new INFINITY n, List.replicate n (n, m), FastClear.new n⟩

/-- `forward_path_potential` (`ch_potentials.rs:60-78`) -/
def forwardPathPot (c : Cch) (fb : Side × Side) : PathPot := ⟨c.elimTree, fb.1.graph, fb.2.graph, fb.1.unp, fb.2.unp, fb.1.tail, false⟩

/-- `backward_path_potential` (`ch_potentials.rs:80-98`) -/
def backwardPathPot (c : Cch) (fb : Side × Side) : PathPot := ⟨c.elimTree, fb.2.graph, fb.1.graph, fb.2.unp, fb.1.unp, fb.2.tail, true⟩

/-! ### The elimination tree walk with parents -/

/-- One upward edge in `settle_next_node` (`stepped_elimination_tree.rs:90-98`) -/
def tsRelaxP (node distance : Nat) (st : TSVec Nat × List (Nat × Nat)) (l : Link × Nat) : Option (TSVec Nat × List (Nat × Nat)) := do
  let next ← add32 distance l.1.weight
  let old ← st.1.get l.1.node
  if next < old then
    let d ← st.1.modify l.1.node (fun _ => next)
    let p ← upd st.2 l.1.node (node, l.2)
    return (d, p)
  else return st

/-- The loop `for _ in EliminationTreeWalk` (`stepped_elimination_tree.rs:82-105`) -/
def tsWalkP (g : FOGraph) (tree : List (Option Nat)) : Nat → TSVec Nat × List (Nat × Nat) → Option Nat → Option (TSVec Nat × List (Nat × Nat))
  | _, st, none => some st
  | 0, _, some _ => none
  | fuel + 1, st, some node => do
    let distance ← st.1.get node
    let next ← tree[node]?
    let ls ← g.linkIterIds node
    let st ← ls.foldlM (tsRelaxP node distance) st
    tsWalkP g tree fuel st next

/-- `EliminationTreeWalk::query` (`stepped_elimination_tree.rs:36-79`), run to its end -/
def tsQueryP (g : FOGraph) (tree : List (Option Nat)) (dist : TSVec Nat) (parents : List (Nat × Nat)) (src : Nat) :
    Option (TSVec Nat × List (Nat × Nat)) := do
  let dist := dist.reset
  tsCheckReset tree dist (tree.length + 1) (some src)
  let dist ← dist.modify src (fun _ => 0)
  let parents ← upd parents src (src, 0)
  tsWalkP g tree (tree.length + 1) (dist, parents) (some src)

/-! ### The potential -/

/-- `init` (`ch_potentials.rs:226-239`) -/
def PathPot.init (P : PathPot) (s : PathState) (target : Nat) : Option PathState := do
  let unpacked ← s.unpacked.clear
  let pots := s.pots.reset
  let (dist, parents) ← tsQueryP P.bw P.tree s.bwDist s.parents target
  return ⟨s.stack, pots, dist, parents, unpacked⟩

/-- One edge of the loop at `ch_potentials.rs:257-263`: the smallest value so far and the entry of
`backward_parents` (written back once after the loop) -/
def potRelaxP (pots : TSVec (Option Nat)) (st : Nat × (Nat × Nat)) (l : Link × Nat) : Option (Nat × (Nat × Nat)) := do
  let p ← pots.get l.1.node
  let p ← p
  let relaxed ← add32 l.1.weight p
  if relaxed < st.1 then return (relaxed, (l.1.node, l.2)) else return st

/-- The second loop of `potential` (`ch_potentials.rs:254-267`) -/
def popAllP (fw : FOGraph) (bwDist : TSVec Nat) : List Nat → TSVec (Option Nat) → List (Nat × Nat) → Option (TSVec (Option Nat) × List (Nat × Nat))
  | [], pots, parents => some (pots, parents)
  | node :: stack, pots, parents => do
    let dist ← bwDist.get node
    let ls ← fw.linkIterIds node
    let par ← parents[node]?
    let (dist, par) ← ls.foldlM (potRelaxP pots) (dist, par)
    let parents ← upd parents node par
    let pots ← pots.modify node (fun _ => some dist)
    popAllP fw bwDist stack pots parents

/-- `potential` (`ch_potentials.rs:241-275`) -/
def PathPot.get (P : PathPot) (s : PathState) (node : Nat) : Option (PathState × Option Nat) := do
  let stack ← climb P.tree s.pots (P.tree.length + 1) s.stack node
  let (pots, parents) ← popAllP P.fw s.bwDist stack s.pots s.parents
  let dist ← pots.get node
  let dist ← dist
  return (⟨[], pots, s.bwDist, parents, s.unpacked⟩, if dist < INFINITY then some dist else none)

/-- `(down, up)` (`ch_potentials.rs:295-309`) for an edge from `node` to `parent` -/
def PathPot.hop (P : PathPot) (node parent edge : Nat) : Option (Option Nat × Option Nat) := do
  let (down, up) ← if parent > node then P.fwUnp[edge]? else P.bwUnp[edge]?
  return if P.flip then (up, down) else (down, up)

/-- the debug assertion at `ch_potentials.rs:325` -/
def PathPot.checkMiddle (P : PathPot) (dbg : Bool) (s : PathState) (middle parentDist up : Nat) : Option PathState :=
  if dbg then do
    let (s, d) ← P.get s middle
    let d ← d
    let w ← P.fw.weight[up]?
    let x ← add32 parentDist w
    check true (decide (d = x))
    return s
  else some s

/-- l.316-323 -/
def PathPot.enter (P : PathPot) (s : PathState) (middle parent up : Nat) : Option PathState := do
  let (s, _) ← P.get s middle
  let parents ← upd s.parents middle (parent, up)
  return { s with parents := parents }

def setUnpacked (s : PathState) (node : Nat) : Option PathState := do
  let u ← s.unpacked.set node
  return { s with unpacked := u }

/-- `unpack_path` (`ch_potentials.rs:279-329`); the depth of the recursion is bounded by the fuel. -/
def PathPot.unpack (P : PathPot) (dbg : Bool) : Nat → PathState → Nat → Option PathState
  | 0, _, _ => none
  | fuel + 1, s, node => do
    if ← s.unpacked.get node then return s
    else
      let (s, selfDist) ← P.get s node
      let selfDist ← selfDist
      let (parent, edge) ← s.parents[node]?
      if parent = node then setUnpacked s node
      else
        let (s, parentDist) ← P.get s parent
        let parentDist ← parentDist
        let s ← P.unpack dbg fuel s parent
        check dbg (decide (parentDist ≤ selfDist))
        let (down, up) ← P.hop node parent edge
        match down with
        | none => setUnpacked s node
        | some down =>
          let up ← up
          let middle ← P.fwTail[up]?
          let parents ← upd s.parents node (middle, down)
          let s := { s with parents := parents }
          let s ← if ← s.unpacked.get middle then some s
            else do
              let s ← P.enter s middle parent up
              P.unpack dbg fuel s middle
          let s ← P.checkMiddle dbg s middle parentDist up
          let s ← P.unpack dbg fuel s node
          setUnpacked s node

/-- the use as a shortest path tree: `init`, `potential(…).unwrap()`, `unpack_path`, `target_shortest_path_tree()[…].0`. The recursion
of `unpack_path` has depth at most `(n + 1)²` for positive weights (theorem). -/
def PathPot.oracle (P : PathPot) (dbg : Bool) (n : Nat) : Oracle PathState where
  init s _ root _ := P.init s root
  dist s v := do
    let (s, d) ← P.get s v
    let d ← d
    return (s, d)
  unpack s v := P.unpack dbg ((n + 1) * (n + 1)) s v
  parent s v := (s.parents[v]?).map Prod.fst

end CCH

namespace UBS
open CCH

/-- `MinimalNonShortestSubPaths` (`minimal_nonshortest_subpaths.rs:9-16`): the borrowed parts -/
structure CchServer where
  order : NodeOrder
  target : PathPot
  source : PathPot
  graph : FOGraph

/-- `MinimalNonShortestSubPaths::new` (l.20-29) for `CCHPotData` with the given CCH and customized sides -/
def CchServer.new (c : Cch) (fb : Side × Side) (g : FOGraph) : CchServer × State PathState PathState :=
  let n := fb.1.graph.numNodes
  let m := fb.1.graph.numArcs
  (⟨c.order, forwardPathPot c fb, backwardPathPot c fb, g⟩, ⟨PathState.new n m, PathState.new n m, List.replicate n none, List.replicate n none⟩)

/-- `find_ubs_violating_subpaths` (l.72-116) -/
def CchServer.find (dbg : Bool) (s : CchServer) (srt : List Spec.Rng → List Spec.Rng) (st : State PathState PathState) (thr : Nat → Nat)
    (path : List Nat) : Option (List Spec.Rng × State PathState PathState) := do
  let nodes ← path.mapM s.order.rank
  let n := st.ranks.length
  findUbs dbg (s.target.oracle dbg n) (s.source.oracle dbg n) s.graph srt thr st path nodes

/-- a history of calls; the answers in order -/
def CchServer.run (dbg : Bool) (s : CchServer) (srt : List Spec.Rng → List Spec.Rng) :
    State PathState PathState → List ((Nat → Nat) × List Nat) → Option (List (List Spec.Rng) × State PathState PathState)
  | st, [] => some ([], st)
  | st, (thr, path) :: cs => do
    let (r, st) ← s.find dbg srt st thr path
    let (rs, st) ← CchServer.run dbg s srt st cs
    return (r :: rs, st)

end UBS
end Verif
