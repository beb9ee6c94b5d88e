import Verif.Model.DijkstraVisit
import Verif.Model.Sequences
import Verif.Model.GraphOps
/-
Model of `engine/src/algo/minimal_nonshortest_subpaths.rs`, generic over the two shortest path trees it works on: the code has the
same function twice, once with trees from a CCH (l.262-395) and once with trees from Dijkstra's algorithm (l.640-794).

* The threshold `(shortest_dist as f64 * epsilon) as Weight` is a parameter `thr : Nat → Nat` of the callbacks.
* `dbg` says whether debug assertions are checked (their failure is a panic). Those on `path_ranks` (l.267-269) restate how it was filled.
* Reports are omitted.
-/
namespace Verif.UBS
open Spec

/-- `u32`/`usize` subtraction -/
def minus (a b : Nat) : Option Nat := if b ≤ a then some (a - b) else none

/-- a debug assertion -/
def check (dbg p : Bool) : Option Unit := if dbg && !p then none else some ()

/-- A shortest path tree towards (or from) a root: `init` gets `path_ranks`, the root and the nodes of the path that will be asked for. -/
structure Oracle (σ : Type) where
  init : σ → List (Option Nat) → Nat → List Nat → Option σ
  dist : σ → Nat → Option (σ × Nat)
  unpack : σ → Nat → Option σ
  parent : σ → Nat → Option Nat

/-- `path_ranks[v].value().unwrap()` -/
def rankOf (ranks : List (Option Nat)) (v : Nat) : Option Nat := do
  let r ← ranks[v]?
  r

/-- The closure given to `path_parent` (l.295-299, 333-337): the node lies on the path between the ranks `a` and `b`. -/
def onPath (ranks : List (Option Nat)) (a b : Nat) (v : Nat) : Option Bool := do
  match ← ranks[v]? with
  | none => return false
  | some r => return decide (a ≤ r ∧ r ≤ b)

/-- `path_parent` (l.449-467); the depth of the recursion is bounded by the fuel. -/
def pathParent (par : Nat → Option Nat) (on : Nat → Option Bool) : Nat → List (Option Nat) → Nat → Option (List (Option Nat) × Nat)
  | 0, _, _ => none
  | fuel + 1, cache, v => do
    match ← cache[v]? with
    | some pp => return (cache, pp)
    | none =>
      let p ← par v
      if ← on p then
        let cache ← upd cache v (some p)
        return (cache, p)
      else
        let (cache, pp) ← pathParent par on fuel cache p
        let cache ← upd cache v (some pp)
        return (cache, pp)

/-- `reset_path_parent_cache` (l.469-474) -/
def resetCache (par : Nat → Option Nat) : Nat → List (Option Nat) → Nat → Option (List (Option Nat))
  | 0, _, _ => none
  | fuel + 1, cache, v => do
    match ← cache[v]? with
    | none => return cache
    | some _ =>
      let cache ← upd cache v none
      let p ← par v
      resetCache par fuel cache p

/-- `array_windows::<2>()` -/
def windows (l : List Nat) : List (Nat × Nat) := l.zip l.tail

/-- The variables of the loops at l.282-307 and l.325-350: tree, `path_parent_cache`, `…_earliest_deviation_rank`,
`…_earliest_suboptimal_rank`. -/
structure Scan (σ : Type) where
  tree : σ
  cache : List (Option Nat)
  dev : Option Nat
  sub : Nat

/-- The loops at l.282-307 and l.325-350 (l.672-696, 725-749) over pairs of a node and its neighbour towards the root. `pd` is
`path_dist` of a node, `comb` is `max` in the first and `min` in the second loop. -/
def scan {σ : Type} (O : Oracle σ) (ranks : List (Option Nat)) (a b : Nat) (pd : Nat → Option Nat) (comb : Nat → Nat → Nat) :
    List (Nat × Nat) → Scan σ → Option (Scan σ)
  | [], st => some st
  | (node, nb) :: rest, st => do
    let pathDist ← pd node
    let (tree, dist) ← O.dist st.tree node
    if pathDist = dist then return { st with tree := tree }
    else
      let sub ← rankOf ranks node
      let tree ← O.unpack tree node
      let p ← O.parent tree node
      if p ≠ nb ∧ dist ≠ pathDist then
        let (cache, _) ← pathParent (O.parent tree) (onPath ranks a b) (st.cache.length + 1) st.cache node
        let pp ← cache[node]?
        let pp ← pp
        let r ← rankOf ranks pp
        let dev := match st.dev with
          | some x => comb x r
          | none => r
        scan O ranks a b pd comb rest ⟨tree, cache, some dev, sub⟩
      else scan O ranks a b pd comb rest ⟨tree, st.cache, st.dev, sub⟩

/-- One tree: `init`, the loop, and cleaning up the cache (l.278-314, 321-357). -/
def side {σ : Type} (dbg : Bool) (O : Oracle σ) (ranks : List (Option Nat)) (a b : Nat) (pd : Nat → Option Nat) (comb : Nat → Nat → Nat)
    (path : List Nat) (root sub : Nat) (wins : List (Nat × Nat)) (tree : σ) (cache : List (Option Nat)) : Option (Scan σ) := do
  let tree ← O.init tree ranks root path
  let st ← scan O ranks a b pd comb wins ⟨tree, cache, none, sub⟩
  let cache ← path.foldlM (resetCache (O.parent st.tree) (st.cache.length + 1)) st.cache
  check dbg (cache.all (· = none))
  return { st with cache := cache }

/-- The loops at l.369-379 and l.380-390: the callback gets the range, the length of the path and the distance, until it returns
true. -/
def tryNodes {σ κ : Type} (O : Oracle σ) (cb : κ → Rng → Nat → Nat → Option (κ × Bool)) (rng : Nat → Option Rng) (pd : Nat → Option Nat)
    (base : Nat) : List Nat → σ → κ → Option (σ × κ)
  | [], tree, k => some (tree, k)
  | node :: rest, tree, k => do
    let x ← pd node
    let pathDist ← minus x base
    let (tree, y) ← O.dist tree node
    let dist ← minus y base
    let r ← rng node
    let (k, stop) ← cb k r pathDist dist
    if stop then return (tree, k) else tryNodes O cb rng pd base rest tree k

/-- `debug_assert_eq!(…_path_base_dist, potential(…_earliest_deviation_node))` (l.365, 367) -/
def checkBase {σ : Type} (dbg : Bool) (O : Oracle σ) (base : Nat) (node : Nat) (tree : σ) : Option σ :=
  if dbg then do
    let (tree, y) ← O.dist tree node
    check true (decide (base = y))
    return tree
  else some tree

/-- what `tree_find_minimal_nonshortest` changes: the trees towards the target and from the source, the cache, the closure -/
structure Find (σ τ κ : Type) where
  tgt : σ
  src : τ
  cache : List (Option Nat)
  cb : κ

/-- One round of the loop at l.273-393 with `path` between the nodes `start` and `last`; the second component is the next `path`. -/
def round {σ τ κ : Type} (dbg : Bool) (T : Oracle σ) (S : Oracle τ) (ranks : List (Option Nat)) (full dists : List Nat)
    (cb : κ → Rng → Nat → Nat → Option (κ × Bool)) (path : List Nat) (start last : Nat) (st : Find σ τ κ) :
    Option (Find σ τ κ × Option (Nat × Nat)) := do
  let a ← rankOf ranks start
  let b ← rankOf ranks last
  let dStart ← dists[a]?
  let dLast ← dists[b]?
  let toEnd := fun node => do
    let r ← rankOf ranks node
    let x ← dists[r]?
    minus dLast x
  let fromStart := fun node => do
    let r ← rankOf ranks node
    let x ← dists[r]?
    minus x dStart
  let t ← side dbg T ranks a b toEnd max path last a (windows path) st.tgt st.cache
  match t.dev with
  | none => return (⟨t.tree, st.src, t.cache, st.cb⟩, none)
  | some tDev =>
    let s ← side dbg S ranks a b fromStart min path start b ((windows path).reverse.map Prod.swap) st.src t.cache
    let sDev ← s.dev
    let tNode ← full[tDev]?
    let sNode ← full[sDev]?
    let xt ← dists[tDev]?
    let tBase ← minus dLast xt
    let tgt ← checkBase dbg T tBase tNode t.tree
    let xs ← dists[sDev]?
    let sBase ← minus xs dStart
    let src ← checkBase dbg S sBase sNode s.tree
    let ns ← slice full s.sub (tDev + 1)
    let (src, k) ← tryNodes S cb (fun node => (rankOf ranks node).map (fun r => ⟨sDev, r⟩)) fromStart sBase ns src st.cb
    let ns ← slice full sDev (t.sub + 1)
    let (tgt, k) ← tryNodes T cb (fun node => (rankOf ranks node).map (fun r => ⟨r, tDev⟩)) toEnd tBase ns.reverse tgt k
    return (⟨tgt, src, s.cache, k⟩, some (sDev + 1, tDev))

/-- `tree_find_minimal_nonshortest` (l.262-395, 640-794): the loop, with `path` given as a range of `full_path`. Every round shortens
it, so `full.length + 1` rounds are enough (theorem). -/
def treeFind {σ τ κ : Type} (dbg : Bool) (T : Oracle σ) (S : Oracle τ) (ranks : List (Option Nat)) (full dists : List Nat)
    (cb : κ → Rng → Nat → Nat → Option (κ × Bool)) : Nat → Nat → Nat → Find σ τ κ → Option (Find σ τ κ)
  | 0, _, _, _ => none
  | fuel + 1, lo, hi, st => do
    let path ← slice full lo hi
    match path.head?, path.getLast? with
    | some start, some last =>
      let (st, next) ← round dbg T S ranks full dists cb path start last st
      match next with
      | none => return st
      | some (lo, hi) => treeFind dbg T S ranks full dists cb fuel lo hi st
    | _, _ => return st

/-- the smallest weight of an arc, as in `path_dist_iter` (l.408-411) -/
def minEdge (g : FOGraph) (u v : Nat) : Option Nat := do
  let es ← g.edgeIndices u v
  es.foldlM (fun m e => do
    let l ← g.link e
    return min m l.weight) INFINITY

/-- `path_dist_iter` (l.406-417), from the second node on; `st` is the state of `scan` -/
def pathDistsFrom (dbg : Bool) (g : FOGraph) : Nat → List Nat → Option (List Nat)
  | st, u :: v :: rest => do
    let w ← minEdge g u v
    check dbg (w ≠ INFINITY)
    let st ← add32 st w
    let ds ← pathDistsFrom dbg g st (v :: rest)
    return st :: ds
  | _, _ => some []

/-- `path_dists` (l.402-404) -/
def pathDists (dbg : Bool) (g : FOGraph) (path : List Nat) : Option (List Nat) := do
  let ds ← pathDistsFrom dbg g 0 path
  return 0 :: ds

/-- The loop that fills `path_ranks` (l.82-88): state `path_ranks` and `violating`. -/
def markStep (st : List (Option Nat) × List Rng) (p : Nat × Nat) : Option (List (Option Nat) × List Rng) := do
  let prev ← st.1[p.1]?
  let viol := match prev with
    | some r => st.2 ++ [⟨r, p.2⟩]
    | none => st.2
  let ranks ← upd st.1 p.1 (some p.2)
  return (ranks, viol)

def markPath (ranks : List (Option Nat)) (path : List Nat) : Option (List (Option Nat) × List Rng) :=
  path.zipIdx.foldlM markStep (ranks, [])

/-- l.110-112 -/
def unmark (ranks : List (Option Nat)) (path : List Nat) : Option (List (Option Nat)) :=
  path.foldlM (fun ranks v => upd ranks v none) ranks

/-- The closure of `find_ubs_violating_subpaths` (l.99-108); its state is `violating`. -/
def violating (dbg : Bool) (thr : Nat → Nat) (l : List Rng) (r : Rng) (pathDist dist : Nat) : Option (List Rng × Bool) := do
  check dbg (dist ≤ pathDist)
  check dbg (0 < dist)
  let x ← minus pathDist dist
  if x > thr dist then return (l ++ [r], true) else return (l, false)

/-- the fields that change: the two trees, `path_parent_cache`, `path_ranks` -/
structure State (σ τ : Type) where
  tgt : σ
  src : τ
  cache : List (Option Nat)
  ranks : List (Option Nat)

/-- `find_ubs_violating_subpaths` (l.72-116, 597-638). `nodes` are the nodes of the path as the trees number them, `path` as the graph
does. -/
def findUbs {σ τ : Type} (dbg : Bool) (T : Oracle σ) (S : Oracle τ) (g : FOGraph) (srt : List Rng → List Rng) (thr : Nat → Nat)
    (st : State σ τ) (path nodes : List Nat) : Option (List Rng × State σ τ) := do
  check dbg (st.ranks.all (· = none))
  let (ranks, viol) ← markPath st.ranks nodes
  if viol ≠ [] then
    let ranks ← unmark ranks nodes
    return (viol, { st with ranks := ranks })
  else
    let dists ← pathDists dbg g path
    let f ← treeFind dbg T S ranks nodes dists (violating dbg thr) (nodes.length + 1) 0 nodes.length ⟨st.tgt, st.src, st.cache, viol⟩
    let ranks ← unmark ranks nodes
    let out ← Seq.filterCovered srt f.cb
    return (out, ⟨f.tgt, f.src, f.cache, ranks⟩)

/-! ### Trees from Dijkstra's algorithm -/

/-- the body of the loop at l.659-668 (l.709-718): `remaining_path_nodes_counter` -/
def countVisit (ranks : List (Option Nat)) (a b : Nat) (left : Nat) (_ : DData Unit) (node : Nat) : Option (Nat × Bool) := do
  if ← onPath ranks a b node then
    let left ← minus left 1
    return (left, decide (left = 0))
  else return (left, false)

/-- l.656-668 (l.706-718): search until all nodes of the path are settled. `path_ranks[start]` and `path_ranks[end]` are those of the
first and last node of `path`. -/
def dijOracle (g : FOGraph) : Oracle (DData Unit) where
  init d ranks root path := do
    let a ← path.head?.bind (rankOf ranks)
    let b ← path.getLast?.bind (rankOf ranks)
    let d ← d.init root 0
    let (d, _) ← DData.visitLoop g.linkIter (countVisit ranks a b) (g.numNodes + 1) d path.length
    return d
  dist d v := (d.dist.get v).map (fun x => (d, x))
  unpack d _ := some d
  parent d v := (d.pred[v]?).map Prod.fst

/-- `MinimalNonShortestSubPathsDijkstra` (l.575-582): the graphs -/
structure DijServer where
  forward : FOGraph
  backward : FOGraph

/-- `MinimalNonShortestSubPathsDijkstra::new` (l.585-595) -/
def DijServer.new (g : FOGraph) : Option (DijServer × State (DData Unit) (DData Unit)) := do
  let r ← GraphOps.reversed g.numNodes g.numArcs g.linkIter
  let n := g.numNodes
  return (⟨g, r⟩, ⟨DData.new n (), DData.new n (), List.replicate n none, List.replicate n none⟩)

/-- one call of `find_ubs_violating_subpaths` -/
def DijServer.find (dbg : Bool) (s : DijServer) (srt : List Rng → List Rng) (st : State (DData Unit) (DData Unit)) (thr : Nat → Nat)
    (path : List Nat) : Option (List Rng × State (DData Unit) (DData Unit)) :=
  findUbs dbg (dijOracle s.backward) (dijOracle s.forward) s.forward srt thr st path path

/-- a history of calls; the answers in order -/
def DijServer.run (dbg : Bool) (s : DijServer) (srt : List Rng → List Rng) :
    State (DData Unit) (DData Unit) → List ((Nat → Nat) × List Nat) → Option (List (List Rng) × State (DData Unit) (DData Unit))
  | st, [] => some ([], st)
  | st, (thr, path) :: cs => do
    let (r, st) ← s.find dbg srt st thr path
    let (rs, st) ← DijServer.run dbg s srt st cs
    return (r :: rs, st)

end Verif.UBS
