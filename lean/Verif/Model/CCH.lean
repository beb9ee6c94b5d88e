import Verif.Model.GraphOps
import Verif.Model.Sort
/-
Model of Customizable Contraction Hierarchies, `engine/src/algo/customizable_contraction_hierarchy/`:
`contraction.rs`, `mod.rs`, `customization.rs` (basic customization), `query.rs`, `query/stepped_elimination_tree.rs`.

`InRangeOption<EdgeId>` and `InRangeOption<NodeId>` are `Option Nat` here: ids are smaller than `u32::MAX` because
`UnweightedOwnedGraph::new` asserts it, and then the compact representation is lossless (property C01).
-/
namespace Verif
namespace CCH

/-! ### `contraction.rs` -/

/-- `Node::insert` (`contraction.rs:28-37`) -/
def insertNode (edges : List Nat) (v : Nat) : List Nat := if v ∈ edges then edges else edges ++ [v]

/-- `Node::merge_neighbors` (`contraction.rs:41-78`) -/
def mergeNeighbors : List Nat → List Nat → List Nat
  | [], os => os
  | ss, [] => ss
  | s :: ss, o :: os =>
    if s < o then s :: mergeNeighbors ss (o :: os)
    else if o < s then o :: mergeNeighbors (s :: ss) os
    else s :: mergeNeighbors ss os
termination_by ss os => ss.length + os.length

/-- `ContractionGraph::new`, first step (`contraction.rs:93-106`): the neighbours of each node as ranks, without loops.
`links` are the heads of the outgoing arcs in the input graph. -/
def prepNodes (n : Nat) (order : NodeOrder) (links : Nat → Option (List Nat)) : Option (List (List Nat)) :=
  (List.range n).mapM (fun node => do
    let old ← order.node node
    let ls ← links old
    (ls.filter (fun v => v ≠ old)).mapM order.rank)

/-- The inner loop of "make graph undirected" (`contraction.rs:116-125`). `neighbor = node_id` would underflow. -/
def undirectNode (nodes : List (List Nat)) (v : Nat) : Option (List (List Nat)) := do
  let es ← nodes[v]?
  es.foldlM (fun nodes nb => do
    if nb = v then none else
    let e ← nodes[nb]?
    upd nodes nb (insertNode e v)) nodes

/-- "make graph undirected" (`contraction.rs:109-126`) -/
def undirect (n : Nat) (nodes : List (List Nat)) : Option (List (List Nat)) := (List.range n).foldlM undirectNode nodes

/-- `contraction.rs:128-132` for one node -/
def finishNode (v : Nat) (edges : List Nat) : List Nat := dedup (isort id (edges.filter (fun nb => nb > v)))

/-- `contraction.rs:128-132` -/
def finish (nodes : List (List Nat)) : List (List Nat) := nodes.zipIdx.map (fun p => finishNode p.2 p.1)

/-- `ContractionGraph::new` (`contraction.rs:88-139`) -/
def contractionGraph (n : Nat) (order : NodeOrder) (links : Nat → Option (List Nat)) : Option (List (List Nat)) := do
  let nodes ← prepNodes n order links
  let nodes ← undirect n nodes
  return finish nodes

/-- One round of the loop in `contract` (`contraction.rs:157-168`): `node` has been split off, so the subgraph starts with
`node + 1` and indexing it with a smaller id underflows (`contraction.rs:204-216`). -/
def contractNode (nodes : List (List Nat)) (node : Nat) : Option (List (List Nat)) := do
  let edges ← nodes[node]?
  match edges with
  | [] => some nodes
  | lowest :: others =>
    if lowest ≤ node then none
    else
      let le ← nodes[lowest]?
      upd nodes lowest (mergeNeighbors le others)

/-- `contract` (`contraction.rs:142-174`) -/
def contractNodes (nodes : List (List Nat)) : Option (List (List Nat)) := (List.range nodes.length).foldlM contractNode nodes

/-- `adjancecy_lists_to_first_out_graph` (`contraction.rs:234-246`). The result is an unweighted graph: the third array is
not part of it and repeats the heads; nothing below reads it. -/
def toGraph (nodes : List (List Nat)) : Option FOGraph := do
  let fo ← FOGraph.degreesToFirstOut (nodes.map List.length)
  let head := nodes.flatten
  FOGraph.new fo head head

/-! ### `mod.rs` -/

/-- `struct CCH` (`mod.rs:31-41`). `Vecs<EdgeIdT>` (one list per entry, `util.rs`) is a list of lists. The separator tree is
a function of the elimination tree, modelled separately. -/
structure Cch where
  firstOut : List Nat
  head : List Nat
  tail : List Nat
  order : NodeOrder
  fwOrig : List (List Nat)
  bwOrig : List (List Nat)
  elimTree : List (Option Nat)
  inverted : GraphOps.RevIds
deriving DecidableEq, Repr

/-- The chordal supergraph; the weights are unused, see `toGraph`. -/
def Cch.topo (c : Cch) : FOGraph := ⟨c.firstOut, c.head, c.head⟩
/-- `Graph::num_nodes` (`mod.rs:284-286`) -/
def Cch.numNodes (c : Cch) : Nat := c.firstOut.length - 1

/-- `LinkIterable<NodeIdT>::link_iter` for unweighted graphs (`first_out_graph.rs:265-271`) -/
def heads (g : FOGraph) (v : Nat) : Option (List Nat) := do
  let (a, b) ← g.range v
  slice g.head a b

/-- `build_elimination_tree` (`mod.rs:117-122`) -/
def buildElimTree (g : FOGraph) : Option (List (Option Nat)) :=
  (List.range g.numNodes).mapM (fun v => do
    let hs ← heads g v
    return hs.head?)

/-- `forward_cch_edge_to_orig_arc` / `backward_...` (`mod.rs:86-93`): for each edge of the contracted graph, in order. `flip`
gives the backward arcs. -/
def origArcs (orig : FOGraph) (order : NodeOrder) (g : FOGraph) (flip : Bool) : Option (List (List Nat)) := do
  let per ← (List.range g.numNodes).mapM (fun node => do
    let hs ← heads g node
    hs.mapM (fun nb => do
      let x ← order.node node
      let y ← order.node nb
      if flip then orig.edgeIndices y x else orig.edgeIndices x y))
  return per.flatten

/-- The loop that fills `tail` (`mod.rs:95-99`). -/
def tails (g : FOGraph) : Option (List Nat) :=
  (List.range g.numNodes).foldlM (fun tail node => do
    let (a, b) ← g.range node
    let _ ← slice tail a b
    ((List.range (b - a)).map (· + a)).foldlM (fun tail e => upd tail e node) tail) (List.replicate g.head.length 0)

/-- `CCH::new_from` (`mod.rs:79-115`) -/
def newFrom (orig : FOGraph) (order : NodeOrder) (g : FOGraph) : Option Cch := do
  let tree ← buildElimTree g
  let fw ← origArcs orig order g false
  let bw ← origArcs orig order g true
  let tail ← tails g
  let inv ← GraphOps.reversedWithEdgeIds g
  return ⟨g.firstOut, g.head, tail, order, fw, bw, tree, inv⟩

/-- `contract` (`mod.rs:24-26`): the first phase, for a graph given as adjacency array. -/
def build (orig : FOGraph) (order : NodeOrder) : Option Cch := do
  let nodes ← contractionGraph orig.numNodes order (fun v => heads orig v)
  let nodes ← contractNodes nodes
  let g ← toGraph nodes
  newFrom orig order g

/-! ### `customization.rs`: basic customization -/

/-- The four arrays that customization works on. -/
structure Weights where
  up : List Nat
  down : List Nat
  upUnpack : List (Option Nat × Option Nat)
  downUnpack : List (Option Nat × Option Nat)
deriving DecidableEq, Repr

/-- `prepare_weights` (`customization.rs:69-94`) for one direction. The iterations are independent of each other: each
writes its own entry. -/
def prepareWeights (origArcs : List (List Nat)) (metric : FOGraph) : Option (List Nat) :=
  origArcs.mapM (fun arcs => arcs.foldlM (fun w a => do
    let l ← metric.link a
    return min l.weight w) INFINITY)

/-- A workspace: `(weight, first edge, second edge)` per node (`customization.rs:14-15`). -/
abbrev WS := List (Nat × Option Nat × Option Nat)

/-- `if triang_weight < relax.0 { *relax = ... }` (`customization.rs:197-206`). The access is `get_unchecked` in the code;
out of bounds is a panic here, and the theorems show it does not happen. -/
def relaxWs (ws : WS) (node weight e1 e2 : Nat) : Option WS := do
  let x ← ws[node]?
  if weight < x.1 then upd ws node (weight, some e1, some e2) else some ws

/-- Loop body for one upward edge `second` of the lower node (`customization.rs:183-206`); state: outgoing and incoming
workspace. -/
def custTriangle (w : Weights) (firstUp firstDown first : Nat) (ws : WS × WS) (l : Nat × Nat) : Option (WS × WS) := do
  let up ← w.up[l.2]?
  let down ← w.down[l.2]?
  let t1 ← add32 up firstDown
  let out ← relaxWs ws.1 l.1 t1 first l.2
  let t2 ← add32 down firstUp
  let inc ← relaxWs ws.2 l.1 t2 l.2 first
  return (out, inc)

/-- Loop body for one downward edge of the current node (`customization.rs:164-207`). The upward edges of the lower node
are visited from high to low until their head is not above the current node. -/
def custLow (c : Cch) (w : Weights) (current : Nat) (ws : WS × WS) (l : Nat × Nat) : Option (WS × WS) := do
  let firstDown ← w.down[l.2]?
  let firstUp ← w.up[l.2]?
  let (a, b) ← c.topo.range l.1
  let hs ← slice c.head a b
  let _ ← slice w.up a b
  let _ ← slice w.down a b
  let edges := (hs.zip ((List.range (b - a)).map (· + a))).reverse
  (edges.takeWhile (fun p => current < p.1)).foldlM (custTriangle w firstUp firstDown l.2) ws

/-- "store weight of edge in workspace at index `head`" (`customization.rs:153-161`) for one edge -/
def custLoad (w : Weights) (ws : WS × WS) (l : Nat × Nat) : Option (WS × WS) := do
  let down ← w.down[l.2]?
  let up ← w.up[l.2]?
  let inc ← upd ws.2 l.1 (down, none, none)
  let out ← upd ws.1 l.1 (up, none, none)
  return (out, inc)

/-- "copy weights from the mapping back to the edge" (`customization.rs:210-223`) for one edge -/
def custStore (ws : WS × WS) (w : Weights) (l : Nat × Nat) : Option Weights := do
  let inc ← ws.2[l.1]?
  let out ← ws.1[l.1]?
  let down ← upd w.down l.2 inc.1
  let up ← upd w.up l.2 out.1
  let du ← upd w.downUnpack l.2 inc.2
  let uu ← upd w.upUnpack l.2 out.2
  return ⟨up, down, uu, du⟩

/-- The loop body of the customization routine for `current_node` (`customization.rs:147-224`). `ws` is the workspace of the
executing thread, with whatever earlier nodes left in it. The edge slices passed to the routine (with an offset) are
parts of the global arrays; here they are the global arrays. -/
def custNode (c : Cch) (current : Nat) (ws : WS × WS) (w : Weights) : Option (Weights × (WS × WS)) := do
  let (a, b) ← c.topo.range current
  let hs ← slice c.head a b
  let _ ← slice w.down a b
  let _ ← slice w.up a b
  let edges := hs.zip ((List.range (b - a)).map (· + a))
  let ws ← edges.foldlM (custLoad w) ws
  let lows ← c.inverted.linkIter current
  let ws ← lows.foldlM (custLow c w current) ws
  let w ← edges.foldlM (custStore ws) w
  return (w, ws)

/-- A fresh workspace (`customization.rs:240-242`). -/
def freshWS (n : Nat) : WS × WS := (List.replicate n (INFINITY, none, none), List.replicate n (INFINITY, none, none))

/-- Customize the nodes of a list one after the other, in one thread (`customization.rs:146`). -/
def custNodes (c : Cch) (nodes : List Nat) (w : Weights) : Option Weights := do
  let r ← nodes.foldlM (fun (st : Weights × (WS × WS)) v => custNode c v st.2 st.1) (w, freshWS c.numNodes)
  return r.1

/-- The arrays before the main customization (`customize`, `customization.rs:25-33`, and l.230-231). -/
def initWeights (c : Cch) (metric : FOGraph) : Option Weights := do
  let up ← prepareWeights c.fwOrig metric
  let down ← prepareWeights c.bwOrig metric
  let none2 := List.replicate c.head.length ((none : Option Nat), (none : Option Nat))
  return ⟨up, down, none2, none2⟩

/-- `customize` (`customization.rs:21-35`) with the feature `cch-disable-par`: sequential. -/
def customize (c : Cch) (metric : FOGraph) : Option Weights := do
  let w ← initWeights c metric
  custNodes c (List.range c.numNodes) w

/-- `forward_graph` of a customized CCH (`mod.rs:466-468`); the assertions of `FirstOutGraph::new` hold by `fwGraph_wf`. -/
def fwGraph (c : Cch) (w : Weights) : FOGraph := ⟨c.firstOut, c.head, w.up⟩

/-- `backward_graph` of a customized CCH (`mod.rs:469-471`) -/
def bwGraph (c : Cch) (w : Weights) : FOGraph := ⟨c.firstOut, c.head, w.down⟩

/-! ### `query/stepped_elimination_tree.rs` -/

/-- `struct EliminationTreeWalk` (`stepped_elimination_tree.rs:27-34`), the mutable part. -/
structure ETWalk where
  dist : List Nat
  parents : List (Nat × Nat)
  next : Option Nat
deriving DecidableEq, Repr

namespace ETWalk

/-- The debug assertion of `query_with_resetted` (`stepped_elimination_tree.rs:59-65`). -/
def checkReset (tree : List (Option Nat)) (dist : List Nat) : Nat → Option Nat → Option Unit
  | _, none => some ()
  | 0, some _ => none
  | fuel + 1, some v => do
    let d ← dist[v]?
    if d = INFINITY then
      let p ← tree[v]?
      checkReset tree dist fuel p
    else none

/-- `query_with_resetted` (`stepped_elimination_tree.rs:51-79`) -/
def start (tree : List (Option Nat)) (dist : List Nat) (parents : List (Nat × Nat)) (src : Nat) : Option ETWalk := do
  checkReset tree dist (tree.length + 1) (some src)
  let dist ← upd dist src 0
  let parents ← upd parents src (src, 0)
  return ⟨dist, parents, some src⟩

/-- Loop body of `settle_next_node` (`stepped_elimination_tree.rs:87-96`) for one upward edge. -/
def relax (node distance : Nat) (st : List Nat × List (Nat × Nat)) (l : Link × Nat) : Option (List Nat × List (Nat × Nat)) := do
  let next ← add32 distance l.1.weight
  let old ← st.1[l.1.node]?
  if next < old then
    let dist ← upd st.1 l.1.node next
    let parents ← upd st.2 l.1.node (node, l.2)
    return (dist, parents)
  else return st

/-- `settle_next_node` (`stepped_elimination_tree.rs:81-102`), for a walk that has not ended. -/
def settle (g : FOGraph) (tree : List (Option Nat)) (w : ETWalk) (node : Nat) : Option ETWalk := do
  let distance ← w.dist[node]?
  let next ← tree[node]?
  let ls ← g.linkIterIds node
  let st ← ls.foldlM (relax node distance) (w.dist, w.parents)
  return ⟨st.1, st.2, next⟩

/-- `skip_next` (`stepped_elimination_tree.rs:108-113`) -/
def skip (tree : List (Option Nat)) (w : ETWalk) (node : Nat) : Option ETWalk := do
  let next ← tree[node]?
  return { w with next := next }

/-- `reset_distance` (`stepped_elimination_tree.rs:119-121`) -/
def reset (w : ETWalk) (node : Nat) : Option ETWalk := do
  let dist ← upd w.dist node INFINITY
  return { w with dist := dist }

end ETWalk

/-! ### `query.rs` -/

/-- `struct Server` (`query.rs:8-17`), without the customized graph and the statistics. -/
structure Server where
  fwDist : List Nat
  bwDist : List Nat
  fwParents : List (Nat × Nat)
  bwParents : List (Nat × Nat)
  meeting : Nat
deriving DecidableEq, Repr

/-- `Server::new` (`query.rs:20-33`) -/
def Server.new (n m : Nat) : Server :=
  ⟨List.replicate n INFINITY, List.replicate n INFINITY, List.replicate n (n, m), List.replicate n (n, m), 0⟩

/-- The state of the loop in `distance` (`query.rs:53-72`). -/
structure QState where
  fw : ETWalk
  bw : ETWalk
  tentative : Nat
  meeting : Nat
deriving DecidableEq, Repr

/-- One walk alone: `walk.next(); walk.reset_distance(node)` (`query.rs:75-77`). -/
def stepAlone (g : FOGraph) (tree : List (Option Nat)) (w : ETWalk) (node : Nat) : Option ETWalk := do
  let w ← w.settle g tree node
  w.reset node

/-- `if walk.tentative_distance(node) < tentative_distance { walk.next() } else { walk.skip_next() }` (`query.rs:87-96`) -/
def stepPruned (g : FOGraph) (tree : List (Option Nat)) (tentative : Nat) (w : ETWalk) (node : Nat) : Option ETWalk := do
  let d ← w.dist[node]?
  if d < tentative then w.settle g tree node else w.skip tree node

/-- Both walks are at the same node (`query.rs:84-104`). -/
def stepBoth (fwG bwG : FOGraph) (tree : List (Option Nat)) (q : QState) (node : Nat) : Option QState := do
  let fw ← stepPruned fwG tree q.tentative q.fw node
  let bw ← stepPruned bwG tree q.tentative q.bw node
  let f ← fw.dist[node]?
  let b ← bw.dist[node]?
  let dist ← add32 f b
  let tm := if dist < q.tentative then (dist, node) else (q.tentative, q.meeting)
  let fw ← fw.reset node
  let bw ← bw.reset node
  return ⟨fw, bw, tm.1, tm.2⟩

/-- The loop of `distance` (`query.rs:72-122`). -/
def queryLoop (fwG bwG : FOGraph) (tree : List (Option Nat)) : Nat → QState → Option QState
  | 0, _ => none
  | fuel + 1, q =>
    match q.fw.next, q.bw.next with
    | some f, some b =>
      if f < b then do
        let fw ← stepAlone fwG tree q.fw f
        queryLoop fwG bwG tree fuel { q with fw := fw }
      else if f > b then do
        let bw ← stepAlone bwG tree q.bw b
        queryLoop fwG bwG tree fuel { q with bw := bw }
      else do
        let q ← stepBoth fwG bwG tree q f
        queryLoop fwG bwG tree fuel q
    | some f, none => do
        let fw ← stepAlone fwG tree q.fw f
        queryLoop fwG bwG tree fuel { q with fw := fw }
    | none, some b => do
        let bw ← stepAlone bwG tree q.bw b
        queryLoop fwG bwG tree fuel { q with bw := bw }
    | none, none => some q

/-- `Server::distance` (`query.rs:44-129`) for ranks; each round moves one walk towards a root, so `2n + 1` rounds suffice. -/
def queryRanks (fwG bwG : FOGraph) (tree : List (Option Nat)) (s : Server) (src dst : Nat) : Option (Option Nat × Server) := do
  let fw ← ETWalk.start tree s.fwDist s.fwParents src
  let bw ← ETWalk.start tree s.bwDist s.bwParents dst
  let q ← queryLoop fwG bwG tree (2 * tree.length + 1) ⟨fw, bw, INFINITY, 0⟩
  let r := if q.tentative = INFINITY then none else some q.tentative
  return (r, ⟨q.fw.dist, q.bw.dist, q.fw.parents, q.bw.parents, q.meeting⟩)

/-- `Server::distance` (`query.rs:44-129`); `fwG`, `bwG` are `customized.forward_graph()` and `backward_graph()`. -/
def distance (order : NodeOrder) (fwG bwG : FOGraph) (tree : List (Option Nat)) (s : Server) (src dst : Nat) :
    Option (Option Nat × Server) := do
  let a ← order.rank src
  let b ← order.rank dst
  queryRanks fwG bwG tree s a b

/-- The first loop of `path` (`query.rs:135-140`): turns the forward pointers around. -/
def joinParents (fwParents : List (Nat × Nat)) (src : Nat) : Nat → Nat → List (Nat × Nat) → Option (List (Nat × Nat))
  | 0, _, _ => none
  | fuel + 1, node, bw =>
    if node = src then some bw
    else do
      let p ← fwParents[node]?
      let bw ← upd bw p.1 (node, p.2)
      joinParents fwParents src fuel p.1 bw

/-- `unpack_outgoing` / `unpack_incoming` (`mod.rs:481-490`) with the unpacking array of the direction. -/
def unpackEdge (unpacking : List (Option Nat × Option Nat)) (tail : List Nat) (e : Nat) : Option (Option (Nat × Nat × Nat)) := do
  let u ← unpacking[e]?
  match u.1 with
  | none => return none
  | some down => do
    let up ← u.2
    let middle ← tail[down]?
    return some (down, up, middle)

/-- What `unpack_path` does with one parent pointer (`query.rs:164-174`): either it inserts the middle node of the shortcut
(`some` new array), or the edge is an original one (`none`). -/
def unpackStep (w : Weights) (tail : List Nat) (parents : List (Nat × Nat)) (current : Nat) :
    Option (Nat × Option (List (Nat × Nat))) := do
  let p ← parents[current]?
  let u ← if p.1 > current then unpackEdge w.upUnpack tail p.2 else unpackEdge w.downUnpack tail p.2
  match u with
  | some (down, up, middle) =>
    let ps ← upd parents current (middle, down)
    let ps ← upd ps middle (p.1, up)
    return (current, some ps)
  | none => return (p.1, none)

/-- `unpack_path` (`query.rs:159-177`) -/
def unpackPath (w : Weights) (tail : List Nat) (origin : Nat) : Nat → Nat → List (Nat × Nat) → Option (List (Nat × Nat))
  | 0, _, _ => none
  | fuel + 1, current, parents =>
    if current = origin then some parents
    else do
      let r ← unpackStep w tail parents current
      unpackPath w tail origin fuel r.1 (r.2.getD parents)

/-- The loop that follows the pointers (`query.rs:145-149`). -/
def followParents (parents : List (Nat × Nat)) (dst : Nat) : Nat → Nat → Option (List Nat)
  | 0, _ => none
  | fuel + 1, node =>
    if node = dst then some [node]
    else do
      let p ← parents[node]?
      let rest ← followParents parents dst fuel p.1
      return node :: rest

/-- `Server::path` (`query.rs:131-156`). Paths visit a node at most once (theorem), which bounds the loops. The pointers in
`bw_parents` stay modified. -/
def path (order : NodeOrder) (w : Weights) (tail : List Nat) (s : Server) (src dst : Nat) : Option (List Nat × Server) := do
  let a ← order.rank src
  let b ← order.rank dst
  let n := s.bwParents.length
  let ps ← joinParents s.fwParents a (n + 1) s.meeting s.bwParents
  let ps ← unpackPath w tail b (2 * n + 1) a ps
  let p ← followParents ps b (n + 1) a
  let p ← p.mapM order.node
  return (p, { s with bwParents := ps })

/-- Calling `node_path()` on one result `k` times (`reconstruct_node_path`, `query.rs:193-195`). -/
def paths (order : NodeOrder) (w : Weights) (tail : List Nat) (src dst : Nat) : Nat → Server → Option (List (List Nat) × Server)
  | 0, s => some ([], s)
  | k + 1, s => do
    let p ← path order w tail s src dst
    let r ← paths order w tail src dst k p.2
    return (p.1 :: r.1, r.2)

/-- One query (`query.rs:205-207`), of whose result the distance and, if there is one, the node path is asked for `k` times
(`QueryResult`, `algo/mod.rs:120-178`). The arguments before the server are what `customized` and `customized.cch()` provide; of `w`
only the unpacking information is used, `tail` is `backward_tail()`. -/
def serveOn (order : NodeOrder) (fwG bwG : FOGraph) (tree : List (Option Nat)) (w : Weights) (tail : List Nat) (s : Server) (src dst k : Nat) :
    Option ((Option Nat × List (List Nat)) × Server) := do
  let r ← distance order fwG bwG tree s src dst
  match r.1 with
  | none => return ((none, []), r.2)
  | some d => do
    let ps ← paths order w tail src dst k r.2
    return ((some d, ps.1), ps.2)

/-- `serveOn` for the result of `customize` (`impl Customized for CustomizedBasic`, `mod.rs:464-496`) -/
def serve (c : Cch) (w : Weights) (s : Server) (src dst k : Nat) : Option ((Option Nat × List (List Nat)) × Server) :=
  serveOn c.order (fwGraph c w) (bwGraph c w) c.elimTree w c.tail s src dst k

/-- What a user can do with a server. -/
inductive Op where
  /-- `query(Query { from, to })`, followed by `k` calls of `node_path()` on the result -/
  | query (src dst k : Nat)
  /-- `update(customize(&cch, &metric))` -/
  | update (metric : FOGraph)

/-- A history of a server: `Server::update` (`query.rs:36-38`) keeps all data but the metric. -/
def session (c : Cch) : Weights → Server → List Op → Option (List (Option Nat × List (List Nat)))
  | _, _, [] => some []
  | w, s, .query src dst k :: ops => do
    let r ← serve c w s src dst k
    let rs ← session c w r.2 ops
    return r.1 :: rs
  | _, s, .update metric :: ops => do
    let w ← customize c metric
    session c w s ops

end CCH
end Verif
