import Verif.Model.BiDijkstra
/- Model of `engine/src/algo/contraction_hierarchy/mod.rs` and `query.rs`. -/
namespace Verif
open DData
namespace CH

/-- Subtraction of node ids: `none` is an underflow, a panic. -/
def idSub (a b : Nat) : Option Nat := if b ≤ a then some (a - b) else none

/-- An entry of the lists of a node: the link and the middle node (`mod.rs:43-44`). -/
abbrev Entry := Link × Nat

/-- `struct Node` (`mod.rs:42-45`) -/
structure CNode where
  out : List Entry
  inc : List Entry
deriving DecidableEq, Repr

/-- `enum ShortcutResult` (`mod.rs:33-38`) -/
inductive SRes where
  | new
  | shortened
  | shorter
deriving DecidableEq, Repr

/-- `Node::insert_or_decrease` (`mod.rs:56-80`): the first entry for the node decides; without one, a new entry is pushed. -/
def insertOrDecrease : List Entry → Nat → Nat → Nat → List Entry × SRes
  | [], node, weight, over => ([(⟨node, weight⟩, over)], .new)
  | e :: ls, node, weight, over =>
    if node = e.1.node then
      if weight < e.1.weight then ((⟨e.1.node, weight⟩, over) :: ls, .shortened) else (e :: ls, .shorter)
    else
      let r := insertOrDecrease ls node weight over
      (e :: r.1, r.2)

/-- `Vec::swap_remove` -/
def swapRemove {α : Type} (l : List α) (i : Nat) : Option (List α) := do
  let x ← l.getLast?
  if i < l.length then return (l.set i x).dropLast else none

/-- `remove_outgoing` and `remove_incmoing` (`mod.rs:83-92`), on the list concerned: the first entry for the node is removed with
`swap_remove`; `none` is the panic of `unwrap`. -/
def removeEntry (l : List Entry) (node : Nat) : Option (List Entry) := do
  let pos ← l.findIdx? (fun e => decide (node = e.1.node))
  swapRemove l pos

/-- One side of `ContractionGraph::new` (`mod.rs:111-123`, `:126-138`): the links of the node at each rank, without loops, with
heads as ranks; the middle node `n` marks an original arc. -/
def newSide (n : Nat) (order : NodeOrder) (links : Nat → Option (List Link)) : Option (List (List Entry)) :=
  (List.range n).mapM (fun r => do
    let v ← order.node r
    let ls ← links v
    (ls.filter (fun l => l.node ≠ v)).mapM (fun l => do
      let h ← order.rank l.node
      return (⟨h, l.weight⟩, n)))

/-- `ContractionGraph::new` (`mod.rs:103-148`) -/
def newGraph (n m : Nat) (order : NodeOrder) (links : Nat → Option (List Link)) : Option (List CNode) := do
  let outs ← newSide n order links
  let reversed ← GraphOps.reversed n m links
  let ins ← newSide n order reversed.linkIter
  return List.zipWith CNode.mk outs ins

/-- Changing the lists of node `v` of the partial graph with offset `off`. A partial graph is the slice of all nodes that starts at
`off` (`mod.rs:217-223`); it is represented by all nodes and the offset. -/
def onNode (off : Nat) (nodes : List CNode) (v : Nat) (f : CNode → Option CNode) : Option (List CNode) := do
  let i ← idSub v off
  let nd ← nodes[off + i]?
  let nd ← f nd
  upd nodes (off + i) nd

/-- `remove_edges_to_removed` (`mod.rs:239-247`), where `off` is the offset of the remaining graph. -/
def removeEdges (off : Nat) (node : CNode) (nodes : List CNode) : Option (List CNode) := do
  let nodes ← node.inc.foldlM (fun nodes e => onNode off nodes e.1.node (fun nd => do
    let out ← removeEntry nd.out (off - 1)
    return { nd with out := out })) nodes
  node.out.foldlM (fun nodes e => onNode off nodes e.1.node (fun nd => do
    let inc ← removeEntry nd.inc (off - 1)
    return { nd with inc := inc })) nodes

/-- `PartialContractionGraph::insert_or_decrease` (`mod.rs:249-255`), with its assertion. -/
def insertShortcut (off : Nat) (nodes : List CNode) (src dst weight over : Nat) : Option (List CNode) := do
  let i ← idSub src off
  let nd ← nodes[off + i]?
  let r := insertOrDecrease nd.out dst weight over
  let nodes ← upd nodes (off + i) { nd with out := r.1 }
  let j ← idSub dst off
  let nd' ← nodes[off + j]?
  let r' := insertOrDecrease nd'.inc src weight over
  let nodes ← upd nodes (off + j) { nd' with inc := r'.1 }
  if r.2 = r'.2 then return nodes else none

/-- `LinkMappingIterator` (`mod.rs:355-372`) -/
def shift (off : Nat) (ls : List Entry) : Option (List Link) :=
  ls.mapM (fun e => do
    let h ← idSub e.1.node off
    return ⟨h, e.1.weight⟩)

/-- `link_iter` of `ForwardWrapper` (`mod.rs:374-383`) -/
def fwLinks (off : Nat) (nodes : List CNode) (v : Nat) : Option (List Link) := do
  let nd ← nodes[off + v]?
  shift off nd.out

/-- `link_iter` of `BackwardWrapper` (`mod.rs:385-394`) -/
def bwLinks (off : Nat) (nodes : List CNode) (v : Nat) : Option (List Link) := do
  let nd ← nodes[off + v]?
  shift off nd.inc

/-- `shortcut_required` (`mod.rs:257-291`). The recycled data keep the size of the whole graph. -/
def shortcutRequired (off : Nat) (nodes : List CNode) (src dst weight : Nat) (fd bd : DData Unit) :
    Option (Bool × DData Unit × DData Unit) :=
  if src = dst then some (false, fd, bd)
  else do
    let s ← idSub src off
    let t ← idSub dst off
    let r ← BiD.distanceWithCap zeroBi minKeyDir (nodes.length - off) (fwLinks off nodes) (bwLinks off nodes) fd bd 0 s t weight
    return (!(decide ((r.result.map (fun l => decide (l < weight))) = some true)), r.fd, r.bd)

/-- The state of the contraction: all nodes and the data of the witness search. -/
structure CState where
  nodes : List CNode
  fd : DData Unit
  bd : DData Unit

/-- One pair of neighbours (`mod.rs:174-183`); `off` is the offset of the remaining graph. -/
def contractPair (off : Nat) (src dst : Entry) (st : CState) : Option CState := do
  let w ← add32 src.1.weight dst.1.weight
  let (req, fd, bd) ← shortcutRequired off st.nodes src.1.node dst.1.node w st.fd st.bd
  if req then
    let nodes ← insertShortcut off st.nodes src.1.node dst.1.node w (off - 1)
    return ⟨nodes, fd, bd⟩
  else return ⟨st.nodes, fd, bd⟩

/-- All pairs of neighbours of a removed node (`mod.rs:171-185`). -/
def contractPairs (off : Nat) (node : CNode) (st : CState) : Option CState :=
  node.inc.foldlM (fun st src => node.out.foldlM (fun st dst => contractPair off src dst st) st) st

/-- `remove_lowest` (`mod.rs:226-237`) on the partial graph with offset `k`. -/
def removeLowest (k : Nat) (nodes : List CNode) : Option (Option (CNode × List CNode)) :=
  match nodes[k]? with
  | none => some none
  | some node => do
    let nodes ← removeEdges (k + 1) node nodes
    return some (node, nodes)

/-- The loop of `contract_partially` (`mod.rs:166-188`). `remove_lowest` runs before the count is checked. -/
def contractLoop : Nat → Nat → CState → Option CState
  | 0, k, st => do
    match ← removeLowest k st.nodes with
    | none => return st
    | some (_, nodes) => return { st with nodes := nodes }
  | count + 1, k, st => do
    match ← removeLowest k st.nodes with
    | none => return st
    | some (node, nodes) =>
      let st ← contractPairs (k + 1) node { st with nodes := nodes }
      contractLoop count (k + 1) st

/-- `contract_partially` (`mod.rs:155-189`) -/
def contractPartially (count : Nat) (nodes : List CNode) : Option (List CNode) := do
  let st ← contractLoop count 0 ⟨nodes, DData.new nodes.length (), DData.new nodes.length ()⟩
  return st.nodes

/-- `struct ContractionHierarchy` (`mod.rs:17-21`) -/
structure Hierarchy where
  forward : FOGraph
  backward : FOGraph
  middle : Option (List Nat × List Nat)

/-- `into_first_out_graphs` (`mod.rs:200-219`) -/
def intoGraphs (nodes : List CNode) : Option Hierarchy := do
  let fw ← FOGraph.fromAdjacencyLists (nodes.map (fun nd => nd.out.map Prod.fst))
  let bw ← FOGraph.fromAdjacencyLists (nodes.map (fun nd => nd.inc.map Prod.fst))
  return ⟨fw, bw, some ((nodes.map (fun nd => nd.out.map Prod.snd)).flatten, (nodes.map (fun nd => nd.inc.map Prod.snd)).flatten)⟩

/-- `overlay` (`mod.rs:294-300`) -/
def overlay (g : FOGraph) (order : NodeOrder) (count : Nat) : Option (FOGraph × FOGraph) := do
  let nodes ← newGraph g.numNodes g.numArcs order g.linkIter
  let nodes ← contractPartially count nodes
  let ch ← intoGraphs nodes
  return (ch.forward, ch.backward)

/-- `contract` (`mod.rs:302-307`) -/
def contract (g : FOGraph) (order : NodeOrder) : Option Hierarchy := do
  let nodes ← newGraph g.numNodes g.numArcs order g.linkIter
  let nodes ← contractPartially nodes.length nodes
  intoGraphs nodes

/-- `from_contracted_graph` (`mod.rs:24-32`) -/
def fromContracted (g : FOGraph) (order : NodeOrder) : Option Hierarchy := do
  let (fw, bw) ← GraphOps.chSplit g.numNodes order g.linkIter
  return ⟨fw, bw, none⟩

/-! ### `query.rs` -/

/-- `struct Server` (`query.rs:10-18`) -/
structure Server where
  forward : FOGraph
  backward : FOGraph
  fd : DData Unit
  bd : DData Unit
  meet : Nat
  middle : Option (List Nat × List Nat)
  order : NodeOrder

/-- `Server::new` (`query.rs:21-32`) -/
def Server.new (ch : Hierarchy) (order : NodeOrder) : Server :=
  ⟨ch.forward, ch.backward, DData.new ch.forward.numNodes (), DData.new ch.forward.numNodes (), 0, ch.middle, order⟩

/-- The variables of the loop of `distance`. -/
structure QState where
  tent : Nat
  meet : Nat
  fp : Nat
  bp : Nat
  fDone : Bool
  bDone : Bool
  fd : DData Unit
  bd : DData Unit

/-- A step of the forward search (`query.rs:54-69`). -/
def stepFw (links : Nat → Option (List Link)) (dst : Nat) (q : QState) : Option QState := do
  let (o, fd, _) ← settleNext links defaultOps plainCb q.fd ()
  match o with
  | none => return { q with fd := fd, fDone := true }
  | some node =>
    let distance ← fd.dist.get node
    let other ← q.bd.dist.get node
    let sum ← add32 distance other
    let done := if node = dst then true else q.fDone
    if sum < q.tent then return { q with fd := fd, fp := distance, tent := sum, meet := node, fDone := done }
    else return { q with fd := fd, fp := distance, fDone := done }

/-- A step of the backward search (`query.rs:71-86`). -/
def stepBw (links : Nat → Option (List Link)) (src : Nat) (q : QState) : Option QState := do
  let (o, bd, _) ← settleNext links defaultOps plainCb q.bd ()
  match o with
  | none => return { q with bd := bd, bDone := true }
  | some node =>
    let distance ← bd.dist.get node
    let other ← q.fd.dist.get node
    let sum ← add32 distance other
    let done := if node = src then true else q.bDone
    if sum < q.tent then return { q with bd := bd, bp := distance, tent := sum, meet := node, bDone := done }
    else return { q with bd := bd, bp := distance, bDone := done }

/-- The loop of `distance` (`query.rs:52-88`); `none` is a panic, or missing fuel. -/
def queryLoop (fl bl : Nat → Option (List Link)) (src dst : Nat) : Nat → QState → Option QState
  | 0, _ => none
  | fuel + 1, q =>
    if (q.tent > q.fp ∨ q.tent > q.bp) ∧ ¬ (q.fDone = true ∧ q.bDone = true) then
      if q.bDone = true ∨ (q.fp ≤ q.bp ∧ q.fDone = false) then do
        let q ← stepFw fl dst q
        queryLoop fl bl src dst fuel q
      else do
        let q ← stepBw bl src q
        queryLoop fl bl src dst fuel q
    else some q

/-- `Server::distance` (`query.rs:34-94`) -/
def Server.distance (sv : Server) (src dst : Nat) : Option (Option Nat × Server) := do
  let s ← sv.order.rank src
  let t ← sv.order.rank dst
  let fd ← sv.fd.init s 0
  let bd ← sv.bd.init t 0
  let q ← queryLoop sv.forward.linkIter sv.backward.linkIter s t (2 * sv.forward.numNodes + 3)
    ⟨INFINITY, sv.meet, 0, 0, false, false, fd, bd⟩
  return (if q.tent = INFINITY then none else some q.tent, { sv with fd := q.fd, bd := q.bd, meet := q.meet })

/-- A history of queries on one server. -/
def Server.session (sv : Server) : List (Nat × Nat) → Option (List (Option Nat))
  | [] => some []
  | q :: qs => do
    let (r, sv) ← sv.distance q.1 q.2
    let rs ← sv.session qs
    return r :: rs

/-- The inner loop of `path` (`query.rs:109-119`, `:129-139`). The path is given with its growing end first. -/
def pathInner (g : FOGraph) (preds : List (Nat × Unit)) (middle : List Nat) : Nat → List Nat → List Nat → Option (List Nat)
  | 0, _, _ => none
  | _ + 1, path, [] => some path
  | fuel + 1, path, node :: stack => do
    let front ← path.head?
    let next ← preds[front]?
    let es ← g.edgeIndices node next.1
    let e ← es.head?
    let mid ← middle[e]?
    if mid < g.numNodes then pathInner g preds middle fuel path (mid :: node :: stack)
    else pathInner g preds middle fuel (node :: path) stack

/-- The outer loop of `path` (`query.rs:105-120`, `:125-140`); `last` is the node of the query, not its rank. -/
def pathOuter (g : FOGraph) (preds : List (Nat × Unit)) (middle : List Nat) (last : Nat) : Nat → List Nat → Option (List Nat)
  | 0, _ => none
  | fuel + 1, path => do
    let front ← path.head?
    if front = last then return path
    else
      let next ← preds[front]?
      let path ← pathInner g preds middle fuel path [next.1]
      pathOuter g preds middle last fuel path

/-- `Server::path` (`query.rs:98-153`), with the number of turns of the loops bounded by the fuel. -/
def Server.path (sv : Server) (fuel src dst : Nat) : Option (List Nat) := do
  let (fm, bm) ← sv.middle
  let fw ← pathOuter sv.forward sv.fd.pred fm src fuel [sv.meet]
  let bw ← pathOuter sv.backward sv.bd.pred bm dst fuel [sv.meet]
  (fw.dropLast ++ bw.reverse).mapM sv.order.node

end CH
end Verif
