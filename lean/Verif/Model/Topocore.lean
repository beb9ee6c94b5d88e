import Verif.Model.TopoDijkstra
import Verif.Model.GraphOps
import Verif.Model.Sort
/-
Model of `virtual_topocore`, `VirtualTopocoreGraph` (`engine/src/algo/topocore.rs`) and of `Server` in
`engine/src/algo/ch_potentials/query.rs` for graphs with fixed weights.

Not modelled: the older preprocessing `preprocess` (`topocore.rs:44-400`), `debug_assert`s, the inspect callback and statistics.
Bit vectors and `InRangeOption`s are lists of `Bool` and `Option`s here (properties C01, C06).
-/
namespace Verif.Topo

/-- The loop of `symmetric_degree` (`topocore.rs:490-514`). Each round removes an element, so the sum of the lengths is enough fuel; `none` if it is not. -/
def symLoop : Nat → List Nat → List Nat → Nat → Option Nat
  | 0, fw, bw, deg => if fw.isEmpty && bw.isEmpty then some deg else none
  | fuel + 1, fw, bw, deg =>
    match fw, bw with
    | x :: fw', y :: bw' =>
      if x = y then symLoop fuel fw' bw' (deg + 1)
      else if x < y then symLoop fuel fw' bw (deg + 1)
      else symLoop fuel fw bw' (deg + 1)
    | _ :: fw', [] => symLoop fuel fw' [] (deg + 1)
    | [], _ :: bw' => symLoop fuel [] bw' (deg + 1)
    | [], [] => some deg

/-- `symmetric_degree` (`topocore.rs:481-516`) -/
def symmetricDegree (fw bw : List Nat) : Option Nat := symLoop (fw.length + bw.length) (isort id fw) (isort id bw) 0

/-- The classification by a degree, as in `VirtualTopocoreGraph::symmetric_degree` (`topocore.rs:738-742`) -/
def classOf (deg : Nat) : SymDeg := if deg = 3 then .three else if deg > 3 then .greaterEqFour else .lessEqTwo

/-- `dfs` (`topocore.rs:781-803`): the inner `while` loop; the top of the stack is the head of the list. `visit` appends to the order. -/
def dfsLoop (heads : Nat → Option (List Nat)) : Nat → List Bool → List Nat → List Nat → Option (List Bool × List Nat)
  | 0, _, _, _ => none
  | _ + 1, vis, ord, [] => some (vis, ord)
  | fuel + 1, vis, ord, v :: stack => do
    if ← vis[v]? then dfsLoop heads fuel vis ord stack
    else
      let vis ← upd vis v true
      let hs ← heads v
      let new ← hs.filterM (fun h => do
        let b ← vis[h]?
        return !b)
      dfsLoop heads fuel vis (ord ++ [v]) (new.reverse ++ stack)

/-- the outer loop of `dfs` -/
def dfs (n m : Nat) (heads : Nat → Option (List Nat)) : Option (List Nat) := do
  let (_, ord) ← (List.range n).foldlM (fun (st : List Bool × List Nat) node => do
    if ← st.1[node]? then dfsLoop heads (m + 2) st.1 st.2 []
    else dfsLoop heads (m + 2) st.1 st.2 [node]) (List.replicate n false, [])
  return ord

/-- The local variables of `biconnected` (`topocore.rs:805-815`); tops of stacks are heads of lists. -/
structure Bicon where
  stack : List (Nat × List Nat)
  counter : Nat
  num : List (Option Nat)
  low : List Nat
  parent : List Nat
  edges : List (Nat × Nat)
  comps : List (List (Nat × Nat))
deriving Repr

/-- `topocore.rs:852-858`: the edges of a component -/
def popEdges (num : List (Option Nat)) (k : Nat) : List (Nat × Nat) → List (Nat × Nat) → Option (List (Nat × Nat) × List (Nat × Nat))
  | comp, [] => some (comp, [])
  | comp, e :: es => do
    let x ← num[e.1]?
    let x ← x
    if x ≥ k then popEdges num k (comp ++ [e]) es else some (comp, e :: es)

/-- `topocore.rs:846-866`: all neighbours of `w` have been looked at -/
def Bicon.finish (st : Bicon) (w : Nat) (stack : List (Nat × List Nat)) : Option Bicon := do
  let v ← st.parent[w]?
  let lv ← st.low[v]?
  let lw ← st.low[w]?
  let low ← upd st.low v (min lv lw)
  let lw ← low[w]?
  let nv ← st.num[v]?
  let nv ← nv
  if lw ≥ nv then
    let nw ← st.num[w]?
    let nw ← nw
    let (comp, es) ← popEdges st.num nw [] st.edges
    match es with
    | [] => return { st with stack := stack, low := low, edges := [], comps := st.comps ++ [comp] }
    | e :: es => return { st with stack := stack, low := low, edges := es, comps := st.comps ++ [comp ++ [e]] }
  else return { st with stack := stack, low := low }

/-- `topocore.rs:834-844`: the next neighbour `x` of `node`; `rest` and `stack` are what is left of the stack -/
def Bicon.neighbor (links : Nat → Option (List Nat)) (st : Bicon) (node x : Nat) (rest : List Nat) (stack : List (Nat × List Nat)) : Option Bicon := do
  match ← st.num[x]? with
  | some nx =>
    let nn ← st.num[node]?
    let nn ← nn
    let par ← st.parent[node]?
    if nx < nn ∧ x ≠ par then
      let l ← st.low[node]?
      let low ← upd st.low node (min l nx)
      return { st with stack := (node, rest) :: stack, edges := (node, x) :: st.edges, low := low }
    else return { st with stack := (node, rest) :: stack }
  | none =>
    let parent ← upd st.parent x node
    let ls ← links x
    return { st with stack := (x, ls) :: (node, rest) :: stack, parent := parent, edges := (node, x) :: st.edges }

/-- `topocore.rs:827-832`: a node is numbered when it is first on top of the stack -/
def Bicon.number (st : Bicon) (node : Nat) : Option Bicon := do
  match ← st.num[node]? with
  | some _ => return st
  | none =>
    let low ← upd st.low node st.counter
    let num ← upd st.num node (some st.counter)
    return { st with low := low, num := num, counter := st.counter + 1 }

/-- the `while` loop of `biconnected` (`topocore.rs:826-869`) -/
def biconLoop (links : Nat → Option (List Nat)) : Nat → Bicon → Option Bicon
  | 0, _ => none
  | fuel + 1, st =>
    match st.stack with
    | [] => some st
    | (node, ls) :: stack => do
      let st ← st.number node
      match ls with
      | [] =>
        let st ← st.finish node stack
        biconLoop links fuel st
      | x :: rest =>
        let st ← st.neighbor links node x rest stack
        biconLoop links fuel st

/-- the body of the outer loop of `biconnected` (`topocore.rs:816-870`) -/
def biconRoot (links : Nat → Option (List Nat)) (fuel : Nat) (st : Bicon) (node : Nat) : Option Bicon := do
  match ← st.num[node]? with
  | some _ => return st
  | none =>
    let parent ← upd st.parent node node
    let ls ← links node
    biconLoop links fuel { st with parent := parent, stack := [(node, ls)] }

/-- `biconnected` (`topocore.rs:805-872`) on a graph with `m` links -/
def biconnected (n m : Nat) (links : Nat → Option (List Nat)) : Option (List (List (Nat × Nat))) := do
  let st ← (List.range n).foldlM (biconRoot links (n + m + 1)) ⟨[], 0, List.replicate n none, List.replicate n 0, List.replicate n 0, [], []⟩
  return st.comps

/-- `max_by_key(|edges| edges.len())`: the last one of the longest; `none` for an empty list -/
def longest {α : Type} : List (List α) → Option (List α)
  | [] => none
  | x :: xs => some (xs.foldl (fun best y => if y.length ≥ best.length then y else best) x)

/-- `topocore.rs:545-562`, for one neighbour: state `components`, `bridge`, `queue` -/
def compStep (core : List Bool) (idx : Nat) (st : List Nat × List (Option Nat) × List Nat) (x : Nat) : Option (List Nat × List (Option Nat) × List Nat) := do
  if ← core[x]? then
    if st.2.1.length < idx then return (st.1, st.2.1 ++ [some x], st.2.2) else return st
  else
    let c ← st.1[x]?
    if c = 0 then
      let comps ← upd st.1 x idx
      return (comps, st.2.1, st.2.2 ++ [x])
    else return st

/-- the `while` loop of `topocore.rs:544-563` -/
def compLoop (links : Nat → Option (List Nat)) (core : List Bool) (idx : Nat) : Nat → List Nat × List (Option Nat) × List Nat → Option (List Nat × List (Option Nat))
  | 0, _ => none
  | _ + 1, (comps, bridge, []) => some (comps, bridge)
  | fuel + 1, (comps, bridge, v :: queue) => do
    let ls ← links v
    let st ← ls.foldlM (compStep core idx) (comps, bridge, queue)
    compLoop links core idx fuel st

/-- the body of the loop of `topocore.rs:538-569` -/
def compRoot (n : Nat) (links : Nat → Option (List Nat)) (core : List Bool) (st : List Nat × List (Option Nat)) (node : Nat) : Option (List Nat × List (Option Nat)) := do
  let c ← core[node]?
  let k ← st.1[node]?
  if !c && decide (k = 0) then
    let idx := st.2.length + 1
    let comps ← upd st.1 node idx
    let (comps, bridge) ← compLoop links core idx (n + 1) (comps, st.2, [node])
    return (comps, if bridge.length < idx then bridge ++ [none] else bridge)
  else return st

/-- `topocore.rs:534-569`: the components of the nodes outside the core and the core nodes they are attached to -/
def components (n : Nat) (links : Nat → Option (List Nat)) (core : List Bool) : Option (List Nat × List (Option Nat)) :=
  (List.range n).foldlM (compRoot n links core) (List.replicate n 0, [])

/-- `struct VirtualTopocore` (`topocore.rs:427-436`) -/
structure VTopo where
  order : NodeOrder
  biggest : Nat
  deg2 : Nat
  deg3 : Nat
  degs : List Nat
  bcc : List Nat
  bridge : List (Option Nat)
deriving Repr

/-- `node_type(v).in_core()` (`topocore.rs:448-470`). The index into the degrees is valid for all nodes of the graph. -/
def VTopo.inCore (t : VTopo) (v : Nat) : Bool := decide (v < t.deg3) || decide (v < t.deg2) || decide (v < t.biggest)

/-- `bridge_node` (`topocore.rs:472-478`) -/
def VTopo.bridgeNode (t : VTopo) (v : Nat) : Option (Option Nat) :=
  if t.inCore v then some none
  else do
    let c ← t.bcc[v - t.biggest]?
    t.bridge[c]?

/-- `VirtualTopocoreGraph::symmetric_degree` (`topocore.rs:729-744`) -/
def VTopo.symDeg (t : VTopo) (v : Nat) : Option SymDeg :=
  if v < t.deg3 then some .greaterEqFour
  else if v < t.deg2 then some .three
  else if v < t.biggest then some .lessEqTwo
  else do
    let d ← t.degs[v - t.biggest]?
    return classOf d

/-- the heads of a graph: `LinkIterable<NodeIdT>` -/
def headsOf (g : FOGraph) (v : Nat) : Option (List Nat) := do
  let ls ← g.linkIter v
  return ls.map Link.node

/-- `UndirectedGraph::link_iter` (`topocore.rs:36-40`) -/
def undirected (ins outs : Nat → Option (List Nat)) (v : Nat) : Option (List Nat) := do
  let a ← ins v
  let b ← outs v
  return a ++ b

/-- `topocore.rs:531-532` -/
def markEdge (c : List Bool) (e : Nat × Nat) : Option (List Bool) := do
  let c ← upd c e.1 true
  upd c e.2 true

/-- `topocore.rs:609-613` -/
def rankOf (order : NodeOrder) : Option Nat → Option (Option Nat)
  | none => some none
  | some x => do
    let r ← order.rank x
    return some r

/-- `topocore.rs:577-583`: the key that orders as the comparison does -/
def degKey (degs : List Nat) (v : Nat) : Nat := 4 - min (degs.getD v 0) 4

/-- the symmetric degree of a node as `u8`, given the graph and the reversed graph (`topocore.rs:525-527`) -/
def degree8 (g r : FOGraph) (v : Nat) : Option Nat := do
  let fw ← headsOf g v
  let bw ← headsOf r v
  let d ← symmetricDegree fw bw
  return d % 256

/-- `virtual_topocore` (`topocore.rs:519-624`). `UnweightedOwnedGraph::reversed` is `reversed` without the weights. `srt` is the stable
`sort_by`; its comparison is by `min degree 4`, descending. -/
def virtualTopocore (srt : (Nat → Nat) → List Nat → List Nat) (g : FOGraph) : Option VTopo := do
  let ord ← dfs g.numNodes g.numArcs (headsOf g)
  let _ ← NodeOrder.fromNodeOrder ord
  let n := g.numNodes
  let r ← GraphOps.reversed g.numNodes g.numArcs g.linkIter
  let degs ← (List.range n).mapM (degree8 g r)
  let und := undirected (headsOf r) (headsOf g)
  let bccs ← biconnected n (2 * g.numArcs) und
  let big ← longest bccs
  let core ← big.foldlM markEdge (List.replicate n false)
  let (comps, bridge) ← components n und core
  let inCore ← ord.filterM (fun v => core[v]?)
  let sorted := srt (degKey degs) inCore
  let outside ← ord.filterM (fun v => do
    let b ← core[v]?
    return !b)
  let odegs ← outside.mapM (fun v => degs[v]?)
  let bcc ← outside.mapM (fun v => do
    let c ← comps[v]?
    if c = 0 then none else some (c - 1))
  let newOrder := sorted ++ outside
  let ndegs ← newOrder.mapM (fun v => degs[v]?)
  let order ← NodeOrder.fromNodeOrder newOrder
  let bridge ← bridge.mapM (rankOf order)
  return ⟨order, inCore.length, ndegs.findIdx (· < 3), ndegs.findIdx (· < 4), odegs, bcc, bridge⟩

/-- `struct Server` (`ch_potentials/query.rs:8-16`): the graph of the search (in the core), the graph of the other components -/
structure Server where
  main : FOGraph
  comp : FOGraph
  topo : VTopo
deriving Repr

/-- `Server::new_custom` (`ch_potentials/query.rs:35-63`) with `VirtualTopocoreGraph::new` and `new_topo_dijkstra_graphs` (`topocore.rs:633-675`) -/
def Server.new (srtN : (Nat → Nat) → List Nat → List Nat) (srt : (Link → Nat) → List Link → List Link) (bccCore : Bool) (g : FOGraph) : Option Server := do
  let t ← virtualTopocore srtN g
  if bccCore then
    let main ← GraphOps.permutatedFiltered srt t.order g.linkIter (fun a b => t.inCore a && t.inCore b)
    let comp ← GraphOps.permutatedFiltered srt t.order g.linkIter (fun a b => !t.inCore a || !t.inCore b)
    return ⟨main, comp, t⟩
  else
    let main ← GraphOps.permutated srt t.order g.linkIter
    let comp ← GraphOps.permutatedFiltered srt t.order g.linkIter (fun _ _ => false)
    return ⟨main, comp, t⟩

/-- the loops of l.103-117 and l.155-168: a search in the components until the smallest key is at least `lim` of the label of `node`, or the queue
is empty -/
def compSearch {σ : Type} (n : Nat) (sk : Skip) (G : TGraph Link) (P : Potential σ) (node pot : Nat) : Nat → DData Unit → σ → Option (DData Unit × σ)
  | 0, _, _ => none
  | fuel + 1, d, s => do
    let (o, d, s) ← settleNext n sk G defaultOps (potClosures P) d s
    match o with
    | none => return (d, s)
    | some _ =>
      match d.peekKey with
      | none => return (d, s)
      | some k =>
        let l ← d.dist.get node
        let lim ← add32 l pot
        if k ≥ lim then return (d, s) else compSearch n sk G P node pot fuel d s

/-- `Server::distance` with `BCC_CORE` (`ch_potentials/query.rs:85-186`) for `Query` (departure 0), after `permutate`. -/
def Server.distanceCore {σ : Type} (sv : Server) (sk : Skip) (P : Potential σ) (d : DData Unit) (s : σ) (source to : Nat) :
    Option (Option Nat × DData Unit × σ) := do
  let n := sv.main.numNodes
  let s ← P.init s to
  let intoCore := (← sv.topo.bridgeNode source).getD source
  let outOfCore := (← sv.topo.bridgeNode to).getD to
  let (s, pot) ← P.get s intoCore
  match pot with
  | none => return (none, d, s)
  | some pot =>
    let d ← d.init source 0
    let (d, s) ← compSearch n sk ⟨sv.comp.linkIter, sv.topo.symDeg⟩ P intoCore pot (n + 2) d s
    let l ← d.dist.get intoCore
    if l ≥ INFINITY then return (none, d, s)
    else
      let d ← continueQuery d intoCore
      let (coreDist, d, s) ← distanceManually n sk ⟨sv.main.linkIter, sv.topo.symDeg⟩ defaultOps P d s intoCore outOfCore INFINITY
      let d ← continueQuery d (if coreDist.isSome then outOfCore else source)
      let (d, s) ← compSearch n sk ⟨sv.comp.linkIter, sv.topo.symDeg⟩ P to 0 (n + 2) d s
      let dist ← d.dist.get to
      return (if dist < INFINITY then some dist else none, d, s)

/-- `Server::distance` (`ch_potentials/query.rs:66-186`); the potential is wrapped in `PotentialForPermutated`. -/
def Server.distance {σ : Type} (sv : Server) (bccCore : Bool) (sk : Skip) (P : Potential σ) (d : DData Unit) (s : σ) (source to : Nat) :
    Option (Option Nat × DData Unit × σ) :=
  if source = to then some (some 0, d, s)
  else do
    let source ← sv.topo.order.rank source
    let to ← sv.topo.order.rank to
    if bccCore then sv.distanceCore sk (permutatedPot P sv.topo.order) d s source to
    else Topo.distance sv.main.numNodes sk ⟨sv.main.linkIter, sv.topo.symDeg⟩ defaultOps (permutatedPot P sv.topo.order) d s source 0 to INFINITY

/-- `Server::node_path` (`ch_potentials/query.rs:214-223`) -/
def Server.nodePath (sv : Server) (d : DData Unit) (source to : Nat) : Option (List Nat) := do
  let source ← sv.topo.order.rank source
  let to ← sv.topo.order.rank to
  let p ← d.nodePath source to
  p.mapM sv.topo.order.node

end Verif.Topo
