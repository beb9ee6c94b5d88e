import Verif.Model.Perfect
/- Removal of the CCH edges that are infinite for every metric, and directed CCHs: `always_infinity`, `CCH::remove_always_infinity`,
`CCH::to_directed_cch`, `customize_directed`
(engine/src/algo/customizable_contraction_hierarchy/{mod,customization,customization/directed}.rs). -/
namespace Verif
namespace CCH

/-- `prepare_zero_weights` (`customization.rs:96-117`) for one direction -/
def zeroWeights (origArcs : List (List Nat)) : List Nat := origArcs.map (fun arcs => if arcs.isEmpty then INFINITY else 0)

/-- `always_infinity` (`customization.rs:58-67`) -/
def alwaysInfinity (c : Cch) : Option Weights :=
  let none2 := List.replicate c.head.length ((none : Option Nat), (none : Option Nat))
  custNodes c (List.range c.numNodes) ⟨zeroWeights c.fwOrig, zeroWeights c.bwOrig, none2, none2⟩

/-- The arrays `first_out`, `head`, `tail` under construction. -/
structure Topo where
  fo : List Nat
  head : List Nat
  tail : List Nat
deriving DecidableEq, Repr

/-- The entries of a list whose edge has a weight below `INFINITY` in one of two directions: `zip`, `zip`, `filter`, `map` (`mod.rs:232-247`,
`mod.rs:251-259`) -/
def keepEither {α : Type} (l : List α) (up down : List Nat) : List α :=
  (((l.zip up).zip down).filter (fun p => decide (p.1.2 < INFINITY) || decide (p.2 < INFINITY))).map (fun p => p.1.1)

/-- The loop body of `remove_always_infinity` (`mod.rs:249-262`) -/
def removeNode (c : Cch) (w : Weights) (st : Topo) (node : Nat) : Option Topo := do
  let (a, b) ← c.topo.range node
  let hs ← slice c.head a b
  let us ← slice w.up a b
  let ds ← slice w.down a b
  let head := st.head ++ keepEither hs us ds
  let last ← st.fo.getLast?
  return ⟨st.fo ++ [head.length], head, st.tail ++ List.replicate (head.length - last) node⟩

/-- `CCH::remove_always_infinity` (`mod.rs:221-276`); the separator tree is a function of the elimination tree, which is cloned. -/
def removeAlwaysInfinity (c : Cch) : Option Cch := do
  let w ← alwaysInfinity c
  let t ← (List.range c.numNodes).foldlM (removeNode c w) ⟨[0], [], []⟩
  let inv ← GraphOps.reversedWithEdgeIds ⟨t.fo, t.head, t.head⟩
  return ⟨t.fo, t.head, t.tail, c.order, keepEither c.fwOrig w.up w.down, keepEither c.bwOrig w.up w.down, c.elimTree, inv⟩

/-- One direction of a `DirectedCCH` (`mod.rs:606-620`): `forward_...` or `backward_...` -/
structure DirSide where
  fo : List Nat
  head : List Nat
  tail : List Nat
  orig : List (List Nat)
  inv : GraphOps.RevIds
deriving DecidableEq, Repr

/-- `struct DirectedCCH` (`mod.rs:606-620`), without the separator tree -/
structure DirCch where
  fw : DirSide
  bw : DirSide
  order : NodeOrder
  elimTree : List (Option Nat)
deriving DecidableEq, Repr

/-- The body of the loop in `to_directed_cch` (`mod.rs:197-204`) for one direction; `g` is the customized graph of the direction. -/
def directNode (g : FOGraph) (st : Topo) (node : Nat) : Option Topo := do
  let ls ← g.linkIter node
  let ls := ls.filter (fun l => decide (l.weight < INFINITY))
  let head := st.head ++ ls.map Link.node
  return ⟨st.fo ++ [head.length], head, st.tail ++ ls.map (fun _ => node)⟩

/-- One direction of `to_directed_cch` (`mod.rs:167-210`) -/
def directSide (n : Nat) (g : FOGraph) (orig : List (List Nat)) : Option DirSide := do
  let t ← (List.range n).foldlM (directNode g) ⟨[0], [], []⟩
  let inv ← GraphOps.reversedWithEdgeIds ⟨t.fo, t.head, t.head⟩
  let orig := ((orig.zip g.weight).filter (fun p => decide (p.2 < INFINITY))).map Prod.fst
  return ⟨t.fo, t.head, t.tail, orig, inv⟩

/-- `CCH::to_directed_cch` (`mod.rs:161-219`). The two directions are filled in one loop, but do not depend on each other. -/
def toDirected (c : Cch) : Option DirCch := do
  let w ← alwaysInfinity c
  let fw ← directSide c.numNodes (fwGraph c w) c.fwOrig
  let bw ← directSide c.numNodes (bwGraph c w) c.bwOrig
  return ⟨fw, bw, c.order, c.elimTree⟩

namespace DirSide

/-- The graph of a direction; the weights are unused. -/
def topo (s : DirSide) : FOGraph := ⟨s.fo, s.head, s.head⟩

/-- `cch.forward()[v].iter().zip(cch.forward().range(v))` (e.g. `directed.rs:47, 54, 66`): heads and edge ids -/
def edges (s : DirSide) (v : Nat) : Option (List (Nat × Nat)) := do
  let (a, b) ← s.topo.range v
  let hs ← slice s.head a b
  return hs.zip ((List.range (b - a)).map (· + a))

end DirSide

/-- "store weight of edge in workspace at index `head`" (`directed.rs:47-52`) for one edge -/
def dirLoad (w : List Nat) (ws : WS) (l : Nat × Nat) : Option WS := do
  let x ← w[l.2]?
  upd ws l.1 (x, none, none)

/-- One lower triangle (`directed.rs:84-88` with `flip = false`, `directed.rs:122-126` with `flip = true`): `firstW` is the weight of the edge
`first`, `w` are the weights of the direction of the second edge. The access is `get_unchecked` in the code. -/
def dirTriangle (w : List Nat) (firstW first : Nat) (flip : Bool) (ws : WS) (l : Nat × Nat) : Option WS := do
  let x ← w[l.2]?
  let t ← add32 x firstW
  if flip then relaxWs ws l.1 t l.2 first else relaxWs ws l.1 t first l.2

/-- The loop body for one downward edge of the current node (`directed.rs:55-90`, `directed.rs:93-128`). `s` is the direction that is being
customized with weights `own`, `other` are the weights of the other direction. -/
def dirLow (s : DirSide) (own other : List Nat) (flip : Bool) (current : Nat) (ws : WS) (l : Nat × Nat) : Option WS := do
  let f ← other[l.2]?
  let es ← s.edges l.1
  (es.reverse.takeWhile (fun p => decide (current < p.1))).foldlM (dirTriangle own f l.2 flip) ws

/-- "copy weights from the mapping back to the edge" (`directed.rs:131-148`) for one edge -/
def dirStore (ws : WS) (st : List Nat × List (Option Nat × Option Nat)) (l : Nat × Nat) : Option (List Nat × List (Option Nat × Option Nat)) := do
  let x ← ws[l.1]?
  let w ← upd st.1 l.2 x.1
  let u ← upd st.2 l.2 x.2
  return (w, u)

/-- The loop body for `current_node` (`directed.rs:38-149`). The slices with offsets are the global arrays here. -/
def dirNode (c : DirCch) (current : Nat) (ws : WS × WS) (w : Weights) : Option (Weights × (WS × WS)) := do
  let fe ← c.fw.edges current
  let be ← c.bw.edges current
  let out ← fe.foldlM (dirLoad w.up) ws.1
  let inc ← be.foldlM (dirLoad w.down) ws.2
  let bl ← c.bw.inv.linkIter current
  let out ← bl.foldlM (dirLow c.fw w.up w.down false current) out
  let fl ← c.fw.inv.linkIter current
  let inc ← fl.foldlM (dirLow c.bw w.down w.up true current) inc
  let u ← fe.foldlM (dirStore out) (w.up, w.upUnpack)
  let d ← be.foldlM (dirStore inc) (w.down, w.downUnpack)
  return (⟨u.1, d.1, u.2, d.2⟩, (out, inc))

/-- `DirectedCCH::num_nodes` (`mod.rs:623-625`) -/
def DirCch.numNodes (c : DirCch) : Nat := c.fw.fo.length - 1

/-- Customize the nodes of a list one after the other, in one thread (`directed.rs:24-38`). -/
def dirNodes (c : DirCch) (nodes : List Nat) (w : Weights) : Option Weights := do
  let r ← nodes.foldlM (fun (st : Weights × (WS × WS)) v => dirNode c v st.2 st.1) (w, freshWS c.numNodes)
  return r.1

/-- The arrays before the main customization (`customization.rs:42-48`, `directed.rs:157-158`) -/
def dirInit (c : DirCch) (metric : FOGraph) : Option Weights := do
  let up ← prepareWeights c.fw.orig metric
  let down ← prepareWeights c.bw.orig metric
  let none2 := fun (m : Nat) => List.replicate m ((none : Option Nat), (none : Option Nat))
  return ⟨up, down, none2 c.fw.head.length, none2 c.bw.head.length⟩

/-- `customize_directed` (`customization.rs:38-51`) with the feature `cch-disable-par`: sequential. -/
def customizeDirected (c : DirCch) (metric : FOGraph) : Option Weights := do
  let w ← dirInit c metric
  dirNodes c (List.range c.numNodes) w

/-- The graph of one direction (`mod.rs:466-471`) -/
def DirSide.graph (s : DirSide) (w : List Nat) : FOGraph := ⟨s.fo, s.head, w⟩

/-- `serveOn` for the result of `customize_directed` -/
def serveDirected (c : DirCch) (w : Weights) (s : Server) (src dst k : Nat) : Option ((Option Nat × List (List Nat)) × Server) :=
  serveOn c.order (c.fw.graph w.up) (c.bw.graph w.down) c.elimTree w c.bw.tail s src dst k

/-- A history of a server for a directed CCH -/
def sessionDirected (c : DirCch) : Weights → Server → List Op → Option (List (Option Nat × List (List Nat)))
  | _, _, [] => some []
  | w, s, .query src dst k :: ops => do
    let r ← serveDirected c w s src dst k
    let rs ← sessionDirected c w r.2 ops
    return r.1 :: rs
  | _, s, .update metric :: ops => do
    let w ← customizeDirected c metric
    sessionDirected c w s ops

end CCH
end Verif
