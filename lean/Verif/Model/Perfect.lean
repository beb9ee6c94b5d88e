import Verif.Model.CCH
/- Model of perfect customization (`engine/src/algo/customizable_contraction_hierarchy/customization.rs:253-630`). -/
namespace Verif
namespace CCH

/-- The arrays of perfect customization: weights, and whether a weight was improved (`customization.rs:331-332`). -/
structure PW where
  up : List Nat
  down : List Nat
  upMod : List Bool
  downMod : List Bool
deriving DecidableEq, Repr

/-- `if relax_weight < *edge_weight { *edge_weight = relax_weight; *mod = true }` (`customization.rs:291-297`); the pointers are not checked
in the code, here out of bounds is a panic, and the theorems show it does not happen. -/
def relaxMod (w : List Nat) (m : List Bool) (e x : Nat) : Option (List Nat × List Bool) := do
  let old ← w[e]?
  if x < old then do
    let w ← upd w e x
    let m ← upd m e true
    return (w, m)
  else return (w, m)

/-- `relaxMod` for an upward edge -/
def PW.relaxUp (p : PW) (e a b : Nat) : Option PW := do
  let x ← add32 a b
  let r ← relaxMod p.up p.upMod e x
  return { p with up := r.1, upMod := r.2 }

/-- `relaxMod` for a downward edge -/
def PW.relaxDown (p : PW) (e a b : Nat) : Option PW := do
  let x ← add32 a b
  let r ← relaxMod p.down p.downMod e x
  return { p with down := r.1, downMod := r.2 }

/-- The four relaxations for a triangle (`customization.rs:290-318`): `edge` and `other` leave the current node, `sc` connects their heads. -/
def perfTriangle (edge sc other : Nat) (p : PW) : Option PW := do
  let a ← p.up[edge]?
  let b ← p.up[sc]?
  let p ← p.relaxUp other a b
  let a ← p.up[other]?
  let b ← p.down[sc]?
  let p ← p.relaxUp edge a b
  let a ← p.down[edge]?
  let b ← p.down[sc]?
  let p ← p.relaxDown other a b
  let a ← p.down[other]?
  let b ← p.up[sc]?
  p.relaxDown edge a b

/-- Loop body for an edge `(target, id)` of an upper neighbour (`customization.rs:284-320`) -/
def perfEdge (ws : List (Option Nat)) (edge : Nat) (p : PW) (l : Nat × Nat) : Option PW := do
  let o ← ws[l.1]?
  match o with
  | none => return p
  | some other => perfTriangle edge l.2 other p

/-- `neighbor_iter(v).zip(neighbor_edge_indices(v))` -/
def edgesOf (c : Cch) (v : Nat) : Option (List (Nat × Nat)) := do
  let (a, b) ← c.topo.range v
  let hs ← slice c.head a b
  return hs.zip ((List.range (b - a)).map (· + a))

/-- The loop body for `current_node` (`customization.rs:273-328`); `ws` is the workspace `node_edge_ids` of the thread. -/
def perfNode (c : Cch) (current : Nat) (ws : List (Option Nat)) (p : PW) : Option (PW × List (Option Nat)) := do
  let edges ← edgesOf c current
  let ws ← edges.foldlM (fun ws l => upd ws l.1 (some l.2)) ws
  let p ← edges.foldlM (fun p l => do
    let es ← edgesOf c l.1
    es.foldlM (perfEdge ws l.2) p) p
  let ws ← edges.foldlM (fun ws l => upd ws l.1 none) ws
  return (p, ws)

/-- `customize_perfect_without_rebuild` (`customization.rs:257-351`) where the nodes are processed in the given order, each by a thread whose
workspace is in the state it had after the last node (all threads start with an empty one). The steps for different nodes are atomic here;
in the code they may overlap only for nodes of different subtrees, which write different edges (see `PStep.frame`). -/
def perfect (c : Cch) (nodes : List Nat) (w : Weights) : Option PW := do
  let r ← nodes.foldlM (fun (st : PW × List (Option Nat)) v => perfNode c v st.2 st.1)
    (⟨w.up, w.down, List.replicate w.up.length false, List.replicate w.down.length false⟩, List.replicate c.numNodes none)
  return r.1

/-! ### `rebuild_customized_perfect` -/

/-- What the rebuild reads for one direction: perfect weights, modified flags and unpacking information. -/
structure SideIn where
  weight : List Nat
  modified : List Bool
  unpack : List (Option Nat × Option Nat)
deriving DecidableEq, Repr

/-- The arrays of one direction of a `CustomizedPerfect` (`customization.rs:366-380`) and the mapping of the edge ids. -/
structure Side where
  fo : List Nat
  head : List Nat
  tail : List Nat
  weight : List Nat
  unp : List (Option Nat × Option Nat)
  map : List Nat
deriving DecidableEq, Repr

/-- `InRangeOption::new(x.value().map(|idx| mapping[idx as usize]))` (e.g. `customization.rs:414`) -/
def mapId (map : List Nat) : Option Nat → Option (Option Nat)
  | none => some none
  | some i => (map[i]?).map some

/-- The tuple of both parts (`customization.rs:413-416`) -/
def mapPair (down up : List Nat) (u : Option Nat × Option Nat) : Option (Option Nat × Option Nat) := do
  let a ← mapId down u.1
  let b ← mapId up u.2
  return (a, b)

/-- One edge is appended (`customization.rs:409-412`). -/
def Side.push (s : Side) (e head tail weight : Nat) : Option Side := do
  let map ← upd s.map e s.head.length
  return { s with head := s.head ++ [head], tail := s.tail ++ [tail], weight := s.weight ++ [weight], map := map }

/-- The loop body for the forward edge `e` (`customization.rs:402-418`); the debug assertion that the weight is below `INFINITY` is left out,
it does not hold (see DESIGN.md). -/
def keepFw (c : Cch) (inp : SideIn) (node : Nat) (st : Side × Side) (e : Nat) : Option (Side × Side) := do
  let h ← c.head[e]?
  let w ← inp.weight[e]?
  let m ← inp.modified[e]?
  let u ← inp.unpack[e]?
  if m then return st
  else do
    let f ← st.1.push e h node w
    let u ← mapPair st.2.map f.map u
    return ({ f with unp := f.unp ++ [u] }, st.2)

/-- The loop body for the backward edge `e` (`customization.rs:420-436`) -/
def keepBw (c : Cch) (inp : SideIn) (node : Nat) (st : Side × Side) (e : Nat) : Option (Side × Side) := do
  let h ← c.head[e]?
  let w ← inp.weight[e]?
  let m ← inp.modified[e]?
  let u ← inp.unpack[e]?
  if m then return st
  else do
    let b ← st.2.push e h node w
    let u ← mapPair b.map st.1.map u
    return (st.1, { b with unp := b.unp ++ [u] })

/-- The loop body for `node` (`customization.rs:400-439`); both directions of the CCH have the same topology. -/
def rebuildNode (c : Cch) (fw bw : SideIn) (st : Side × Side) (node : Nat) : Option (Side × Side) := do
  let (a, b) ← c.topo.range node
  let st ← (List.range' a (b - a)).foldlM (keepFw c fw node) st
  let st ← (List.range' a (b - a)).foldlM (keepBw c bw node) st
  return ({ st.1 with fo := st.1.fo ++ [st.1.head.length] }, { st.2 with fo := st.2.fo ++ [st.2.head.length] })

/-- The arrays before the loop (`customization.rs:383-398`) -/
def Side.init (m : Nat) : Side := ⟨[0], [], [], [], [], List.replicate m m⟩

/-- `rebuild_customized_perfect` (`customization.rs:353-630`) with the feature `cch-disable-par` -/
def rebuildSeq (c : Cch) (fw bw : SideIn) : Option (Side × Side) :=
  (List.range c.numNodes).foldlM (rebuildNode c fw bw) (Side.init c.head.length, Side.init c.head.length)

/-- An entry of the four edge arrays, which the parallel version splits and writes at the same positions: head, tail, weight, unpacking. -/
structure EdgeRec where
  head : Nat
  tail : Nat
  weight : Nat
  unp : Option Nat × Option Nat
deriving DecidableEq, Repr

/-- What a task writes for one direction: its part of `first_out`, of the edge arrays and of the mapping. -/
structure Part where
  fo : List Nat
  recs : List EdgeRec
  map : List Nat
deriving DecidableEq, Repr

/-- The loop body for one edge in a task (`customization.rs:560-574`); `off` is the first edge of the task. -/
def partEdge (c : Cch) (inp : SideIn) (before off node : Nat) (p : Part) (e : Nat) : Option Part := do
  let h ← c.head[e]?
  let w ← inp.weight[e]?
  let m ← inp.modified[e]?
  let u ← inp.unpack[e]?
  if m then return p
  else do
    let map ← upd p.map (e - off) (before + p.recs.length)
    return { p with recs := p.recs ++ [⟨h, node, w, u⟩], map := map }

/-- The loop body for one node in a task (`customization.rs:555-591`), for one direction -/
def partNode (c : Cch) (inp : SideIn) (before off : Nat) (p : Part) (node : Nat) : Option Part := do
  let (a, b) ← c.topo.range node
  (List.range' a (b - a)).foldlM (partEdge c inp before off node) { p with fo := p.fo ++ [before + p.recs.length] }

/-- A task (`customization.rs:550-592`): nodes `a..b`, of whose edges `cnt` are kept, and `before` in earlier tasks. The slices of the edge
arrays have length `cnt`; writing more is a panic, entries not written keep their initial value. -/
def part (c : Cch) (inp : SideIn) (a b before cnt : Nat) : Option Part := do
  let off ← c.firstOut[a]?
  let fin ← c.firstOut[b]?
  let p ← (List.range' a (b - a)).foldlM (partNode c inp before off) ⟨[], [], List.replicate (fin - off) c.head.length⟩
  if p.recs.length ≤ cnt then return { p with recs := p.recs ++ List.replicate (cnt - p.recs.length) ⟨0, 0, 0, (none, none)⟩ } else none

/-- The number of kept edges of a task (`customization.rs:475-486`) -/
def partCount (c : Cch) (inp : SideIn) (a b : Nat) : Option Nat := do
  let lo ← c.firstOut[a]?
  let hi ← c.firstOut[b]?
  let ms ← slice inp.modified lo hi
  return (ms.filter (fun m => !m)).length

/-- `split_at_mut` for all parts one after the other (`customization.rs:525-548`): the parts are written to the front of an array with `len`
entries `x`; a panic if they do not fit. -/
def splitInto {α : Type} (len : Nat) (x : α) (parts : List α) : Option (List α) :=
  if parts.length ≤ len then some (parts ++ List.replicate (len - parts.length) x) else none

/-- The parallel version for one direction, up to the translation of the unpacking information (`customization.rs:441-605`); `firsts` are the
first nodes of the tasks and `n`. The tasks write to disjoint slices and read only what none of them writes, so their order is irrelevant. -/
def rebuildSide (c : Cch) (inp : SideIn) (k : Nat) (firsts : List Nat) : Option Part := do
  let counts ← (List.range k).mapM (fun i => do
    let a ← firsts[i]?
    let b ← firsts[i + 1]?
    partCount c inp a b)
  let parts ← (List.range k).mapM (fun i => do
    let a ← firsts[i]?
    let b ← firsts[i + 1]?
    let cnt ← counts[i]?
    part c inp a b (counts.take i).sum cnt)
  let fo ← splitInto c.firstOut.length 0 (parts.map Part.fo).flatten
  let recs ← splitInto c.head.length ⟨0, 0, 0, (none, none)⟩ (parts.map Part.recs).flatten
  let map ← splitInto c.head.length c.head.length (parts.map Part.map).flatten
  let recs := recs.take counts.sum
  let fo ← upd fo c.numNodes recs.length
  return ⟨fo, recs, map⟩

/-- `first_node_of_chunk` (`customization.rs:460-466`); `chunks` panics for size 0. -/
def firstNodes (c : Cch) (k : Nat) : Option (List Nat) :=
  let m := c.head.length
  let size := (m + k - 1) / k
  if size = 0 then none
  else do
    let l ← (List.range ((m + size - 1) / size)).mapM (fun i => c.tail[i * size]?)
    return l ++ [c.numNodes]

/-- The result with the translated unpacking information (`customization.rs:607-614`) -/
def Part.toSide (p : Part) (down up : List Nat) : Option Side := do
  let unp ← p.recs.mapM (fun r => mapPair down up r.unp)
  return ⟨p.fo, p.recs.map EdgeRec.head, p.recs.map EdgeRec.tail, p.recs.map EdgeRec.weight, unp, p.map⟩

/-- `rebuild_customized_perfect` (`customization.rs:353-630`) in parallel, with `k = 4 * rayon::current_num_threads()` tasks. -/
def rebuildPar (c : Cch) (fw bw : SideIn) (k : Nat) : Option (Side × Side) := do
  let firsts ← firstNodes c k
  let f ← rebuildSide c fw k firsts
  let b ← rebuildSide c bw k firsts
  let fs ← f.toSide b.map f.map
  let bs ← b.toSide b.map f.map
  return (fs, bs)

/-- `forward_graph()` or `backward_graph()` of a `CustomizedPerfect` (`mod.rs:532-537`) -/
def Side.graph (s : Side) : FOGraph := ⟨s.fo, s.head, s.weight⟩

/-- The unpacking information in the form that the model of the queries takes (`mod.rs:547-556`) -/
def perfWeights (fb : Side × Side) : Weights := ⟨fb.1.weight, fb.2.weight, fb.1.unp, fb.2.unp⟩

/-- The input of the rebuild after perfect customization (`customization.rs:252-256`) -/
def PW.sides (p : PW) (w : Weights) : SideIn × SideIn := (⟨p.up, p.upMod, w.upUnpack⟩, ⟨p.down, p.downMod, w.downUnpack⟩)

/-- `customize_perfect` (`customization.rs:252-256`), sequentially -/
def customizePerfect (c : Cch) (w : Weights) : Option (Side × Side) := do
  let p ← perfect c (List.range c.numNodes).reverse w
  rebuildSeq c (p.sides w).1 (p.sides w).2

/-- A query and `k` path extractions on a server for a `CustomizedPerfect` (`query.rs:36-200` with the graphs, tails and unpacking information
of `mod.rs:532-562`) -/
def servePerfect (c : Cch) (fb : Side × Side) (s : Server) (src dst k : Nat) : Option ((Option Nat × List (List Nat)) × Server) :=
  serveOn c.order fb.1.graph fb.2.graph c.elimTree (perfWeights fb) fb.2.tail s src dst k

/-- A history of a server for perfectly customized metrics -/
def sessionPerfect (c : Cch) : Side × Side → Server → List Op → Option (List (Option Nat × List (List Nat)))
  | _, _, [] => some []
  | fb, s, .query src dst k :: ops => do
    let r ← servePerfect c fb s src dst k
    let rs ← sessionPerfect c fb r.2 ops
    return r.1 :: rs
  | _, s, .update metric :: ops => do
    let w ← customize c metric
    let fb ← customizePerfect c w
    sessionPerfect c fb s ops

end CCH
end Verif
