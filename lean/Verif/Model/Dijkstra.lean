import Verif.Model.Graph
import Verif.Model.Containers
import Verif.Model.IndexHeap
/-
Model of `engine/src/algo/dijkstra.rs`, `algo/dijkstra/generic_dijkstra.rs` and `algo/dijkstra/query/dijkstra.rs`.

The search is generic, as in the code: over the arcs of the graph (`links`), the operations on labels (`DOps`) and the
closures passed to `settle_next_node`.
-/
namespace Verif

/-- `struct DijkstraData` (`dijkstra.rs:79-84`) with `L = Weight`. -/
structure DData (β : Type) where
  dist : TSVec Nat
  pred : List (Nat × β)
  queue : IHeap QState
deriving Repr

/-- `trait DijkstraOps` (`dijkstra.rs:136-145`) for `Label = Weight`; `merge` is the one of `DefaultOps`
(l.182-188), which all `Weight` variants share. `link` is `none` on `u32` overflow. -/
structure DOps (α β : Type) where
  head : α → Nat
  link : Nat → α → Option Nat
  predLink : α → β

/-- `DefaultOps` (`dijkstra.rs:167-192`). -/
def defaultOps : DOps Link Unit where
  head := Link.node
  link label l := add32 label l.weight
  predLink _ := ()

/-- `DefaultOpsWithLinkPath` (`dijkstra.rs:228-262`): remembers the edge id. -/
def linkPathOps : DOps (Link × Nat) Nat where
  head l := l.1.node
  link label l := add32 label l.1.weight
  predLink l := l.2

namespace DData
variable {α β σ : Type}

/-- `DijkstraData::new_with_pred_link` (`dijkstra.rs:94-100`) -/
def new (n : Nat) (b : β) : DData β :=
  ⟨TSVec.new INFINITY n, List.replicate n (n, b), IHeap.new n⟩

/-- `initialize` and `add_start_node` (`generic_dijkstra.rs:55-70`) -/
def init (d : DData β) (source initial : Nat) : Option (DData β) := do
  let queue ← d.queue.clear
  let dist := d.dist.reset
  let queue ← queue.push ⟨initial, source⟩
  let dist ← dist.modify source (fun _ => initial)
  let p ← d.pred[source]?
  let pred ← upd d.pred source (source, p.2)
  return ⟨dist, pred, queue⟩

/-- The body of the loop over the links in `settle_next_node` (`generic_dijkstra.rs:116-140`) for one link of the
popped node. The two closures `improve_callback` and `potential` and the addition of the potential (l.127-128) are one
parameter: `cb s head label` is the new state of the closures and the key to queue the node with, if any. -/
def relax (ops : DOps α β) (cb : σ → Nat → Nat → Option (σ × Option Nat)) (node : Nat)
    (st : DData β × σ) (link : α) : Option (DData β × σ) := do
  let (d, s) := st
  let label ← d.dist.get node
  let linked ← ops.link label link
  let h := ops.head link
  -- `self.ops.merge(&mut self.distances[link.head()], linked)`
  let old ← d.dist.get h
  let dist ← d.dist.modify h (fun l => if linked < l then linked else l)
  if linked < old then
    let pred ← upd d.pred h (node, ops.predLink link)
    let next ← dist.get h
    let (s, key) ← cb s h next
    match key with
    | none => return (⟨dist, pred, d.queue⟩, s)
    | some key =>
      if ← d.queue.containsIndex h then
        let queue ← d.queue.decreaseKey ⟨key, h⟩
        return (⟨dist, pred, queue⟩, s)
      else
        let queue ← d.queue.push ⟨key, h⟩
        return (⟨dist, pred, queue⟩, s)
  else return (⟨dist, d.pred, d.queue⟩, s)

/-- `settle_next_node` (`generic_dijkstra.rs:109-144`; the edge predicate is part of `links`). -/
def settleNext (links : Nat → Option (List α)) (ops : DOps α β) (cb : σ → Nat → Nat → Option (σ × Option Nat))
    (d : DData β) (s : σ) : Option (Option Nat × DData β × σ) := do
  let (o, queue) ← d.queue.pop
  match o with
  | none => return (none, { d with queue := queue }, s)
  | some st =>
    let ls ← links st.node
    let (d, s) ← ls.foldlM (relax ops cb st.node) ({ d with queue := queue }, s)
    return (some st.node, d, s)

/-- The closures of `next_step_with_potential` (`generic_dijkstra.rs:86-92`): no improve callback; the key is the
`u32` sum of potential and label. `pot` may change its state (`FnMut`). -/
def potCb (pot : σ → Nat → Option (σ × Option Nat)) (s : σ) (v label : Nat) : Option (σ × Option Nat) := do
  let (s, p) ← pot s v
  match p with
  | none => return (s, none)
  | some p =>
    let key ← add32 p label
    return (s, some key)

/-- The closures of `Iterator::next` (`generic_dijkstra.rs:194-196`): the potential is `Neutral`. -/
def plainCb (s : Unit) (_v label : Nat) : Option (Unit × Option Nat) := some (s, some label)

/-- The loop of `Server::distance` (`query/dijkstra.rs:57-63`). `none` also if the fuel does not suffice. -/
def searchLoop (links : Nat → Option (List α)) (ops : DOps α β) (cb : σ → Nat → Nat → Option (σ × Option Nat)) (to : Nat) :
    Nat → DData β → σ → Option (Option Nat × DData β × σ)
  | 0, _, _ => none
  | fuel + 1, d, s => do
    let (o, d, s) ← settleNext links ops cb d s
    match o with
    | none => return (none, d, s)
    | some node =>
      if node = to then
        let r ← d.dist.get node
        return (some r, d, s)
      else searchLoop links ops cb to fuel d s

/-- `Server::distance` (`query/dijkstra.rs:46-70`) with a potential whose initialised state is `s`.
`departure` is the initial label (0 for `Query`, the departure time for `TDQuery`). Each node is settled at most once
(theorem), so `n + 1` rounds are enough. -/
def distance (n : Nat) (links : Nat → Option (List α)) (ops : DOps α β) (pot : σ → Nat → Option (σ × Option Nat))
    (d : DData β) (s : σ) (source departure to : Nat) : Option (Option Nat × DData β × σ) := do
  let d ← d.init source departure
  searchLoop links ops (potCb pot) to (n + 1) d s

/-- `ZeroPotential` (`a_star.rs:108-116`) -/
def zeroPot (s : Unit) (_v : Nat) : Option (Unit × Option Nat) := some (s, some 0)

/-- the loop of `node_path` (`dijkstra.rs:105-108`), with fuel; builds the path backwards, as the code -/
def nodePathLoop (d : DData β) (source : Nat) : Nat → List Nat → Nat → Option (List Nat)
  | 0, _, _ => none
  | fuel + 1, path, last =>
    if last = source then some path
    else do
      let p ← d.pred[last]?
      nodePathLoop d source fuel (path ++ [p.1]) p.1

/-- `node_path` (`dijkstra.rs:102-113`) -/
def nodePath (d : DData β) (source to : Nat) : Option (List Nat) := do
  let p ← nodePathLoop d source (d.pred.length + 1) [to] to
  return p.reverse

/-- the loop of `edge_path` (`dijkstra.rs:119-122`) -/
def edgePathLoop (d : DData β) (source : Nat) : Nat → List β → Nat → Option (List β)
  | 0, _, _ => none
  | fuel + 1, path, cur =>
    if cur = source then some path
    else do
      let p ← d.pred[cur]?
      edgePathLoop d source fuel (path ++ [p.2]) p.1

/-- `edge_path` (`dijkstra.rs:115-127`) -/
def edgePath (d : DData β) (source to : Nat) : Option (List β) := do
  let p ← edgePathLoop d source (d.pred.length + 1) [] to
  return p.reverse

end DData
end Verif

namespace Verif.DData

/-- One query of `Server<OwnedGraph, DefaultOps, ZeroPotential>` (`query/dijkstra.rs:46-70`, `179-181`): result and the
data kept for the next query and for path extraction. -/
def query (g : FOGraph) (d : DData Unit) (s t : Nat) : Option (Option Nat × DData Unit) := do
  let (r, d, _) ← distance g.numNodes g.linkIter defaultOps zeroPot d () s 0 t
  return (r, d)

/-- The same with `DefaultOpsWithLinkPath`, whose paths are edge ids. -/
def queryWithLinkPath (g : FOGraph) (d : DData Nat) (s t : Nat) : Option (Option Nat × DData Nat) := do
  let (r, d, _) ← distance g.numNodes g.linkIterIds linkPathOps zeroPot d () s 0 t
  return (r, d)

/-- A sequence of queries on one server. -/
def queries {β : Type} (q : DData β → Nat → Nat → Option (Option Nat × DData β)) :
    DData β → List (Nat × Nat) → Option (List (Option Nat) × DData β)
  | d, [] => some ([], d)
  | d, (s, t) :: qs => do
    let (r, d) ← q d s t
    let (rs, d) ← queries q d qs
    return (r :: rs, d)

/-- `one_to_all` (`query/dijkstra.rs:97-103`): a query to a target that does not exist. -/
def oneToAll (g : FOGraph) (d : DData Unit) (s : Nat) : Option (DData Unit) := do
  let (_, d) ← query g d s g.numNodes
  return d

/-- `usize::trailing_zeros` (`fuel` at least the number of bits) -/
def trailingZeros : Nat → Nat → Nat
  | 0, _ => 0
  | fuel + 1, i => if i % 2 = 1 then 0 else trailingZeros fuel (i / 2) + 1

/-- The loop of `ranks` (`query/dijkstra.rs:87-94`); the result is the list of arguments passed to the callback. -/
def ranksLoop (g : FOGraph) : Nat → Nat → DData Unit → Option (List (Nat × Nat × Nat) × DData Unit)
  | 0, _, _ => none
  | fuel + 1, i, d => do
    let (o, d, _) ← settleNext g.linkIter defaultOps plainCb d ()
    match o with
    | none => return ([], d)
    | some node =>
      let i := i + 1
      let dist ← d.dist.get node
      let (rest, d) ← ranksLoop g fuel i d
      if i &&& (i - 1) = 0 then return ((node, dist, trailingZeros i i) :: rest, d) else return (rest, d)

/-- `ranks` (`query/dijkstra.rs:80-95`) -/
def ranks (g : FOGraph) (d : DData Unit) (s : Nat) : Option (List (Nat × Nat × Nat) × DData Unit) := do
  let d ← d.init s 0
  ranksLoop g (g.numNodes + 1) 0 d

end Verif.DData
