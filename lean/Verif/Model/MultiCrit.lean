import Verif.Model.ForbiddenPaths
import Verif.Model.Containers
import Verif.Model.IndexHeap
import Verif.Model.Potential
import Verif.Model.SubPaths
/-
Model of `MultiCritDijkstraRun` (`engine/src/algo/dijkstra/generic_dijkstra.rs:197-434`) with `BlockedPathsDijkstra`, as used by
`TrafficAwareServer`. Counters of arcs and queue pushes are omitted.
-/
namespace Verif.Traffic

/-- `DijkstraData` (`dijkstra.rs:79-84`) with a heap of labels for every node -/
structure MData where
  dist : TSVec (Heap Lab)
  pred : List Nat
  queue : IHeap QState

namespace MData
variable {σ : Type}

/-- `DijkstraData::new` (`dijkstra.rs:86-100`) -/
def new (n : Nat) : MData := ⟨TSVec.new Heap.new n, List.replicate n n, IHeap.new n⟩

/-- the label of the source (`traffic_aware.rs:432-435`) -/
def source (s : Nat) : Lab := ⟨0, Active.new 0, s, Active.new 0⟩

/-- `initialize` and `add_start_node` (`generic_dijkstra.rs:266-290`) with the label of `TrafficAwareServer` -/
def init (P : Potential σ) (d : MData) (c : σ) (s : Nat) : Option (MData × σ) := do
  let queue ← d.queue.clear
  let dist := d.dist.reset
  let (c, p) ← P.get c s
  let queue ← match p with
    | none => some queue
    | some p => do
      let key ← add32 p (source s).dist
      queue.push ⟨key, s⟩
  let q ← (Heap.new : Heap Lab).push Lab.le (source s)
  let dist ← dist.modify s (fun _ => q)
  let pred ← upd d.pred s s
  return (⟨dist, pred, queue⟩, c)

/-- l.384-392: queue the node or decrease its key -/
def enqueue (queue : IHeap QState) (key v : Nat) : Option (IHeap QState) := do
  match ← queue.get v with
  | some prev => if HeapElem.lt (⟨key, v⟩ : QState) prev then queue.decreaseKey ⟨key, v⟩ else some queue
  | none => queue.push ⟨key, v⟩

/-- The body of the loop over the links in `settle_next_node` (l.361-394) for one link of the popped node. -/
def relax (P : Potential σ) (g : FOGraph) (b : Blocked) (node key : Nat) (st : MData × σ) (l : Link × Nat) : Option (MData × σ) := do
  let head := l.1.node
  if head = node then return st
  else
    let (d, c) := st
    let (c, p) ← P.get c node
    let p ← p
    let _ ← UBS.minus key p
    let q ← d.dist.get node
    let label ← q.popped[0]?
    let linked ← b.link g node label head l.2
    let old ← d.dist.get head
    let (h, improved) ← Blocked.merge old linked
    let dist ← d.dist.modify head (fun _ => h)
    match improved with
    | none => return (⟨dist, d.pred, d.queue⟩, c)
    | some improved =>
      let pred ← upd d.pred head node
      let (c, p) ← P.get c head
      match p with
      | none => return (⟨dist, pred, d.queue⟩, c)
      | some p =>
        let key ← add32 p improved
        let queue ← enqueue d.queue key head
        return (⟨dist, pred, queue⟩, c)

/-- l.352-357: queue the popped node again if it has further labels -/
def requeue (P : Potential σ) (queue : IHeap QState) (c : σ) (node : Nat) (q : Heap Lab) : Option (IHeap QState × σ) :=
  match q.peek with
  | none => some (queue, c)
  | some next => do
    let (c, p) ← P.get c node
    let p ← p
    let key ← add32 p next.dist
    let queue ← queue.push ⟨key, node⟩
    return (queue, c)

/-- `settle_next_node` (l.341-398) without the edge predicate and with a callback that always returns `true` -/
def settle (P : Potential σ) (g : FOGraph) (b : Blocked) (d : MData) (c : σ) : Option (Option Nat × MData × σ) := do
  let (o, queue) ← d.queue.pop
  match o with
  | none => return (none, { d with queue := queue }, c)
  | some st =>
    let node := st.node
    let q ← d.dist.get node
    let (x, q) ← q.pop Lab.le
    let _ ← x
    let dist ← d.dist.modify node (fun _ => q)
    let (queue, c) ← requeue P queue c node q
    let ls ← g.linkIterIds node
    let (d, c) ← ls.foldlM (relax P g b node st.key) (⟨dist, d.pred, queue⟩, c)
    return (some node, d, c)

/-- The loop `while let Some(node) = dijk_run.next_step_with_potential(…)` (`traffic_aware.rs:441-447`). `none` also if the fuel does not
suffice. -/
def search (P : Potential σ) (g : FOGraph) (b : Blocked) (to : Nat) : Nat → MData → σ → Option (MData × σ)
  | 0, _, _ => none
  | fuel + 1, d, c => do
    let (o, d, c) ← settle P g b d c
    match o with
    | none => return (d, c)
    | some node => if node = to then return (d, c) else search P g b to fuel d c

end MData
end Verif.Traffic
