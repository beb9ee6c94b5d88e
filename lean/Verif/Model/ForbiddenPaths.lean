import Verif.Model.Graph
import Verif.Model.Heap
/-
Model of the bookkeeping of forbidden paths in `engine/src/algo/traffic_aware.rs:34-280`: `ActiveForbittenPaths` and
`BlockedPathsDijkstra`. Statistics (`num_labels_pushed`) are omitted. Casts of local indices to `u32` do not truncate: there are fewer
than 2³² forbidden paths.
-/
namespace Verif.Traffic

/-- `enum ActiveForbittenPaths` (l.34-38) -/
inductive Active where
  | one (w : BitVec 128)
  | more (ws : List (BitVec 128))
deriving DecidableEq, Repr

namespace Active

/-- `new` (l.41-47) -/
def new (size : Nat) : Active := if size ≤ 128 then .one 0 else .more (List.replicate ((size + 127) / 128) 0)

/-- `1 << idx` for `u128`; an overlong shift (a panic in debug builds) is `none` -/
def shl (idx : Nat) : Option (BitVec 128) := if idx < 128 then some (1#128 <<< idx) else none

/-- `get` (l.49-54) -/
def get (a : Active) (idx : Nat) : Option Bool :=
  match a with
  | .one w => do
    let m ← shl idx
    return w &&& m != 0
  | .more ws => do
    let w ← ws[idx / 128]?
    let m ← shl (idx % 128)
    return w &&& m != 0

/-- `set` (l.56-61) -/
def set (a : Active) (idx : Nat) : Option Active :=
  match a with
  | .one w => do
    let m ← shl idx
    return .one (w ||| m)
  | .more ws => do
    let w ← ws[idx / 128]?
    let m ← shl (idx % 128)
    let ws ← upd ws (idx / 128) (w ||| m)
    return .more ws

/-- `!(!a | b) == 0` -/
def sub (a b : BitVec 128) : Bool := ~~~(~~~a ||| b) == 0

/-- the iterators zipped in l.68-71: the words of the left side, those of the right side followed by zeros -/
def subAll : List (BitVec 128) → List (BitVec 128) → Bool
  | [], _ => true
  | a :: as, [] => sub a 0 && subAll as []
  | a :: as, b :: bs => sub a b && subAll as bs

/-- `is_subset` (l.63-73) -/
def isSubset : Active → Active → Option Bool
  | .one a, .one b => some (sub a b)
  | .one a, .more bs => do
    let b ← bs[0]?
    return sub a b
  | .more as, .one b => do
    let a ← as[0]?
    return sub a b && (as.drop 1).all (· == 0)
  | .more as, .more bs => some (subAll as bs)

end Active

/-- `ForbiddenPathLabel` (l.377): distance, active forbidden paths, parent with its active forbidden paths -/
structure Lab where
  dist : Nat
  act : Active
  parent : Nat
  pact : Active
deriving DecidableEq, Repr

/-- `impl Ord for NodeQueueLabelOrder` (l.282-297): by distance, reversed; this is `≤` -/
def Lab.le (a b : Lab) : Bool := b.dist ≤ a.dist

/-- `struct BlockedPathsDijkstra` (l.100-109): for every forbidden path its nodes with local indices; for every edge the forbidden
paths over it with the offset and the local index at the tail; for every node the number of local indices. -/
structure Blocked where
  paths : List (List (Nat × Nat))
  edges : List (List (Nat × Nat × Nat))
  counter : List Nat
deriving DecidableEq, Repr

namespace Blocked

/-- `new` (l.112-121) -/
def new (n m : Nat) : Blocked := ⟨[], List.replicate m [], List.replicate n 0⟩

/-- The loop over the forbidden paths on an edge (l.151-164, 227-236): `none` if a forbidden path is completed, otherwise the active
paths at the head. -/
def scan (b : Blocked) (act : Active) : List (Nat × Nat × Nat) → Active → Option (Option Active)
  | [], h => some (some h)
  | (gid, off, tl) :: es, h => do
    let on ← if off = 1 then some true else act.get tl
    if on then
      let p ← b.paths[gid]?
      if p.length = off + 1 then return none
      else
        let x ← p[off]?
        let h ← h.set x.2
        scan b act es h
    else scan b act es h

/-- The test in debug builds (l.144-170): `true` if the path has to be added, `false` if a part of it is forbidden. `none` if the whole
path is forbidden already (the panic in l.155). `last` is the last node of the path. -/
def testPath (b : Blocked) (g : FOGraph) (last : Nat) : List Nat → Active → Option Bool
  | tail :: head :: rest, act => do
    let c ← b.counter[head]?
    let es ← g.edgeIndices tail head
    match es with
    | [] => testPath b g last (head :: rest) (Active.new c)
    | e :: _ =>
      let fs ← b.edges[e]?
      match ← scan b act fs (Active.new c) with
      | none => if head = last then none else return false
      | some h => testPath b g last (head :: rest) h
  | _, _ => some true

/-- `for EdgeIdT(link_id) in graph.edge_indices(tail, head) { edge_forbidden_paths[link_id].push(x) }` (l.177-179) -/
def pushEdges (x : Nat × Nat × Nat) (edges : List (List (Nat × Nat × Nat))) (es : List Nat) : Option (List (List (Nat × Nat × Nat))) :=
  es.foldlM (fun edges e => do
    let l ← edges[e]?
    upd edges e (l ++ [x])) edges

/-- The loop over the arcs of the path (l.176-181), from offset `off` on: the new edge lists and the entries of `forbidden_path`. -/
def addArcs (g : FOGraph) (counter : List Nat) (gid : Nat) : Nat → List Nat → List (List (Nat × Nat × Nat)) →
    Option (List (List (Nat × Nat × Nat)) × List (Nat × Nat))
  | off, tail :: head :: rest, edges => do
    let ct ← counter[tail]?
    let es ← g.edgeIndices tail head
    let edges ← pushEdges (gid, off + 1, ct) edges es
    let ch ← counter[head]?
    let (edges, ps) ← addArcs g counter gid (off + 1) (head :: rest) edges
    return (edges, (head, ch) :: ps)
  | _, _, edges => some (edges, [])

/-- `self.node_forbidden_path_counter[node] += 1` (l.182-184) -/
def countNodes (counter : List Nat) (nodes : List Nat) : Option (List Nat) :=
  nodes.foldlM (fun c v => do
    let x ← c[v]?
    upd c v (x + 1)) counter

/-- `add_forbidden_path` (l.123-187); `dbg` says whether debug assertions are on -/
def add (dbg : Bool) (b : Blocked) (g : FOGraph) (path : List Nat) : Option Blocked := do
  let first ← path[0]?
  let last ← path.getLast?
  let fresh ← if dbg then do
      let c ← b.counter[first]?
      testPath b g last path (Active.new c)
    else some true
  if fresh then
    let (edges, ps) ← addArcs g b.counter b.paths.length 0 path b.edges
    let inner ← slice path 1 (path.length - 1)
    let counter ← countNodes b.counter inner
    return ⟨b.paths ++ [(first, 0) :: ps], edges, counter⟩
  else return b

/-- `for EdgeIdT(link_id) in graph.edge_indices(tail, head) { edge_forbidden_paths[link_id].clear() }` (l.195-197) -/
def clearEdges (edges : List (List (Nat × Nat × Nat))) (es : List Nat) : Option (List (List (Nat × Nat × Nat))) :=
  es.foldlM (fun edges e => upd edges e []) edges

/-- the loop over the arcs of one path in `reset` (l.194-198) -/
def clearArcs (g : FOGraph) : List Nat → List (List (Nat × Nat × Nat)) → Option (List (List (Nat × Nat × Nat)))
  | tail :: head :: rest, edges => do
    let es ← g.edgeIndices tail head
    let edges ← clearEdges edges es
    clearArcs g (head :: rest) edges
  | _, edges => some edges

/-- `self.node_forbidden_path_counter[node] = 0` (l.199-201) -/
def clearNodes (counter : List Nat) (nodes : List Nat) : Option (List Nat) := nodes.foldlM (fun c v => upd c v 0) counter

/-- the body of the loop over the forbidden paths in `reset` (l.193-202) -/
def resetPath (g : FOGraph) (st : List (List (Nat × Nat × Nat)) × List Nat) (p : List (Nat × Nat)) : Option (List (List (Nat × Nat × Nat)) × List Nat) := do
  let edges ← clearArcs g (p.map Prod.fst) st.1
  let counter ← clearNodes st.2 (p.map Prod.fst)
  return (edges, counter)

/-- `reset` (l.189-203) -/
def reset (b : Blocked) (g : FOGraph) : Option Blocked := do
  let (edges, counter) ← b.paths.foldlM (resetPath g) (b.edges, b.counter)
  return ⟨[], edges, counter⟩

/-- `link` (l.224-257) with `DefaultOpsByEdgeId`, whose `link` adds the weight of the edge (`dijkstra.rs:194-212`); the inner `none` means
that a forbidden path would be completed -/
def link (b : Blocked) (g : FOGraph) (tail : Nat) (l : Lab) (head e : Nat) : Option (Option Lab) := do
  let c ← b.counter[head]?
  let fs ← b.edges[e]?
  match ← b.scan l.act fs (Active.new c) with
  | none => return none
  | some a =>
    let lk ← g.link e
    let d ← add32 l.dist lk.weight
    return some ⟨d, a, tail, l.act⟩

/-- The closure passed to `retain` in `merge` (l.262-267) on all labels in their order: the labels with its answers, and `dominated`. -/
def marks (x : Lab) : List Lab → Bool → Option (List (Lab × Bool) × Bool)
  | [], dominated => some ([], dominated)
  | o :: os, dominated => do
    let now ← if o.dist ≤ x.dist then o.act.isSubset x.act else some false
    let dominated := dominated || now
    let keep ← if dominated || decide (o.dist < x.dist) then some true else (x.act.isSubset o.act).map (!·)
    let (r, d) ← marks x os dominated
    return ((o, keep) :: r, d)

/-- `merge` (l.258-277). The closure passed to `retain` changes `dominated`, so its answers are computed first, in the order of the calls. -/
def merge (h : Heap Lab) (linked : Option Lab) : Option (Heap Lab × Option Nat) :=
  match linked with
  | none => some (h, none)
  | some x => do
    let (ds, dominated) ← marks x h.data false
    let hm ← Heap.retain (fun a b => Lab.le a.1 b.1) ⟨ds, h.split⟩ Prod.snd
    let h : Heap Lab := ⟨hm.data.map Prod.fst, hm.split⟩
    if dominated then return (h, none)
    else
      let h ← h.push Lab.le x
      return (h, some x.dist)

end Blocked
end Verif.Traffic
