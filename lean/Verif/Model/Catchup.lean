import Verif.Model.FlPlf
import Verif.Model.Base
/- The CATCHUp query (`engine/src/algo/catchup.rs`, `catchup/floating_td_stepped_elimination_tree.rs`) on a customized hierarchy
(`datastr/graph/floating_time_dependent/shortcut_graph.rs`), with the default features `tdcch-query-corridor`, `tdcch-query-astar`. The feature
`tdcch-query-lazy` (on by default) is the parameter `lzy`.

Simplifications: times and weights are rational numbers; nodes are ranks (the translation by the node order, `catchup.rs:91-92`, is left out); arrays
indexed by nodes are functions; statistics are left out. -/
namespace Verif.Catchup
open Fl

/-- `FlWeight::INFINITY`, `Timestamp::NEVER` (`floating_time_dependent/mod.rs`) -/
def INF : Rat := 2147483647

/-- `ShortcutSource` (`shortcut_source.rs:6-10`); a shortcut is made of a downward and an upward arc -/
inductive Src where
  | short (down up : Nat)
  | orig (e : Nat)
  | no
  deriving DecidableEq, Repr

/-- One arc of a `CustomizedSingleDirGraph` (`shortcut_graph.rs:475-487`): `tail` is the lower node and `head` the higher one, also for arcs that
lead down; `lo` and `up` are its bounds, `constant` the flag that its travel time does not change (`shortcut.rs:374-377`). -/
structure Arc where
  tail : Nat
  head : Nat
  lo : Rat
  up : Rat
  src : List (Rat × Src)
  constant : Bool

/-- `CustomizedGraph`: the arcs `outgoing` and `incoming`, sorted by their tails, the elimination tree (`cch_graph.elimination_tree()`) and the travel
time functions of the original edges. -/
structure Graph where
  n : Nat
  outgoing : List Arc
  incoming : List Arc
  parent : Nat → Option Nat
  orig : Nat → Rat → Rat

/-- outgoing (`true`) or incoming arcs -/
def Graph.arcs (G : Graph) : Bool → List Arc
  | true => G.outgoing
  | false => G.incoming

/-- `link_iter` of `upward_bounds_graph` and `downward_bounds_graph`: ids and arcs of a node -/
def links (as : List Arc) (v : Nat) : List (Nat × Arc) := (as.zipIdx.map (fun p => (p.2, p.1))).filter (fun p => p.2.tail == v)

/-- `edge_source_at` (`shortcut_source.rs:569-590`): the binary search finds the last source that begins not after `t` -/
def sourceAt (src : List (Rat × Src)) (t : Rat) : Option Src :=
  match src with
  | [] => none
  | [p] => some p.2
  | ps => ((ps.filter (fun p => decide (p.1 ≤ (splitDay t).2))).getLast?).map (·.2)

/-- `CustomizedSingleDirGraph::evaluate` (`shortcut_graph.rs:511-533`) with `ShortcutSource::evaluate_opt` (`shortcut_source.rs:16-44`); `none`: index out
of range or recursion deeper than `fuel` -/
def evalArc (G : Graph) : Nat → Bool → Nat → Rat → Option Rat
  | 0, _, _, _ => none
  | fuel + 1, dir, id, t => do
    let a ← (G.arcs dir)[id]?
    if a.constant then some a.lo
    else match sourceAt a.src t with
      | none => some INF
      | some .no => some INF
      | some (.orig e) => some (G.orig e t)
      | some (.short down up) => do
        let x ← evalArc G fuel false down t
        let y ← evalArc G fuel true up (t + x)
        some (x + y)

/-! ## The corridor: bounds in the elimination tree -/

/-- `Label` (`floating_td_stepped_elimination_tree.rs:18-23`) -/
structure Label where
  lower : Rat
  parent : Nat
  id : Nat

/-- `NodeData` (`floating_td_stepped_elimination_tree.rs:25-30`) -/
structure NData where
  labels : List Label
  upper : Rat
  lower : Rat

def NData.none : NData := ⟨[], INF, INF⟩

/-- the data of a `FloatingTDSteppedEliminationTree` -/
abbrev Nodes := Nat → NData

/-- the clean up in `initialize_query` (`floating_td_stepped_elimination_tree.rs:59-68`) -/
def cleanUp (par : Nat → Option Nat) : Nat → Option Nat → Nodes → Nodes
  | 0, _, d => d
  | _ + 1, none, d => d
  | fuel + 1, some v, d => cleanUp par fuel (par v) (fupd d v .none)

/-- `initialize_query` (`floating_td_stepped_elimination_tree.rs:57-76`) -/
def initQuery (G : Graph) (origin : Option Nat) (d : Nodes) (o : Nat) : Nodes :=
  let d := cleanUp G.parent G.n origin d
  fupd d o { d o with upper := 0, lower := 0 }

/-- one arc in `settle_next_node` (`floating_td_stepped_elimination_tree.rs:88-117`) -/
def relaxBounds (eps : Rat) (v : Nat) (lo up : Rat) (d : Nodes) (p : Nat × Arc) : Nodes :=
  let x := d p.2.head
  if flt eps x.upper (p.2.lo + lo) then d
  else fupd d p.2.head ⟨x.labels ++ [⟨p.2.lo + lo, v, p.1⟩], min (p.2.up + up) x.upper, min (p.2.lo + lo) x.lower⟩

/-- `settle_next_node` (`floating_td_stepped_elimination_tree.rs:82-122`), without the change of `next` -/
def settle (eps : Rat) (as : List Arc) (v : Nat) (d : Nodes) : Nodes :=
  (links as v).foldl (relaxBounds eps v (d v).lower (d v).upper) d

/-- The state during the corridor query (`catchup.rs:95-110`). Stacks have their top first. -/
structure Corr where
  fw : Nodes
  bw : Nodes
  nf : Option Nat
  nb : Option Nat
  /-- `tentative_distance` -/
  tl : Rat
  tu : Rat
  meet : List (Nat × Rat)
  fpath : List Nat
  bpath : List Nat
  fmask : Nat → Bool
  bmask : Nat → Bool
  dist : Nat → Rat

/-- `unset_all_around` (`rank_select_map.rs:67-70`) -/
def unsetAround (m : Nat → Bool) (v : Nat) : Nat → Bool := fun u => if u / 64 = v / 64 then false else m u

/-- The update of the tentative distance (`catchup.rs:170-176, 200-208`); the debug assertion `!tu.fuzzy_lt(tl)` is left out. -/
def meetAt (eps : Rat) (v : Nat) (c : Corr) : Corr :=
  let lower := (c.fw v).lower + (c.bw v).lower
  let upper := (c.fw v).upper + (c.bw v).upper
  if flt eps c.tu lower then c
  else { c with tl := min c.tl lower, tu := min c.tu upper, meet := c.meet ++ [(v, lower)] }

/-- one step of the forward search (`catchup.rs:121-180`); stall-on-demand is off by default -/
def stepForward (eps dep : Rat) (G : Graph) (v : Nat) (c : Corr) : Corr :=
  let c := { c with fmask := unsetAround c.fmask v, nf := G.parent v }
  if (c.fw v).lower > c.tu then c
  else
    let c := { c with fw := settle eps G.outgoing v c.fw, fpath := v :: c.fpath }
    let upper := (c.fw v).upper + (c.bw v).upper
    meetAt eps v { c with dist := fupd c.dist v (min (c.dist v) (dep + upper + eps)) }

/-- one step of the backward search (`catchup.rs:181-213`) -/
def stepBackward (eps : Rat) (G : Graph) (v : Nat) (c : Corr) : Corr :=
  let c := { c with bmask := unsetAround c.bmask v, nb := G.parent v }
  if (c.bw v).lower > c.tu then c
  else meetAt eps v { c with bw := settle eps G.incoming v c.bw, bpath := v :: c.bpath }

/-- the corridor query (`catchup.rs:119-214`); `none`: not done after `fuel` steps -/
def corridor (eps dep : Rat) (G : Graph) : Nat → Corr → Option Corr
  | 0, _ => none
  | fuel + 1, c =>
    match c.nf, c.nb with
    | none, none => some c
    | some f, none => corridor eps dep G fuel (stepForward eps dep G f c)
    | none, some b => corridor eps dep G fuel (stepBackward eps G b c)
    | some f, some b => if f ≤ b then corridor eps dep G fuel (stepForward eps dep G f c) else corridor eps dep G fuel (stepBackward eps G b c)

/-! ## Masks, potentials and relevant arcs -/

def setAll (m : Nat → Bool) (vs : List Nat) : Nat → Bool := vs.foldl (fun m v => fupd m v true) m

/-- the labels that pass the filter (`catchup.rs:251-256, 279-285, 418-424`) -/
def kept (eps : Rat) (x : NData) : List Label := x.labels.filter (fun l => !flt eps x.upper l.lower)

/-- the meeting nodes in the corridor (`catchup.rs:231-238`) -/
def meetings (eps : Rat) (c : Corr) : List Nat :=
  (c.meet.filter (fun p => !flt eps c.tu p.2 && flt eps p.2 INF)).map (·.1)

/-- walking the backward path (`catchup.rs:241-263`) -/
def backMasks (eps : Rat) (bw : Nodes) : List Nat → (Nat → Bool) × (Nat → Rat) → (Nat → Bool) × (Nat → Rat)
  | [], s => s
  | v :: vs, s =>
    if s.1 v then backMasks eps bw vs (setAll s.1 ((kept eps (bw v)).map (·.parent)), fupd s.2 v (bw v).lower)
    else backMasks eps bw vs s

/-- what is changed when walking the forward path -/
structure FMasks where
  mask : Nat → Bool
  lbt : Nat → Rat
  rel : Nat → Bool

/-- one label (`catchup.rs:286-302`) -/
def foreLabel (fw : Nodes) (reverse : Rat) (s : FMasks) (l : Label) : FMasks :=
  ⟨fupd s.mask l.parent true, fupd s.lbt l.parent (min (s.lbt l.parent) (reverse + l.lower - (fw l.parent).lower)), fupd s.rel l.id true⟩

/-- walking the forward path (`catchup.rs:266-304`) -/
def foreMasks (eps : Rat) (fw : Nodes) : List Nat → FMasks → FMasks
  | [], s => s
  | v :: vs, s =>
    if s.mask v then foreMasks eps fw vs ((kept eps (fw v)).foldl (foreLabel fw (s.lbt v)) s)
    else foreMasks eps fw vs s

/-! ## The search -/

/-- The state of the A* search; the queue holds nodes with their keys, `par` the parent of a node and the arc from it. -/
structure Search where
  dist : Nat → Rat
  lbt : Nat → Rat
  rel : Nat → Bool
  queue : List (Nat × Rat)
  par : Nat → Nat × Nat

/-- `<` of `State` (`dijkstra.rs:23-28`, derived): by key, then by node -/
def before (p q : Nat × Rat) : Bool := decide (p.2 < q.2) || (decide (p.2 = q.2) && decide (p.1 < q.1))

/-- the least entry of the queue -/
def least : List (Nat × Rat) → Option (Nat × Rat)
  | [] => none
  | p :: ps => match least ps with
    | none => some p
    | some q => if before q p then some q else some p

/-- `IndexdMinHeap::get` -/
def qget (q : List (Nat × Rat)) (v : Nat) : Option (Nat × Rat) := q.find? (fun p => p.1 == v)

def qdel (q : List (Nat × Rat)) (v : Nat) : List (Nat × Rat) := q.filter (fun p => !(p.1 == v))

/-- `push` and `decrease_key` of `IndexdMinHeap` (`index_heap.rs`) -/
def qset (q : List (Nat × Rat)) (v : Nat) (k : Rat) : List (Nat × Rat) := (v, k) :: qdel q v

/-- `evaluate_next_segment_at` (`shortcut_graph.rs:543-584`): travel time, end and id of the first segment, new potentials and relevant arcs. `none`: the
`unwrap` of a missing source, index out of range, or recursion deeper than `fuel`. -/
def nextSegment (G : Graph) : Nat → Bool → Nat → Rat → Rat → (Nat → Rat) → (Nat → Bool) → Option ((Rat × Nat × Nat) × (Nat → Rat) × (Nat → Bool))
  | 0, _, _, _, _, _, _ => none
  | fuel + 1, dir, id, t, lb, lbt, rel => do
    let a ← (G.arcs dir)[id]?
    let stop := if dir then a.head else a.tail
    if a.constant then some ((a.lo, stop, id), lbt, rel)
    else match sourceAt a.src t with
      | none => none
      | some .no => some ((INF, stop, id), lbt, rel)
      | some (.orig e) => some ((G.orig e t, stop, id), lbt, rel)
      | some (.short down up) => do
        let u ← G.outgoing[up]?
        let d ← G.incoming[down]?
        nextSegment G fuel false down t (u.lo + lb) (fupd lbt d.tail (min (lbt d.tail) (u.lo + lb))) (fupd rel up true)

/-- the travel time, end node and arc used in a relaxation (`catchup.rs:353-384, 435-462`) -/
def segment (lzy : Bool) (G : Graph) (depth : Nat) (dir : Bool) (id target : Nat) (t : Rat) (s : Search) : Option ((Rat × Nat × Nat) × (Nat → Rat) × (Nat → Bool)) :=
  if lzy then nextSegment G depth dir id t (s.lbt target) s.lbt s.rel
  else (evalArc G depth dir id t).map (fun v => ((v, target, id), s.lbt, s.rel))

/-- the update of distance, parent and queue (`catchup.rs:385-411, 463-487`) -/
def improve (ea : Rat) (next : Nat) (p : Nat × Nat) (s : Search) : Search :=
  let key := ea + s.lbt next
  if ea < s.dist next then { s with dist := fupd s.dist next ea, queue := qset s.queue next key, par := fupd s.par next p }
  else match qget s.queue next with
    | some l => if before (next, key) l then { s with queue := qset s.queue next key } else s
    | none => s

/-- relaxation of an arc of `v` with lower bound `lo` (`catchup.rs:345-412, 426-488`) -/
def relax (lzy : Bool) (eps latest : Rat) (G : Graph) (depth v : Nat) (distance : Rat) (dir : Bool) (id target : Nat) (lo : Rat) (s : Search) : Option Search :=
  if flt eps (min latest (s.dist target)) (distance + lo) then some s
  else do
    let r ← segment lzy G depth dir id target distance s
    some (improve (distance + r.1.1) r.1.2.1 (v, r.1.2.2) { s with lbt := r.2.1, rel := r.2.2 })

/-- relaxation of an upward arc, if it is relevant (`catchup.rs:337-412`) -/
def relaxUp (lzy : Bool) (eps latest : Rat) (G : Graph) (depth v : Nat) (distance : Rat) (s : Search) (p : Nat × Arc) : Option Search :=
  if s.rel p.1 then relax lzy eps latest G depth v distance true p.1 p.2.head p.2.lo s else some s

/-- relaxation of a label of the backward corridor (`catchup.rs:417-488`) -/
def relaxDown (lzy : Bool) (eps latest : Rat) (G : Graph) (depth v : Nat) (distance : Rat) (s : Search) (l : Label) : Option Search := do
  let a ← G.incoming[l.id]?
  relax lzy eps latest G depth v distance false l.id l.parent a.lo s

/-- the node `v` popped from the queue (`catchup.rs:330-490`) -/
def popped (lzy : Bool) (eps latest : Rat) (G : Graph) (depth : Nat) (bw : Nodes) (bmask : Nat → Bool) (v : Nat) (s : Search) : Option Search := do
  let distance := s.dist v
  let s ← (links G.outgoing v).foldlM (relaxUp lzy eps latest G depth v distance) s
  if bmask v then (kept eps (bw v)).foldlM (relaxDown lzy eps latest G depth v distance) s else some s

/-- the loop of the search (`catchup.rs:325-490`); `none`: a panic, or not done after `fuel` rounds -/
def search (lzy : Bool) (eps latest : Rat) (G : Graph) (depth : Nat) (bw : Nodes) (bmask : Nat → Bool) (tgt : Nat) : Nat → Search → Option Search
  | 0, _ => none
  | fuel + 1, s =>
    match least s.queue with
    | none => some s
    | some p =>
      if p.1 = tgt then some { s with queue := qdel s.queue p.1 }
      else do
        let s ← popped lzy eps latest G depth bw bmask p.1 { s with queue := qdel s.queue p.1 }
        search lzy eps latest G depth bw bmask tgt fuel s

/-! ## The query -/

/-- What a `Server` keeps between queries (`catchup.rs:26-58`). Potentials, relevant arcs and the queue are cleared by each query; distances are cleared, too,
but read when the path is retrieved. Parents are not cleared. -/
structure Server where
  fw : Nodes
  bw : Nodes
  fo : Option Nat
  bo : Option Nat
  fmask : Nat → Bool
  bmask : Nat → Bool
  dist : Nat → Rat
  par : Nat → Nat × Nat

/-- `Server::new` (`catchup.rs:61-82`) -/
def Server.new : Server :=
  ⟨fun _ => .none, fun _ => .none, none, none, fun _ => false, fun _ => false, fun _ => INF, fun _ => (U32 - 1, U32 - 1)⟩

/-- the state at the begin of the corridor query (`catchup.rs:95-110`) -/
def start (G : Graph) (S : Server) (s t : Nat) (dep : Rat) : Corr :=
  ⟨initQuery G S.fo S.fw s, initQuery G S.bo S.bw t, some s, some t, INF, INF, [], [], [], S.fmask, S.bmask, fupd (fun _ => INF) s dep⟩

/-- masks and potentials from the corridor (`catchup.rs:226-304`) -/
def masks (eps : Rat) (c : Corr) : (Nat → Bool) × FMasks :=
  let ms := meetings eps c
  let b := backMasks eps c.bw c.bpath (setAll c.bmask ms, fun _ => INF)
  (b.1, foreMasks eps c.fw c.fpath ⟨setAll c.fmask ms, b.2, fun _ => false⟩)

/-- `Server::distance` (`catchup.rs:86-530`) for ranks `s`, `t` -/
def distance (lzy : Bool) (eps : Rat) (G : Graph) (depth fuel : Nat) (S : Server) (s t : Nat) (dep : Rat) : Option (Option Rat × Server) := do
  let c ← corridor eps dep G (2 * G.n + 1) (start G S s t dep)
  let m := masks eps c
  let r ← search lzy eps (dep + c.tu) G depth c.bw m.1 t fuel ⟨c.dist, m.2.lbt, m.2.rel, [(s, dep + c.tl)], S.par⟩
  some (if r.dist t < INF then some (r.dist t - dep) else none, ⟨c.fw, c.bw, some s, some t, m.2.mask, m.1, r.dist, r.par⟩)

/-! ## The path -/

/-- `CustomizedSingleDirGraph::unpack_at` (`shortcut_graph.rs:624-628`) with `ShortcutSource::unpack_at` (`shortcut_source.rs:87-102`): the edges of an arc at
a departure and the arrivals at their ends. `none`: no source, index out of range, or recursion deeper than `fuel`. -/
def unpackAt (G : Graph) : Nat → Bool → Nat → Rat → Option (List (Nat × Rat))
  | 0, _, _, _ => none
  | fuel + 1, dir, id, t => do
    let a ← (G.arcs dir)[id]?
    match sourceAt a.src t with
    | none => none
    | some .no => none
    | some (.orig e) => some [(e, t + G.orig e t)]
    | some (.short down up) => do
      let l ← unpackAt G fuel false down t
      let m ← l.getLast?
      let r ← unpackAt G fuel true up m.2
      some (l ++ r)

/-- The loop of `Server::path` (`catchup.rs:525-556`). `heads` are the ends of the edges (as ranks); the list is the path in its final order, the next entry
to be popped first. `none`: a panic, or not done after `fuel` rounds. -/
def pathLoop (G : Graph) (depth : Nat) (heads : List Nat) (S : Server) (start : Nat) : Nat → List (Nat × Rat) → Option (List (Nat × Rat))
  | 0, _ => none
  | _ + 1, [] => some []
  | fuel + 1, (rank, tprev) :: path =>
    if rank = start then some ((rank, tprev) :: path)
    else if rank < G.n then do
      let p := S.par rank
      if p.1 < G.n then do
        let es ← unpackAt G depth (!decide (rank < p.1)) p.2 (S.dist p.1)
        let steps ← es.mapM (fun e => (heads[e.1]?).map (fun h => (h, e.2)))
        pathLoop G depth heads S start fuel ((p.1, S.dist p.1) :: (steps ++ path))
      else none
    else none

/-- `Server::path` (`catchup.rs:524-565`), with ranks instead of nodes -/
def path (G : Graph) (depth : Nat) (heads : List Nat) (S : Server) (fuel : Nat) : Option (List (Nat × Rat)) := do
  let s ← S.fo
  let t ← S.bo
  pathLoop G depth heads S s fuel [(t, S.dist t)]

end Verif.Catchup
