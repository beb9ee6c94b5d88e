import Verif.Model.DijkstraVisit
import Verif.Model.Separator
import Verif.Spec.ManyTargets
/- Model of `engine/src/algo/rphast.rs`: `RPHAST`, `RPHASTQuery`, `RPHASTResult`. Unchecked accesses (`get_unchecked`) are modelled like
checked ones: an access out of bounds is `none`. -/
namespace Verif
namespace RPHAST
open CCH Spec

/-- The mutable part of `struct RPHAST` (`rphast.rs:4-15`). The stack is empty between calls. -/
structure Sel where
  ids : List (Option Nat)
  nodes : List Nat
  firstOut : List Nat
  head : List Nat
  weight : List Nat
deriving DecidableEq, Repr

/-- `RPHAST::new` (`rphast.rs:18-31`) -/
def Sel.new (n : Nat) : Sel := ⟨List.replicate n none, [], [0], [], []⟩

/-- `for link in backward.link_iter(node)` up to the first head without id (`rphast.rs:57-62`) -/
def firstUnknown (ids : List (Option Nat)) : List Link → Option (Option Nat)
  | [] => some none
  | l :: ls => do
    match ← ids[l.node]? with
    | none => return some l.node
    | some _ => firstUnknown ids ls

/-- `rphast.rs:68-71`: append one link -/
def pushLink (ids : List (Option Nat)) (st : List Nat × List Nat) (l : Link) : Option (List Nat × List Nat) := do
  let id ← ids[l.node]?
  let id ← id
  return (st.1 ++ [id], st.2 ++ [l.weight])

/-- `rphast.rs:65-73`: the node gets the next id -/
def assign (s : Sel) (counter node : Nat) (ls : List Link) : Option Sel := do
  let ids ← upd s.ids node (some counter)
  let (head, weight) ← ls.foldlM (pushLink ids) (s.head, s.weight)
  return ⟨ids, s.nodes ++ [node], s.firstOut ++ [head.length], head, weight⟩

/-- `while let Some(&node) = selection_stack.last()` (`rphast.rs:50-75`); the top of the stack is the head of the list. -/
def selLoop (bw : FOGraph) : Nat → Sel × Nat → List Nat → Option (Sel × Nat)
  | _, st, [] => some st
  | 0, _, _ :: _ => none
  | fuel + 1, (s, counter), node :: stack => do
    match ← s.ids[node]? with
    | some _ => selLoop bw fuel (s, counter) stack
    | none =>
      let ls ← bw.linkIter node
      match ← firstUnknown s.ids ls with
      | some u => selLoop bw fuel (s, counter) (u :: node :: stack)
      | none =>
        let s ← assign s counter node ls
        selLoop bw fuel (s, counter + 1) stack

/-- `select` (`rphast.rs:33-77`). Less than `2n + 2` turns of the loop are enough for a node. -/
def select (order : NodeOrder) (bw : FOGraph) (s : Sel) (nodes : List Nat) : Option Sel := do
  let ids ← s.nodes.foldlM (fun ids v => upd ids v none) s.ids
  let s : Sel := ⟨ids, [], s.firstOut.take 1, [], []⟩
  let (s, _) ← nodes.foldlM (fun st v => do
    let r ← order.rank v
    selLoop bw (2 * bw.numNodes + 2) st [r]) (s, 0)
  return s

/-- `struct RPHASTQuery` (`rphast.rs:92-95`) -/
structure Query where
  dists : List Nat
  data : DData Unit

/-- `RPHASTQuery::new` (`rphast.rs:98-104`) -/
def Query.new (n : Nat) : Query := ⟨List.replicate n INFINITY, DData.new n ()⟩

/-- `for dist in restricted_distances[0..len].iter_mut()` (`rphast.rs:107-109`) -/
def resetFirst (dists : List Nat) (len : Nat) : Option (List Nat) :=
  if len ≤ dists.length then some (List.replicate len INFINITY ++ dists.drop len) else none

/-- the body of the loop over settled nodes (`rphast.rs:117-121`) -/
def visit (ids : List (Option Nat)) (dists : List Nat) (d : DData Unit) (node : Nat) : Option (List Nat × Bool) := do
  match ← ids[node]? with
  | none => return (dists, false)
  | some id =>
    let x ← d.dist.get node
    let dists ← upd dists id x
    return (dists, false)

/-- one edge of the sweep (`rphast.rs:126-130`) -/
def sweepEdge (s : Sel) (node : Nat) (dists : List Nat) (e : Nat) : Option (List Nat) := do
  let head ← s.head[e]?
  let weight ← s.weight[e]?
  let hd ← dists[head]?
  let cur ← dists[node]?
  let x ← add32 hd weight
  upd dists node (min cur x)

/-- one node of the sweep (`rphast.rs:124-132`) -/
def sweepNode (s : Sel) (dists : List Nat) (node : Nat) : Option (List Nat) := do
  let _ ← dists[node]?
  let a ← s.firstOut[node]?
  let b ← s.firstOut[node + 1]?
  (rangeList a b).foldlM (sweepEdge s node) dists

/-- `RPHASTQuery::query` (`rphast.rs:106-136`) -/
def query (order : NodeOrder) (fw : FOGraph) (s : Sel) (q : Query) (source : Nat) : Option Query := do
  let dists ← resetFirst q.dists s.nodes.length
  let r ← order.rank source
  let d ← q.data.init r 0
  let (d, dists) ← DData.visitLoop fw.linkIter (visit s.ids) (fw.numNodes + 1) d dists
  let dists ← (List.range s.nodes.length).foldlM (sweepNode s) dists
  return ⟨dists, d⟩

/-- `RPHASTResult::distance` (`rphast.rs:142-144`) -/
def distance (order : NodeOrder) (s : Sel) (q : Query) (node : Nat) : Option Nat := do
  let r ← order.rank node
  let id ← s.ids[r]?
  let id ← id
  q.dists[id]?

/-- A history: selections, and queries that ask for some distances. -/
def run (order : NodeOrder) (fw bw : FOGraph) : Sel × Query → List ManyCall → Option (List (List Nat))
  | _, [] => some []
  | (s, q), .select ts :: cs => do
    let s ← select order bw s ts
    run order fw bw (s, q) cs
  | (s, q), .query v ts :: cs => do
    let q ← query order fw s q v
    let r ← ts.mapM (distance order s q)
    let rs ← run order fw bw (s, q) cs
    return r :: rs

end RPHAST
end Verif
