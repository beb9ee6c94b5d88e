import Verif.Model.Catchup
import Verif.Model.FlMerge
/- The main customization of CATCHUp (`engine/src/algo/customizable_contraction_hierarchy/customization/ftd.rs`,
`engine/src/datastr/graph/floating_time_dependent/{shortcut,shortcut_source,shortcut_graph}.rs`).

Simplifications: times and weights are rational numbers; functions are not approximated (`tdcch-approx`: fewer than `APPROX_THRESHOLD` points); the
nodes are processed one after the other, in the order of their ranks; statistics, debug assertions and buffers are left out. -/
namespace Verif.Ftd
open Spec Fl Catchup

/-- The parameters: binary search, the feature `tdcch-prevent-colinear`, tolerances, the feature `tdcch-precustomization`, the travel time functions of the
original edges (`TDGraph::travel_time_function`), and the order in which triangles are processed, given the sums of the lower bounds
(`tdcch-triangle-sorting`, `ftd.rs:514-516, 529-531`) -/
structure Cfg where
  bs : Fl.Search
  co : Bool
  tl : Tol
  pre : Bool
  ttf : Nat → Option (List Pt)
  srt : (Nat × Nat → Option Rat) → List (Nat × Nat) → List (Nat × Nat)

/-! ## Sources -/

/-- `push` after a `pop` if the last source begins at the same time (`shortcut.rs:549-552, 565-568, 571-574, 582-585, 594-596`) -/
def pushSrc (eps : Rat) (out : List (Rat × Src)) (p : Rat × Src) : List (Rat × Src) :=
  match out.getLast? with
  | none => [p]
  | some l => if feq eps l.1 p.1 then out.dropLast ++ [p] else out ++ [p]

/-- The `while` loop over the changes not after `at_` (`shortcut.rs:555-579`): remaining changes, `self_currently_better`, `new_sources` -/
def takeChanges (eps at_ : Rat) (prev other : Src) : List (Rat × Bool) → Bool → List (Rat × Src) → List (Rat × Bool) × Bool × List (Rat × Src)
  | [], b, out => ([], b, out)
  | (c, b') :: rest, b, out =>
    if c > at_ then ((c, b') :: rest, b, out)
    else if b' then takeChanges eps at_ prev other rest true (if c < at_ then pushSrc eps out (c, prev) else out)
    else takeChanges eps at_ prev other rest false (pushSrc eps out (c, other))

/-- The loop over the old sources (`shortcut.rs:546-590`). If no change is due, the branch of lines 547-553 does the same as the other one. -/
def combineLoop (eps : Rat) (other : Src) : List (Rat × Src) → Src → List (Rat × Bool) → Bool → List (Rat × Src) → Src × List (Rat × Bool) × List (Rat × Src)
  | [], prev, ch, _, out => (prev, ch, out)
  | (at_, s) :: rest, prev, ch, b, out =>
    let r := takeChanges eps at_ prev other ch b out
    combineLoop eps other rest s r.1 r.2.1 (if r.2.1 then pushSrc eps r.2.2 (at_, s) else r.2.2)

/-- `iter(Timestamp::ZERO, period())` (`shortcut.rs:508-514`, `shortcut_source.rs:592-677`): the search for midnight finds the first source, which
begins at midnight -/
def sourcesIter (eps : Rat) (src : List (Rat × Src)) : List (Rat × Src) :=
  match src with
  | [] => []
  | [p] => [(0, p.2)]
  | ps => ps.takeWhile (fun p => flt eps p.1 day)

/-- `Sources::combine` (`shortcut.rs:525-619`). `Sources::None`, `One` and `Multi` are lists with no, one and more entries. -/
def combine (eps : Rat) (self : List (Rat × Src)) (ch : List (Rat × Bool)) (other : Src) : List (Rat × Src) :=
  match ch with
  | [(_, better)] => if better then self else [(0, other)]
  | ch =>
    let b := (ch.head?.map (·.2)).getD true
    let r := combineLoop eps other (sourcesIter eps self) .no ch b []
    r.2.1.foldl (fun out p => pushSrc eps out (p.1, if p.2 then r.1 else other)) r.2.2

/-! ## Shortcuts -/

/-- `Shortcut` (`shortcut.rs:26-35`) -/
structure Shortcut where
  sources : List (Rat × Src)
  cache : Option (List Pt)
  lower : Rat
  upper : Rat
  constant : Bool
  required : Bool

/-- `Shortcut::new` (`shortcut.rs:38-63`) -/
def newShortcut (ttf : Nat → Option (List Pt)) : Option Nat → Option Shortcut
  | none => some ⟨[], none, INF, INF, false, true⟩
  | some e => do
    let f ← ttf e
    some ⟨[(0, .orig e)], none, ← lowerBound f, ← upperBound f, false, true⟩

/-- `is_valid_path` (`shortcut.rs:268-270`) -/
def Shortcut.valid (s : Shortcut) : Bool := !s.sources.isEmpty

/-- `periodic_ttf` (`shortcut.rs:235-252`) -/
def Shortcut.ttf (ttf : Nat → Option (List Pt)) (s : Shortcut) : Option (List Pt) :=
  match s.cache with
  | some f => some f
  | none =>
    match s.sources with
    | [(_, .orig e)] => ttf e
    | _ => none

/-- the linked function becomes the function of the shortcut (`shortcut.rs:119-130, 153-180`) -/
def setLinked (self : Shortcut) (ids : Nat × Nat) (linked : List Pt) : Option Shortcut := do
  let up ← upperBound linked
  some { self with upper := min self.upper up, cache := some linked, sources := [(0, .short ids.1 ids.2)] }

/-- the minimum of the own and the linked function (`shortcut.rs:134-229`) -/
def mergeTtf (c : Cfg) (self : Shortcut) (ids : Nat × Nat) (own linked : List Pt) : Option Shortcut := do
  let lo ← lowerBound linked
  let up ← upperBound linked
  let ownLo ← lowerBound own
  if !flt c.tl.eps ownLo up then setLinked self ids linked
  else if flt c.tl.eps self.upper lo then some self
  else do
    let r ← Fl.merge c.co false c.tl own linked
    let u ← upperBound r.1
    some { self with upper := min self.upper u, cache := some r.1, sources := combine c.tl.eps self.sources r.2 (.short ids.1 ids.2) }

/-- the part of `Shortcut::merge` after the checks (`shortcut.rs:110-229`); `a` and `b` are the arcs of the triangle -/
def mergeLegs (c : Cfg) (self : Shortcut) (ids : Nat × Nat) (a b : Shortcut) : Option Shortcut := do
  let f ← a.ttf c.ttf
  let g ← b.ttf c.ttf
  if !self.valid then setLinked self ids (← link c.bs c.co c.tl.eps f g)
  else do
    let own ← self.ttf c.ttf
    mergeTtf c self ids own (← link c.bs c.co c.tl.eps f g)

/-- `Shortcut::merge` (`shortcut.rs:81-233`) -/
def merge (c : Cfg) (inc out : List Shortcut) (self : Shortcut) (ids : Nat × Nat) : Option Shortcut :=
  if !self.required then some self
  else do
    let a ← inc[ids.1]?
    let b ← out[ids.2]?
    if !(a.valid && b.valid) then some self
    else if flt c.tl.eps self.upper (a.lower + b.lower) then some self
    else mergeLegs c self ids a b

/-- the comparison at the end of `finalize_bounds_int` (`shortcut.rs:308-341`) -/
def setLower (eps lo : Rat) (s : Shortcut) : Shortcut :=
  if flt eps s.upper lo then { s with required := false, sources := [], lower := INF, upper := INF } else { s with lower := lo }

/-- `finalize_bounds` (`shortcut.rs:285-343`) -/
def finalize (c : Cfg) (s : Shortcut) : Option Shortcut :=
  if !s.required then some s
  else if !s.valid then some { s with required := false, lower := INF, upper := INF }
  else do
    let f ← s.ttf c.ttf
    let lo ← lowerBound f
    some (setLower c.tl.eps (if c.pre then max s.lower lo else lo) s)

/-- `clear_plf` (`shortcut.rs:379-389`) -/
def clear (s : Shortcut) : Shortcut := { s with cache := none }

/-! ## All arcs -/

/-- `cch.inverted.link_iter(v)`: lower neighbours and the ids of the arcs; `arcs` are the tails and heads of the arcs of the CCH, sorted by their tails -/
def inverted (arcs : List (Nat × Nat)) (v : Nat) : List (Nat × Nat) := (arcs.zipIdx.filter (fun p => p.1.2 == v)).map (fun p => (p.1.1, p.2))

/-- the common lower neighbours (`ftd.rs:485-513`) -/
def common : Nat → List (Nat × Nat) → List (Nat × Nat) → List (Nat × Nat)
  | fuel + 1, (x, i) :: a, (y, j) :: b =>
    if x < y then common fuel a ((y, j) :: b) else if y < x then common fuel ((x, i) :: a) b else (i, j) :: common fuel a b
  | _, _, _ => []

/-- the lower triangles of the arc from `u` to `v` -/
def triangles (arcs : List (Nat × Nat)) (u v : Nat) : List (Nat × Nat) :=
  common ((inverted arcs u).length + (inverted arcs v).length) (inverted arcs u) (inverted arcs v)

/-- key for sorting the triangles: `none` would be an index out of range -/
def key (inc out : List Shortcut) (t : Nat × Nat) : Option Rat := do
  let a ← inc[t.1]?
  let b ← out[t.2]?
  some (a.lower + b.lower)

/-- one direction of one arc (`ftd.rs:514-524, 529-543`) -/
def customizeDir (c : Cfg) (inc out : List Shortcut) (ts : List (Nat × Nat)) (s : Shortcut) : Option Shortcut := do
  finalize c (← ts.foldlM (merge c inc out) s)

/-- one arc (`ftd.rs:475-546`); state: outgoing and incoming shortcuts -/
def customizeArc (c : Cfg) (arcs : List (Nat × Nat)) (st : List Shortcut × List Shortcut) (id : Nat) : Option (List Shortcut × List Shortcut) := do
  let a ← arcs[id]?
  let ts := c.srt (key st.2 st.1) (triangles arcs a.1 a.2)
  let up ← customizeDir c st.2 st.1 ts (← st.1[id]?)
  let ts' := c.srt (fun t => key st.2 st.1 t.swap) ts
  let down ← customizeDir c st.2 st.1 (ts'.map Prod.swap) (← st.2[id]?)
  some (← upd st.1 id up, ← upd st.2 id down)

/-- ids of the arcs of a node (`neighbor_edge_indices`) -/
def arcsOf (arcs : List (Nat × Nat)) (v : Nat) : List Nat := (arcs.zipIdx.filter (fun p => p.1.1 == v)).map (·.2)

/-- freeing the functions of the arcs into a node (`ftd.rs:549-553`) -/
def clearInto (arcs : List (Nat × Nat)) (v : Nat) (l : List Shortcut) : List Shortcut :=
  l.zipIdx.map (fun p => if (arcs[p.2]?.map (·.2)) == some v then clear p.1 else p.1)

/-- one node (`ftd.rs:457-555`) -/
def customizeNode (c : Cfg) (arcs : List (Nat × Nat)) (st : List Shortcut × List Shortcut) (v : Nat) : Option (List Shortcut × List Shortcut) := do
  let st ← (arcsOf arcs v).foldlM (customizeArc c arcs) st
  some (clearInto arcs v st.1, clearInto arcs v st.2)

/-- the main customization (`ftd.rs:238-263, 336-341`), on shortcuts that the pre-customization may have changed -/
def customizeMain (c : Cfg) (arcs : List (Nat × Nat)) (n : Nat) (st : List Shortcut × List Shortcut) : Option (List Shortcut × List Shortcut) :=
  (List.range n).foldlM (customizeNode c arcs) st

/-- applying the weights (`ftd.rs:34-58`); the assertion that there are no parallel edges -/
def applyWeights (ttf : Nat → Option (List Pt)) (orig : List (List Nat)) : Option (List Shortcut) :=
  orig.mapM (fun es =>
    match es with
    | [] => newShortcut ttf none
    | [e] => newShortcut ttf (some e)
    | _ => none)

/-! ## The result -/

/-- `RankSelectMap::get` on the required shortcuts -/
def rank (l : List Shortcut) (i : Nat) : Option Nat := do
  let s ← l[i]?
  if s.required then some ((l.take i).countP (·.required)) else none

/-- a source with the new ids (`shortcut_graph.rs:281-293`) -/
def renumber (inc out : List Shortcut) (p : Rat × Src) : Option (Rat × Src) :=
  match p.2 with
  | .short d u => do some (p.1, .short (← rank inc d) (← rank out u))
  | s => some (p.1, s)

/-- one required arc (`shortcut_graph.rs:270-320`) -/
def toArc (eps : Rat) (inc out : List Shortcut) (p : (Nat × Nat) × Shortcut) : Option Arc := do
  let src ← (sourcesIter eps p.2.sources).mapM (renumber inc out)
  some ⟨p.1.1, p.1.2, p.2.lower, p.2.upper, src, p.2.constant⟩

/-- one direction (`shortcut_graph.rs:188-320`) -/
def toArcs (eps : Rat) (arcs : List (Nat × Nat)) (inc out l : List Shortcut) : Option (List Arc) :=
  ((arcs.zip l).filter (fun p => p.2.required)).mapM (toArc eps inc out)

/-- `CustomizedGraph::new` (`shortcut_graph.rs:188-337`), with the elimination tree of the CCH; `orig` is the evaluation of the original edges
(`shortcut_source.rs:20-22`), 0 for edges that do not exist -/
def customizedGraph (c : Cfg) (arcs : List (Nat × Nat)) (n : Nat) (parent : Nat → Option Nat) (st : List Shortcut × List Shortcut) : Option Graph := do
  let outgoing ← toArcs c.tl.eps arcs st.2 st.1 st.1
  let incoming ← toArcs c.tl.eps arcs st.2 st.1 st.2
  some ⟨n, outgoing, incoming, parent, fun e t => ((c.ttf e).bind (fun f => evaluate c.bs c.tl.eps f t)).getD 0⟩

end Verif.Ftd
