import Verif.Model.FtdCustomize
/- The pre-customization of CATCHUp (`engine/src/algo/customizable_contraction_hierarchy/customization/ftd.rs:60-235`): a customization with bounds only,
a perfect customization with them, and switching off the shortcuts that are never needed.

Simplifications: as for the main customization; the nodes are processed one after the other; the workspaces are functions. -/
namespace Verif.Ftd
open Spec Fl Catchup

/-- one direction of a pair: the outgoing (`upward`) or the incoming (`downward`) shortcuts -/
def side {α : Type} (p : α × α) (dir : Bool) : α := if dir then p.1 else p.2

/-- the outgoing and incoming shortcuts -/
abbrev Both := List Shortcut × List Shortcut

/-- `neighbor_iter(v)` zipped with `neighbor_edge_indices(v)`: heads and ids of the arcs of a node -/
def neighbors (arcs : List (Nat × Nat)) (v : Nat) : List (Nat × Nat) := (arcs.zipIdx.filter (fun p => p.1.1 == v)).map (fun p => (p.1.2, p.2))

/-! ## Static customization -/

/-- lower and upper bound -/
def Shortcut.bounds (s : Shortcut) : Rat × Rat := (s.lower, s.upper)

/-- `node_outgoing_weights` and `node_incoming_weights` (`ftd.rs:63-67`) -/
structure Ws where
  out : Nat → Rat × Rat
  inc : Nat → Rat × Rat

/-- copying the bounds of an arc of the current node into the workspaces (`ftd.rs:74-81`) -/
def load (st : Both) (ws : Ws) (p : Nat × Nat) : Option Ws := do
  let down ← st.2[p.2]?
  let up ← st.1[p.2]?
  some ⟨fupd ws.out p.1 up.bounds, fupd ws.inc p.1 down.bounds⟩

/-- `relax.0 = min(relax.0, …)`, `relax.1 = min(relax.1, …)` (`ftd.rs:99-100, 102-103`) -/
def relaxPair (old a b : Rat × Rat) : Rat × Rat := (min old.1 (a.1 + b.1), min old.2 (a.2 + b.2))

/-- the body of the innermost loop (`ftd.rs:98-103`) -/
def relaxLow (st : Both) (firstDown firstUp : Shortcut) (ws : Ws) (p : Nat × Nat) : Option Ws := do
  let up ← st.1[p.2]?
  let down ← st.2[p.2]?
  some ⟨fupd ws.out p.1 (relaxPair (ws.out p.1) up.bounds firstDown.bounds), fupd ws.inc p.1 (relaxPair (ws.inc p.1) down.bounds firstUp.bounds)⟩

/-- one lower neighbour (`ftd.rs:83-105`): its arcs, from the highest head on, down to the current node -/
def staticLow (arcs : List (Nat × Nat)) (st : Both) (v : Nat) (ws : Ws) (q : Nat × Nat) : Option Ws := do
  let firstDown ← st.2[q.2]?
  let firstUp ← st.1[q.2]?
  ((neighbors arcs q.1).reverse.takeWhile (fun p => decide (v < p.1))).foldlM (relaxLow st firstDown firstUp) ws

/-- new bounds and `update_is_constant` (`ftd.rs:113-118`, `shortcut.rs:374-377`) -/
def setBounds (b : Rat × Rat) (s : Shortcut) : Shortcut := { s with lower := b.1, upper := b.2, constant := decide (b.2 = b.1) }

/-- copying the bounds back (`ftd.rs:107-119`) -/
def store (ws : Ws) (st : Both) (p : Nat × Nat) : Option Both := do
  let down ← st.2[p.2]?
  let up ← st.1[p.2]?
  some (← upd st.1 p.2 (setBounds (ws.out p.1) up), ← upd st.2 p.2 (setBounds (ws.inc p.1) down))

/-- one node (`ftd.rs:69-120`) -/
def staticNode (arcs : List (Nat × Nat)) (x : Both × Ws) (v : Nat) : Option (Both × Ws) := do
  let ws ← (neighbors arcs v).foldlM (load x.1) x.2
  let ws ← (inverted arcs v).foldlM (staticLow arcs x.1 v) ws
  some (← (neighbors arcs v).foldlM (store ws) x.1, ws)

/-- `static_customization.customize` (`ftd.rs:200, 223-227`) -/
def staticAll (arcs : List (Nat × Nat)) (n : Nat) (st : Both) : Option Both := do
  let r ← (List.range n).foldlM (staticNode arcs) (st, ⟨fun _ => (INF, INF), fun _ => (INF, INF)⟩)
  some r.1

/-! ## Perfect customization -/

/-- minimum of the bounds of a shortcut and the sums of those of two others (e.g. `ftd.rs:153-160`) -/
def minBounds (s a b : Shortcut) : Shortcut := { s with upper := min s.upper (a.upper + b.upper), lower := min s.lower (a.lower + b.lower) }

/-- relaxing the arc `t` with the arcs `a` and `b`, each given by direction and id -/
def relaxArc (t a b : Bool × Nat) (st : Both) : Option Both := do
  let x ← (side st a.1)[a.2]?
  let y ← (side st b.1)[b.2]?
  let s ← (side st t.1)[t.2]?
  let l ← upd (side st t.1) t.2 (minBounds s x y)
  some (if t.1 then (l, st.2) else (st.1, l))

/-- the four relaxations (`ftd.rs:152-188`): the arcs `edge` and `other` leave the current node, `sc` connects their heads -/
def perfectTriangle (edge sc other : Nat) (st : Both) : Option Both := do
  let st ← relaxArc (true, other) (true, edge) (true, sc) st
  let st ← relaxArc (true, edge) (true, other) (false, sc) st
  let st ← relaxArc (false, other) (false, edge) (false, sc) st
  relaxArc (false, edge) (false, other) (true, sc) st

/-- the workspace `node_edge_ids` after it has been filled for a node (`ftd.rs:137-140, 194-196`): each thread empties it after a node -/
def edgeTo (arcs : List (Nat × Nat)) (v w : Nat) : Option Nat := ((neighbors arcs v).reverse.find? (fun p => p.1 == w)).map (·.2)

/-- one arc of an upper neighbour (`ftd.rs:144-190`) -/
def perfectEdge (arcs : List (Nat × Nat)) (v edge : Nat) (st : Both) (p : Nat × Nat) : Option Both :=
  match edgeTo arcs v p.1 with
  | none => some st
  | some other => perfectTriangle edge p.2 other st

/-- one node (`ftd.rs:135-197`) -/
def perfectNode (arcs : List (Nat × Nat)) (st : Both) (v : Nat) : Option Both :=
  (neighbors arcs v).foldlM (fun st q => (neighbors arcs q.1).foldlM (perfectEdge arcs v q.2) st) st

/-- `static_perfect_customization.customize` (`ftd.rs:201, 232-234`): from the last node to the first one -/
def perfectAll (arcs : List (Nat × Nat)) (n : Nat) (st : Both) : Option Both := (List.range n).reverse.foldlM (perfectNode arcs) st

/-! ## Switching off -/

/-- `disable_dominated` (`ftd.rs:204-214`) -/
def disable (eps : Rat) (s : Shortcut) (lower : Rat) : Shortcut :=
  if flt eps s.upper lower then { s with required := false, lower := INF, upper := INF } else { s with lower := lower }

/-- the pre-customization (`ftd.rs:216-240`) -/
def precustomize (eps : Rat) (arcs : List (Nat × Nat)) (n : Nat) (st : Both) : Option Both := do
  let s ← staticAll arcs n st
  let p ← perfectAll arcs n s
  some (List.zipWith (disable eps) p.1 (s.1.map (·.lower)), List.zipWith (disable eps) p.2 (s.2.map (·.lower)))

/-! ## Customization -/

/-- the pre-customization, if the feature `tdcch-precustomization` is on (`ftd.rs:216`) -/
def prepare (c : Cfg) (arcs : List (Nat × Nat)) (n : Nat) (st : Both) : Option Both := if c.pre then precustomize c.tl.eps arcs n st else some st

/-- `customize` (`ftd.rs:20-24`), without post-customization (for which see `customizePost`): applying the weights, the pre-customization and the main
customization -/
def customize (c : Cfg) (arcs : List (Nat × Nat)) (n : Nat) (parent : Nat → Option Nat) (fwd bwd : List (List Nat)) : Option Graph := do
  let st ← prepare c arcs n (← applyWeights c.ttf fwd, ← applyWeights c.ttf bwd)
  customizedGraph c arcs n parent (← customizeMain c arcs n st)

end Verif.Ftd
