import Verif.Model.Perfect
/- Model of perfect customization that keeps track of when bounds hold
(`engine/src/algo/customizable_contraction_hierarchy/customization/validity.rs`). -/
namespace Verif
namespace CCH

/-- The four arrays (`validity.rs:4-10`): bounds, and from when on they hold. -/
structure VW where
  up : List Nat
  down : List Nat
  upFrom : List Nat
  downFrom : List Nat
deriving DecidableEq, Repr

/-- `if relax_weight < *edge_weight { *edge_weight = relax_weight; *valid = relax_valid; }` (`validity.rs:36-39`); the pointers are not
checked in the code, here out of bounds is a panic, and the theorems show it does not happen. -/
def relaxFrom (w m : List Nat) (e x v : Nat) : Option (List Nat × List Nat) := do
  let old ← w[e]?
  if x < old then do
    let w ← upd w e x
    let m ← upd m e v
    return (w, m)
  else return (w, m)

/-- The bound `a` from `va` on and `b` from `vb` on for the upward edge `e` (`validity.rs:33-39`) -/
def VW.relaxUp (p : VW) (e a b va vb : Nat) : Option VW := do
  let x ← add32 a b
  let r ← relaxFrom p.up p.upFrom e x (max va vb)
  return { p with up := r.1, upFrom := r.2 }

/-- The same for a downward edge (`validity.rs:49-55`) -/
def VW.relaxDown (p : VW) (e a b va vb : Nat) : Option VW := do
  let x ← add32 a b
  let r ← relaxFrom p.down p.downFrom e x (max va vb)
  return { p with down := r.1, downFrom := r.2 }

/-- The four relaxations for a triangle (`validity.rs:29-65`): `edge` and `other` leave the current node, `sc` connects their heads. -/
def validTriangle (edge sc other : Nat) (p : VW) : Option VW := do
  let a ← p.up[edge]?
  let b ← p.up[sc]?
  let va ← p.upFrom[edge]?
  let vb ← p.upFrom[sc]?
  let p ← p.relaxUp other a b va vb
  let a ← p.up[other]?
  let b ← p.down[sc]?
  let va ← p.upFrom[other]?
  let vb ← p.downFrom[sc]?
  let p ← p.relaxUp edge a b va vb
  let a ← p.down[edge]?
  let b ← p.down[sc]?
  let va ← p.downFrom[edge]?
  let vb ← p.downFrom[sc]?
  let p ← p.relaxDown other a b va vb
  let a ← p.down[other]?
  let b ← p.up[sc]?
  let va ← p.downFrom[other]?
  let vb ← p.upFrom[sc]?
  p.relaxDown edge a b va vb

/-- Loop body for an edge `(target, id)` of an upper neighbour (`validity.rs:24-67`) -/
def validEdge (ws : List (Option Nat)) (edge : Nat) (p : VW) (l : Nat × Nat) : Option VW := do
  let o ← ws[l.1]?
  match o with
  | none => return p
  | some other => validTriangle edge l.2 other p

/-- The loop body for `current_node` (`validity.rs:15-75`); `ws` is the workspace `node_edge_ids` of the thread. -/
def validNode (c : Cch) (current : Nat) (ws : List (Option Nat)) (p : VW) : Option (VW × List (Option Nat)) := do
  let edges ← edgesOf c current
  let ws ← edges.foldlM (fun ws l => upd ws l.1 (some l.2)) ws
  let p ← edges.foldlM (fun p l => do
    let es ← edgesOf c l.1
    es.foldlM (validEdge ws l.2) p) p
  let ws ← edges.foldlM (fun ws l => upd ws l.1 none) ws
  return (p, ws)

/-- `customize_perfect_with_validity` (`validity.rs:4-83`) where the nodes are processed in the given order; as for `perfect`, the steps for
different nodes are atomic here and the workspace is shared. -/
def withValidity (c : Cch) (nodes : List Nat) (p : VW) : Option VW := do
  let r ← nodes.foldlM (fun (st : VW × List (Option Nat)) v => validNode c v st.2 st.1) (p, List.replicate c.numNodes none)
  return r.1

/-- The upper bounds in `IntervalMinPotential::new` (`td_astar.rs:802-832`): all bounds hold from 0 on; afterwards the minimum of both is
taken. -/
def tightenUppers (c : Cch) (nodes : List Nat) (fw bw : List Nat) : Option (List Nat × List Nat) := do
  let p ← withValidity c nodes ⟨fw, bw, List.replicate c.head.length 0, List.replicate c.head.length 0⟩
  return (fw.zipWith min p.up, bw.zipWith min p.down)

end CCH
end Verif
