import Verif.Model.Base
import Verif.Model.Graph
import Verif.Spec.Sources
/- Model of the removal of arcs that can no longer be unpacked, in the construction of the interval potential for live traffic
(`engine/src/algo/td_astar.rs:975-1032`). The times of the sources do not matter here and are left out. -/
namespace Verif
namespace Sources
open Spec

/-- What is read (`PotData` in `ftd_for_pot.rs:20-32` without the bounds, and the `first_out` array of the hierarchy) -/
structure Arrays where
  firstOut : List Nat
  fwFirst : List Nat
  fwSources : List Via
  bwFirst : List Nat
  bwSources : List Via
deriving DecidableEq, Repr

/-- `fw_required` and `bw_required` -/
structure Required where
  fw : List Bool
  bw : List Bool
deriving DecidableEq, Repr

/-- the array for a direction -/
def Required.dir (r : Required) : Bool → List Bool
  | true => r.fw
  | false => r.bw

/-- write to the array for a direction -/
def Required.write (r : Required) : Bool → Nat → Bool → Option Required
  | true, e, x => (upd r.fw e x).map fun l => { r with fw := l }
  | false, e, x => (upd r.bw e x).map fun l => { r with bw := l }

/-- `&sources[first_source[edge_idx]..first_source[edge_idx + 1]]` (`td_astar.rs:1009-1010`) -/
def Arrays.sources (d : Arrays) (up : Bool) (e : Nat) : Option (List Via) := do
  let first := if up then d.fwFirst else d.bwFirst
  let a ← first[e]?
  let b ← first[e + 1]?
  slice (if up then d.fwSources else d.bwSources) a b

/-- An access to a slice `…_below`, which covers the arcs from `offset` to `start` (`td_astar.rs:1005-1006, 1013`) -/
def below (offset start : Nat) (l : List Bool) (e : Nat) : Option Bool := if offset ≤ e ∧ e < start then l[e]? else none

/-- The iterator with `any` (`td_astar.rs:1011-1017`), which stops at the first match; `&&` does not look at the second arc if the first one
is not required. -/
def anyRequired (offset start : Nat) (r : Required) : List Via → Option Bool
  | [] => some false
  | .edge _ :: _ => some true
  | .nothing :: vs => anyRequired offset start r vs
  | .pair a b :: vs => do
    let x ← below offset start r.bw a
    if x then do
      let y ← below offset start r.fw b
      if y then return true else anyRequired offset start r vs
    else anyRequired offset start r vs

/-- One iteration of `process_edges` (`td_astar.rs:1008-1021`) -/
def edgeStep (d : Arrays) (offset start : Nat) (up : Bool) (r : Required) (e : Nat) : Option Required := do
  let vs ← d.sources up e
  let any ← anyRequired offset start r vs
  if any then return r else r.write up e false

/-- One iteration of `disable_shortcuts_with_invalid_sources` (`td_astar.rs:1003-1026`) for a node in a task which works on the arcs from `offset` on -/
def nodeStep (d : Arrays) (offset : Nat) (r : Required) (x : Nat) : Option Required := do
  let a ← d.firstOut[x]?
  let b ← d.firstOut[x + 1]?
  if a < offset then none
  else do
    let r ← (List.range' a (b - a)).foldlM (edgeStep d offset a true) r
    (List.range' a (b - a)).foldlM (edgeStep d offset a false) r

/-- All nodes, in the order in which the tasks process them (`td_astar.rs:1028-1032`); `offset x` is the `edge_offset` of the task that processes
`x`. The step for a node is atomic in the model. -/
def disable (d : Arrays) (offset : Nat → Nat) (L : List Nat) (r : Required) : Option Required :=
  L.foldlM (fun r x => nodeStep d (offset x) r x) r

/-- Arcs whose lower bound is above the upper bound are not required (`td_astar.rs:975-1000`); `zip` stops at the end of the shortest array. -/
def dropAbove : List Bool → List Nat → List Nat → List Bool
  | r :: rs, l :: ls, u :: us => (if l > u then false else r) :: dropAbove rs ls us
  | rs, _, _ => rs

/-- Both steps (`td_astar.rs:975-1032`) -/
def prune (d : Arrays) (offset : Nat → Nat) (L : List Nat) (r : Required) (fwLower fwUpper bwLower bwUpper : List Nat) : Option Required :=
  disable d offset L ⟨dropAbove r.fw fwLower fwUpper, dropAbove r.bw bwLower bwUpper⟩

end Sources
end Verif
