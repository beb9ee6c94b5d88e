import Verif.Model.FtdPre
/- The post-customization of CATCHUp (`engine/src/algo/customizable_contraction_hierarchy/customization/ftd.rs:389-464`): the perfect customization once more, with
the better bounds of the main customization, and switching off more shortcuts.

Simplifications: as for the pre-customization; slices of the arcs of lower nodes are not distinguished from the whole list; debug assertions are left out. -/
namespace Verif.Ftd
open Spec Fl Catchup

/-- `disable_dominated` (`ftd.rs:401-408`) -/
def dominated (eps : Rat) (s : Shortcut) (lower : Rat) : Shortcut :=
  if flt eps s.upper lower then { s with required := false, lower := lower } else { s with lower := lower }

/-- `ShortcutSource::required` (`shortcut_source.rs:350-356`) -/
def srcRequired (st : Both) : Src → Option Bool
  | .orig _ => some true
  | .no => some false
  | .short d u => do
    let a ← st.2[d]?
    if a.required then (st.1[u]?).map (·.required) else some false

/-- `disable_if_unneccesary` (`shortcut.rs:341-361`) -/
def disableIf (st : Both) (s : Shortcut) : Option Shortcut :=
  if s.sources.isEmpty then some s
  else do
    let l ← s.sources.mapM (fun p => srcRequired st p.2)
    some (if l.any id then s else { s with required := false })

/-- replacing a shortcut -/
def setSide (st : Both) (dir : Bool) (i : Nat) (s : Shortcut) : Option Both := do
  let l ← upd (side st dir) i s
  some (if dir then (l, st.2) else (st.1, l))

/-- one shortcut (`ftd.rs:420-426`) -/
def disableArc (dir : Bool) (st : Both) (i : Nat) : Option Both := do
  let s ← (side st dir)[i]?
  setSide st dir i (← disableIf st s)

/-- one node (`ftd.rs:413-427`) -/
def disableNode (arcs : List (Nat × Nat)) (st : Both) (v : Nat) : Option Both := do
  let st ← (arcsOf arcs v).foldlM (disableArc true) st
  (arcsOf arcs v).foldlM (disableArc false) st

/-- `required = true` -/
def enable (dir : Bool) (i : Nat) (st : Both) : Option Both := do
  let s ← (side st dir)[i]?
  setSide st dir i { s with required := true }

/-- one source in `reenable_required` (`shortcut.rs:366-369`) -/
def enableSrc (st : Both) (p : Rat × Src) : Option Both :=
  match p.2 with
  | .short d u => do enable true u (← enable false d st)
  | _ => some st

/-- `reenable_required` (`shortcut.rs:363-372`) -/
def reenableArc (eps : Rat) (dir : Bool) (st : Both) (i : Nat) : Option Both := do
  let s ← (side st dir)[i]?
  if s.required then (sourcesIter eps s.sources).foldlM enableSrc st else some st

/-- one node (`ftd.rs:429-442`) -/
def reenableNode (eps : Rat) (arcs : List (Nat × Nat)) (st : Both) (v : Nat) : Option Both := do
  let st ← (arcsOf arcs v).foldlM (reenableArc eps true) st
  (arcsOf arcs v).foldlM (reenableArc eps false) st

/-- the bounds of shortcuts that are switched off (`ftd.rs:444-455`) -/
def closeOff (s : Shortcut) : Shortcut := if s.required then s else { s with lower := INF, upper := INF }

/-- the post-customization (`ftd.rs:389-455`) -/
def postcustomize (eps : Rat) (arcs : List (Nat × Nat)) (n : Nat) (st : Both) : Option Both := do
  let p ← perfectAll arcs n st
  let s ← (List.range n).foldlM (disableNode arcs)
    (List.zipWith (dominated eps) p.1 (st.1.map (·.lower)), List.zipWith (dominated eps) p.2 (st.2.map (·.lower)))
  let r ← (List.range n).reverse.foldlM (reenableNode eps arcs) s
  some (r.1.map closeOff, r.2.map closeOff)

/-- `customize` (`ftd.rs:20-466`) with the feature `tdcch-postcustomization` -/
def customizePost (c : Cfg) (arcs : List (Nat × Nat)) (n : Nat) (parent : Nat → Option Nat) (fwd bwd : List (List Nat)) : Option Graph := do
  let st ← prepare c arcs n (← applyWeights c.ttf fwd, ← applyWeights c.ttf bwd)
  let st ← customizeMain c arcs n st
  customizedGraph c arcs n parent (← postcustomize c.tl.eps arcs n st)

end Verif.Ftd
