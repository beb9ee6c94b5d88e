import Verif.Model.CCHPotential
import Verif.Model.Separator
import Verif.Model.BitVec
/- Model of `engine/src/algo/customizable_contraction_hierarchy/query/nearest_neighbor.rs`, without `BCCHNearestNeighbor`. The field
`closest_targets` is empty between two queries. -/
namespace Verif
namespace NN
open CCH Spec

/-! ### `std::collections::BinaryHeap<(Weight, NodeId)>` as a multiset: a list whose order does not matter -/

/-- the larger of two pairs, in lexicographic order -/
def lexMax (a b : Nat × Nat) : Nat × Nat := if a.1 < b.1 ∨ (a.1 = b.1 ∧ a.2 < b.2) then b else a

/-- `peek` -/
def peek : List (Nat × Nat) → Option (Nat × Nat)
  | [] => none
  | x :: l => some (l.foldl lexMax x)

/-- `pop` -/
def pop (h : List (Nat × Nat)) : List (Nat × Nat) :=
  match peek h with
  | none => h
  | some x => h.erase x

/-- One target with a distance (`nearest_neighbor.rs:75-80`, `:92-97`, `:149-154`); `unwrap` of a missing value is `none`. -/
def offer (k : Nat) (h : List (Nat × Nat)) (dist target : Nat) : Option (List (Nat × Nat)) :=
  if h.length < k then some ((dist, target) :: h) else do
    let top ← peek h
    if dist < top.1 then return (dist, target) :: pop h else return h

/-- `if let Some(dist) = potential(target) { … }` (`nearest_neighbor.rs:148-155`) -/
def consider {σ : Type} (P : Potential σ) (k : Nat) (st : σ × List (Nat × Nat)) (target : Nat) : Option (σ × List (Nat × Nat)) := do
  let (s, o) ← P.get st.1 target
  match o with
  | none => return (s, st.2)
  | some dist =>
    let h ← offer k st.2 dist target
    return (s, h)

/-- `LazyRphastNearestNeighbor::query` (`nearest_neighbor.rs:144-159`) with the potential `P` (in the code a `CCHPotential`); `drain`
is the order in which the heap yields its elements. -/
def lazyQuery {σ : Type} (P : Potential σ) (drain : List (Nat × Nat) → List (Nat × Nat)) (s : σ) (source : Nat) (targets : List Nat) (k : Nat) :
    Option (List (Nat × Nat) × σ) := do
  let s ← P.init s source
  let (s, h) ← targets.foldlM (consider P k) (s, [])
  return (drain h, s)

/-- several queries on one object: `(source, targets, k)` -/
def lazyQueries {σ : Type} (P : Potential σ) (drain : List (Nat × Nat) → List (Nat × Nat)) : σ → List (Nat × List Nat × Nat) → Option (List (List (Nat × Nat)))
  | _, [] => some []
  | s, (source, targets, k) :: qs => do
    let (r, s) ← lazyQuery P drain s source targets k
    let rs ← lazyQueries P drain s qs
    return r :: rs

/-! ### `SeparatorBasedNearestNeighbor` -/

/-- `TARGETS_PER_CELL_THRESHOLD` (`nearest_neighbor.rs:8`) -/
def cellThreshold : Nat := 8

/-- the index in the result of `binary_search`, found or not (`nearest_neighbor.rs:61-68`) -/
def lookupIdx : Lookup → Nat
  | .ok i => i
  | .err i => i

/-- `potential_with_cch_rank` as a potential on ranks -/
def rankPot (c : Cch) (fw bw : FOGraph) : Potential PotState where
  init s t := potInit bw c.elimTree s t
  get s v := potGet fw c.elimTree s v

/-- The ranks in a cell and those of its separator (`nearest_neighbor.rs:53-59`); a separator without consecutive ids panics. -/
def cellRanges (cell : SepTree) : Option ((Nat × Nat) × (Nat × Nat)) :=
  match cell.nodes with
  | .random _ => none
  | .consecutive a b => if a < b then (sub32 b cell.num).map (fun x => ((x, b), (a, b))) else some ((0, cell.num), (cell.num, cell.num))

/-- The smallest distance to a neighbour of the highest node of a child (`nearest_neighbor.rs:102-108`). -/
def cellBound {σ : Type} (P : Potential σ) (c : Cch) (s : σ) (child : SepTree) : Option (σ × Nat) := do
  let top ← child.nodes.highest
  let bs ← heads c.topo top
  bs.foldlM (fun (st : σ × Nat) b => do
    let (s, o) ← P.get st.1 b
    return (s, min st.2 (o.getD INFINITY))) (s, INFINITY)

/-- `for child in &cell.children` (`nearest_neighbor.rs:102-110`): the bounds of the children -/
def cellBounds {σ : Type} (P : Potential σ) (c : Cch) : σ → List SepTree → Option (σ × List (Nat × SepTree))
  | s, [] => some (s, [])
  | s, child :: cs => do
    let (s, b) ← cellBound P c s child
    let (s, r) ← cellBounds P c s cs
    return (s, (b, child) :: r)

/-- One cell that is not skipped (`nearest_neighbor.rs:53-113`): the state, and the cells put on the stack, the top one first. -/
def cellStep {σ : Type} (P : Potential σ) (bs : List Nat → Nat → Lookup) (srt : (Nat × SepTree → Nat) → List (Nat × SepTree) → List (Nat × SepTree))
    (c : Cch) (targets : List Nat) (k : Nat) (st : σ × List (Nat × Nat)) (cell : SepTree) : Option ((σ × List (Nat × Nat)) × List (Nat × SepTree)) := do
  let (cellRange, sepRange) ← cellRanges cell
  let ts ← slice targets (lookupIdx (bs targets cellRange.1)) (lookupIdx (bs targets cellRange.2))
  if ts.length < cellThreshold then
    let st ← ts.foldlM (consider P k) st
    return (st, [])
  else
    let st ← (ts.reverse.takeWhile (fun t => ¬ t < sepRange.1)).foldlM (consider P k) st
    let (s, cells) ← cellBounds P c st.1 cell.children
    return ((s, st.2), srt (fun x => x.1) cells)

/-- `closest_targets.len() >= k && min_dist >= closest_targets.peek().unwrap().0` (`nearest_neighbor.rs:50`) -/
def skipCell (k : Nat) (h : List (Nat × Nat)) (minDist : Nat) : Option Bool :=
  if h.length ≥ k then (peek h).map (fun top => decide (minDist ≥ top.1)) else some false

/-- The `while let` loop (`nearest_neighbor.rs:49-114`). -/
def cellLoop {σ : Type} (P : Potential σ) (bs : List Nat → Nat → Lookup) (srt : (Nat × SepTree → Nat) → List (Nat × SepTree) → List (Nat × SepTree))
    (c : Cch) (targets : List Nat) (k : Nat) : Nat → σ × List (Nat × Nat) → List (Nat × SepTree) → Option (σ × List (Nat × Nat))
  | _, st, [] => some st
  | 0, _, _ :: _ => none
  | fuel + 1, st, (minDist, cell) :: stack => do
    let skip ← skipCell k st.2 minDist
    if skip then cellLoop P bs srt c targets k fuel st stack else
      let (st, cells) ← cellStep P bs srt c targets k st cell
      cellLoop P bs srt c targets k fuel st (cells ++ stack)

/-- All targets, when not more than `k` are selected (`nearest_neighbor.rs:42-46`). -/
def pushAll {σ : Type} (P : Potential σ) (st : σ × List (Nat × Nat)) (target : Nat) : Option (σ × List (Nat × Nat)) := do
  let (s, o) ← P.get st.1 target
  match o with
  | none => return (s, st.2)
  | some dist => return (s, (dist, target) :: st.2)

/-- `select_targets` (`nearest_neighbor.rs:28-34`): the sorted ranks -/
def sepSelect (c : Cch) (targets : List Nat) : Option (List Nat) := do
  let l ← targets.mapM c.order.rank
  return isort id l

/-- `SeparatorBasedNearestNeighbor::query` (`nearest_neighbor.rs:36-116`) for the ranks `targets` chosen by `sepSelect`. Every cell is
pushed at most once, which bounds the number of turns. -/
def sepQuery (bs : List Nat → Nat → Lookup) (srt : (Nat × SepTree → Nat) → List (Nat × SepTree) → List (Nat × SepTree))
    (drain : List (Nat × Nat) → List (Nat × Nat)) (c : Cch) (fw bw : FOGraph) (s : PotState) (targets : List Nat) (source k : Nat) :
    Option (List (Nat × Nat) × PotState) := do
  let s ← (cchPot c fw bw).init s source
  let P := rankPot c fw bw
  let (s, h) ← if k < targets.length then do
      let root ← SepTree.new c.elimTree
      cellLoop P bs srt c targets k (c.numNodes + 2) (s, []) [(0, root)]
    else targets.foldlM (pushAll P) (s, [])
  let r ← (drain h).mapM (fun p => (c.order.node p.2).map (fun v => (p.1, v)))
  return (r, s)

end NN
end Verif
