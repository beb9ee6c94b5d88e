import Verif.Model.CCH
import Verif.Model.Sort
/-
Separator trees (`separator_decomposition.rs`), the parallel customization built on them
(`customization/parallelization.rs`) and orders for it (`reorder.rs`). Paths are relative to
`engine/src/algo/customizable_contraction_hierarchy/`.
-/
namespace Verif
namespace CCH

/-- `enum SeparatorNodes` (`separator_decomposition.rs:6-9`); the range is `a..b`. -/
inductive SepNodes where
  | consecutive (a b : Nat)
  | random (l : List Nat)
deriving DecidableEq, Repr

/-- `a..b` as a list -/
def rangeList (a b : Nat) : List Nat := List.range' a (b - a)

namespace SepNodes

/-- `SeparatorNodes::push` (`separator_decomposition.rs:20-33`) -/
def push : SepNodes → Nat → SepNodes
  | consecutive a b, node => if 0 < a ∧ node = a - 1 then consecutive (a - 1) b else random ((rangeList a b).reverse ++ [node])
  | random l, node => random (l ++ [node])

/-- `SeparatorNodes::iter` (`separator_decomposition.rs:56-61`) -/
def toList : SepNodes → List Nat
  | consecutive a b => (rangeList a b).reverse
  | random l => l

/-- `SeparatorNodes::len` (`separator_decomposition.rs:42-47`) -/
def len : SepNodes → Nat
  | consecutive a b => b - a
  | random l => l.length

/-- `SeparatorNodes::highest_ranked_node` (`separator_decomposition.rs:49-54`) -/
def highest (s : SepNodes) : Option Nat := s.toList.head?

/-- `matches!(nodes, SeparatorNodes::Consecutive(_))` -/
def isConsecutive : SepNodes → Bool
  | consecutive _ _ => true
  | random _ => false

end SepNodes

/-- `struct SeparatorTree` (`separator_decomposition.rs:81-86`) -/
inductive SepTree where
  | mk (nodes : SepNodes) (children : List SepTree) (num : Nat)

namespace SepTree

def nodes : SepTree → SepNodes
  | mk s _ _ => s
def children : SepTree → List SepTree
  | mk _ c _ => c
def num : SepTree → Nat
  | mk _ _ k => k

/-- `to_ordering` (`reorder.rs:57-62`): a separator, then the cells one after the other. -/
def toList : SepTree → List Nat
  | mk s cs _ => s.toList ++ all cs
where all : List SepTree → List Nat
  | [] => []
  | t :: ts => t.toList ++ all ts

end SepTree

/-! ### Construction -/

/-- `enum Children` (`separator_decomposition.rs:175-180`) -/
inductive Children where
  | none
  | one (c : Nat)
  | many (l : List Nat)
deriving DecidableEq, Repr

/-- Adding a child (`separator_decomposition.rs:122-127`). -/
def Children.add : Children → Nat → Children
  | .none, v => .one v
  | .one c, v => .many [c, v]
  | .many l, v => .many (l ++ [v])

/-- The first loop of `SeparatorTree::new` (`separator_decomposition.rs:117-132`) from node `i` on; state: children, roots. -/
def collectChildren : Nat → List (Option Nat) → List Children × List Nat → Option (List Children × List Nat)
  | _, [], st => some st
  | i, Option.none :: ps, st => collectChildren (i + 1) ps (st.1, st.2 ++ [i])
  | i, some p :: ps, st => do
    let c ← st.1[p]?
    let ch ← upd st.1 p (c.add i)
    collectChildren (i + 1) ps (ch, st.2)

/-- The loop `while let Children::One(only_child)` (`separator_decomposition.rs:151-154`). -/
def sepChain (ch : List Children) : Nat → Nat → SepNodes → Option (Nat × SepNodes)
  | 0, _, _ => none
  | fuel + 1, node, nodes => do
    let c ← ch[node]?
    match c with
    | .one v => sepChain ch fuel v (nodes.push v)
    | _ => return (node, nodes)

/-- `new_subtree` (`separator_decomposition.rs:147-172`). Children have smaller numbers than their parents, which bounds the
recursion. -/
def newSubtree (ch : List Children) : Nat → Nat → Option SepTree
  | 0, _ => none
  | fuel + 1, root => do
    let (node, nodes) ← sepChain ch (fuel + 1) root (.consecutive root (root + 1))
    let c ← ch[node]?
    let cells := match c with
      | .many l => l
      | _ => []
    let children ← cells.mapM (newSubtree ch fuel)
    return .mk nodes children (nodes.len + (children.map SepTree.num).sum)

/-- `SeparatorTree::new` (`separator_decomposition.rs:113-145`) -/
def SepTree.new (elimTree : List (Option Nat)) : Option SepTree := do
  let (ch, roots) ← collectChildren 0 elimTree (List.replicate elimTree.length .none, [])
  let children ← roots.mapM (newSubtree ch elimTree.length)
  return .mk (.consecutive 0 0) children ((children.map SepTree.num).sum)

/-! ### Validation -/

/-- `u32` subtraction; underflow panics. -/
def sub32 (a b : Nat) : Option Nat := if b ≤ a then some (a - b) else none

/-- The loop over the children in `validate_for_parallelization` (`separator_decomposition.rs:97-104`). -/
def checkChildren : Nat → List SepTree → Option Unit
  | _, [] => some ()
  | start, t :: ts => do
    let h ← t.nodes.highest
    let s ← sub32 (h + 1) t.num
    if start = s then checkChildren (start + t.num) ts else none

/-- The loop over `windows(2)` (`separator_decomposition.rs:106-108`). -/
def checkSizes : List SepTree → Bool
  | t :: u :: ts => decide (u.num ≤ t.num) && checkSizes (u :: ts)
  | _ => true

/-- `validate_for_parallelization` (`separator_decomposition.rs:90-112`); `some ()` = no panic. The argument of `unwrap_or` is
evaluated in every case. -/
def validate : SepTree → Option Unit
  | .mk s cs k => do
    if !s.isConsecutive then none
    let dflt ← sub32 k 1
    let start ← sub32 (s.highest.getD dflt + 1) k
    checkChildren start cs
    if !checkSizes cs then none
    all cs
where all : List SepTree → Option Unit
  | [] => some ()
  | t :: ts => do
    validate t
    all ts

/-! ### Parallel customization -/

/-- What a call of `customize_tree` does: the calls for the cells, in parallel with each other; then the nodes `a..b`, in this
order, in one thread, with access to the edges `lo..hi` only. -/
inductive Task where
  | mk (subs : List Task) (a b lo hi : Nat)

/-- `customize_tree` (`parallelization.rs:166-233`) for the tree at node offset `off` with the slice `lo..hi` of the edges;
`thr` is `n / (32 * rayon::current_num_threads())`. The offset of the edges is looked up in `first_out` (l.168): it has to be
the start of the slice. A small cell for which no thread is spawned (l.210-211) is treated like the others: running it in place
is one of the possible schedules. -/
def plan (c : Cch) (thr : Nat) : SepTree → Nat → Nat → Nat → Option Task
  | .mk _ cs k, off, lo, hi => do
    let base ← c.firstOut[off]?
    if base ≠ lo then none
    if k < thr then return .mk [] off (off + k) lo hi
    else do
      let (subs, subOff) ← all cs off lo hi
      return .mk subs subOff (off + k) lo hi
where
  /-- the loop over the children (l.193-218): `split_at_mut` cuts off the edges of the child -/
  all : List SepTree → Nat → Nat → Nat → Option (List Task × Nat)
  | [], off, _, _ => some ([], off)
  | t :: ts, off, lo, hi => do
    let e ← c.firstOut[off + t.num]?
    if e < lo ∨ hi < e then none
    let task ← plan c thr t off lo e
    let (r, o) ← all ts (off + t.num) e hi
    return (task :: r, o)

/-- A step: one node is customized by a task that has access to the edges `lo..hi`. -/
structure Step where
  node : Nat
  lo : Nat
  hi : Nat
deriving DecidableEq, Repr

/-- `L` is an interleaving of two sequences. -/
inductive Interleave {α : Type} : List α → List α → List α → Prop
  | nil : Interleave [] [] []
  | left {x : α} {l r L : List α} : Interleave l r L → Interleave (x :: l) r (x :: L)
  | right {x : α} {l r L : List α} : Interleave l r L → Interleave l (x :: r) (x :: L)

mutual
/-- The possible orders in which the steps of a task happen: `rayon::scope` waits for all cells, whose steps may be interleaved
in any way; then comes the rest. -/
inductive Task.Runs : Task → List Step → Prop
  | mk {subs : List Task} {a b lo hi : Nat} {L : List Step} : Task.RunsAll subs L →
      Task.Runs (.mk subs a b lo hi) (L ++ (rangeList a b).map (fun v => ⟨v, lo, hi⟩))
/-- interleavings of several tasks -/
inductive Task.RunsAll : List Task → List Step → Prop
  | nil : Task.RunsAll [] []
  | cons {t : Task} {ts : List Task} {L1 L2 L : List Step} : Task.Runs t L1 → Task.RunsAll ts L2 → Interleave L1 L2 L → Task.RunsAll (t :: ts) L
end

/-- The accesses of one step stay in its slice (`customization.rs:149-152, 165-170, 212-216`): otherwise the subtraction of the
offset or the indexing panics. -/
def inSlice (c : Cch) (s : Step) : Option Unit := do
  let (a, b) ← c.topo.range s.node
  if a < s.lo ∨ s.hi < b then none
  let lows ← c.inverted.linkIter s.node
  lows.foldlM (fun _ l => do
    if l.2 < s.lo ∨ s.hi ≤ l.2 then none
    let (a, b) ← c.topo.range l.1
    if a < s.lo ∨ s.hi < b then none) ()

/-- Steps executed by threads with their own workspaces (`customization.rs:142-146`). A slice with an offset is a part of the
global arrays, so `custNode` works on these. -/
def runSteps (c : Cch) : List (Nat × Step) → Weights → (Nat → WS × WS) → Option Weights
  | [], w, _ => some w
  | (thread, s) :: S, w, ws => do
    inSlice c s
    let r ← custNode c s.node (ws thread) w
    runSteps c S r.1 (fupd ws thread r.2)

/-- `customize` (`customization.rs:21-35, 225-245`) without the feature `cch-disable-par`, for one order of the steps. -/
def customizePar (c : Cch) (metric : FOGraph) (S : List (Nat × Step)) : Option Weights := do
  let w ← initWeights c metric
  runSteps c S w (fun _ => freshWS c.numNodes)

/-! ### Orders -/

/-- `reorder_children_by_size` (`reorder.rs:49-55`); `srt` is `sort_unstable_by_key(|c| c.num_nodes)`. The code sorts before it
descends. As the keys do not change, both orders are possible results of the unstable sort. -/
def sortChildren (srt : List SepTree → List SepTree) : SepTree → SepTree
  | .mk s cs k => .mk s (srt (all cs)) k
where all : List SepTree → List SepTree
  | [] => []
  | t :: ts => sortChildren srt t :: all ts

/-- `for rank in &mut order { *rank = cch_order.node(*rank) }; order.reverse(); NodeOrder::from_node_order(order)` (`reorder.rs:85-90`) -/
def orderOfRanks (order : NodeOrder) (ranks : List Nat) : Option NodeOrder := do
  let l ← ranks.mapM order.node
  NodeOrder.fromNodeOrder l.reverse

/-- `reorder_for_seperator_based_customization` (`reorder.rs:80-91`) -/
def reorderForCustomization (srt : List SepTree → List SepTree) (order : NodeOrder) (t : SepTree) : Option NodeOrder :=
  orderOfRanks order (sortChildren srt t).toList

/-- The loop of `reorder_bfs` (`reorder.rs:96-104`). -/
def bfsLoop : Nat → List SepTree → List Nat → Option (List Nat)
  | _, [], acc => some acc
  | 0, _ :: _, _ => none
  | fuel + 1, t :: queue, acc => bfsLoop fuel (queue ++ t.children) (acc ++ t.nodes.toList)

/-- `reorder_bfs` (`reorder.rs:93-112`). The number of separators is at most the number of nodes plus one. -/
def reorderBfs (order : NodeOrder) (t : SepTree) : Option NodeOrder := do
  let ranks ← bfsLoop (t.num + 1) [t] []
  orderOfRanks order ranks

/-- `ContractedGraph::elimination_tree` (`contraction.rs:229-231`) -/
def contractedTree (nodes : List (List Nat)) : List (Option Nat) := nodes.map List.head?

/-- `CCH::fix_order_and_build` (`mod.rs:64-71`) -/
def fixOrderAndBuild (srt : List SepTree → List SepTree) (orig : FOGraph) (order : NodeOrder) : Option Cch := do
  let nodes ← contractionGraph orig.numNodes order (fun v => heads orig v)
  let nodes ← contractNodes nodes
  let t ← SepTree.new (contractedTree nodes)
  let order' ← reorderForCustomization srt order t
  build orig order'

end CCH
end Verif
