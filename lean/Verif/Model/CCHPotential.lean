import Verif.Model.CCH
import Verif.Model.Potential
/- Model of `CCHPotential` and `CHPotential` (`engine/src/algo/ch_potentials.rs`). Statistics are omitted. -/
namespace Verif
namespace CCH

/-! ### The elimination tree walk on a `TimestampedVector`, without parents (`ForgetParentInfo`) -/

/-- The debug assertion of `query_with_resetted` (`stepped_elimination_tree.rs:59-65`). -/
def tsCheckReset (tree : List (Option Nat)) (dist : TSVec Nat) : Nat → Option Nat → Option Unit
  | _, none => some ()
  | 0, some _ => none
  | fuel + 1, some v => do
    let d ← dist.get v
    if d = INFINITY then
      let p ← tree[v]?
      tsCheckReset tree dist fuel p
    else none

/-- One upward edge in `settle_next_node` (`stepped_elimination_tree.rs:90-98`). -/
def tsRelax (distance : Nat) (dist : TSVec Nat) (l : Link × Nat) : Option (TSVec Nat) := do
  let next ← add32 distance l.1.weight
  let old ← dist.get l.1.node
  if next < old then dist.modify l.1.node (fun _ => next) else some dist

/-- The loop `for _ in EliminationTreeWalk` (`stepped_elimination_tree.rs:82-105`): settle until the root has been settled. -/
def tsWalk (g : FOGraph) (tree : List (Option Nat)) : Nat → TSVec Nat → Option Nat → Option (TSVec Nat)
  | _, dist, none => some dist
  | 0, _, some _ => none
  | fuel + 1, dist, some node => do
    let distance ← dist.get node
    let next ← tree[node]?
    let ls ← g.linkIterIds node
    let dist ← ls.foldlM (tsRelax distance) dist
    tsWalk g tree fuel dist next

/-- `EliminationTreeWalk::query` (`stepped_elimination_tree.rs:36-46`, with l.51-79), run to its end. -/
def tsQuery (g : FOGraph) (tree : List (Option Nat)) (dist : TSVec Nat) (src : Nat) : Option (TSVec Nat) := do
  let dist := dist.reset
  tsCheckReset tree dist (tree.length + 1) (some src)
  let dist ← dist.modify src (fun _ => 0)
  tsWalk g tree (tree.length + 1) dist (some src)

/-! ### `CCHPotential` -/

/-- The mutable part of `struct CCHPotential` (`ch_potentials.rs:107-115`). The top of the stack is the head of the list. -/
structure PotState where
  stack : List Nat
  pots : TSVec (Option Nat)
  bwDist : TSVec Nat
deriving DecidableEq, Repr

/-- `new_from_customized` (`ch_potentials.rs:120-133`) -/
def PotState.new (n : Nat) : PotState := ⟨[], TSVec.new none n, TSVec.new INFINITY n⟩

/-- `init_with_cch_rank` (`ch_potentials.rs:145-157`) -/
def potInit (bw : FOGraph) (tree : List (Option Nat)) (s : PotState) (target : Nat) : Option PotState := do
  let pots := s.pots.reset
  let dist ← tsQuery bw tree s.bwDist target
  return ⟨s.stack, pots, dist⟩

/-- The first loop of `potential_with_cch_rank` (`ch_potentials.rs:160-169`): climb to an ancestor with a known potential. -/
def climb (tree : List (Option Nat)) (pots : TSVec (Option Nat)) : Nat → List Nat → Nat → Option (List Nat)
  | 0, _, _ => none
  | fuel + 1, stack, cur => do
    match ← pots.get cur with
    | some _ => return stack
    | none =>
      match ← tree[cur]? with
      | some p => climb tree pots fuel (cur :: stack) p
      | none => return cur :: stack

/-- One edge in the second loop (`ch_potentials.rs:174-176`); `assume_some` of a missing value is `none`. -/
def potRelax (pots : TSVec (Option Nat)) (dist : Nat) (l : Link) : Option Nat := do
  let p ← pots.get l.node
  let p ← p
  let x ← add32 l.weight p
  return min dist x

/-- The second loop of `potential_with_cch_rank` (`ch_potentials.rs:171-179`). -/
def popAll (fw : FOGraph) (bwDist : TSVec Nat) : List Nat → TSVec (Option Nat) → Option (TSVec (Option Nat))
  | [], pots => some pots
  | node :: stack, pots => do
    let dist ← bwDist.get node
    let ls ← fw.linkIter node
    let dist ← ls.foldlM (potRelax pots) dist
    let pots ← pots.modify node (fun _ => some dist)
    popAll fw bwDist stack pots

/-- `potential_with_cch_rank` (`ch_potentials.rs:159-187`) -/
def potGet (fw : FOGraph) (tree : List (Option Nat)) (s : PotState) (node : Nat) : Option (PotState × Option Nat) := do
  let stack ← climb tree s.pots (tree.length + 1) s.stack node
  let pots ← popAll fw s.bwDist stack s.pots
  let dist ← pots.get node
  let dist ← dist
  return (⟨[], pots, s.bwDist⟩, if dist < INFINITY then some dist else none)

/-- `impl Potential for CCHPotential` (`ch_potentials.rs:190-202`) -/
def cchPot (c : Cch) (fw bw : FOGraph) : Potential PotState where
  init s t := do
    let r ← c.order.rank t
    potInit bw c.elimTree s r
  get s v := do
    let r ← c.order.rank v
    potGet fw c.elimTree s r

/-! ### `CHPotential` -/

/-- The mutable part of `struct CHPotential` (`ch_potentials.rs:315-324`). The stack is empty between calls. -/
structure ChPotState where
  pots : TSVec (Option Nat)
  data : DData Unit

/-- `CHPotential::new` (`ch_potentials.rs:327-338`) -/
def ChPotState.new (n : Nat) : ChPotState := ⟨TSVec.new none n, DData.new n ()⟩

/-- One edge of the loop in `potential` (`ch_potentials.rs:373-380`): the smallest value so far and the nodes pushed. -/
def chRelax (pots : TSVec (Option Nat)) (st : Nat × Bool × List Nat) (l : Link) : Option (Nat × Bool × List Nat) := do
  match ← pots.get l.node with
  | some p =>
    let x ← add32 p l.weight
    return (min st.1 x, st.2.1, st.2.2)
  | none => return (st.1, true, l.node :: st.2.2)

/-- One turn of the `while let` loop in `potential` (`ch_potentials.rs:366-386`), for top `node` and the stack including it. -/
def chStep (fw : FOGraph) (bwDist : TSVec Nat) (pots : TSVec (Option Nat)) (node : Nat) (rest : List Nat) :
    Option (TSVec (Option Nat) × List Nat) := do
  match ← pots.get node with
  | some _ => return (pots, rest)
  | none =>
    let dist ← bwDist.get node
    let ls ← fw.linkIter node
    let (dist, missing, stack) ← ls.foldlM (chRelax pots) (dist, false, node :: rest)
    if missing then return (pots, stack)
    else
      let pots ← pots.modify node (fun _ => some dist)
      return (pots, rest)

/-- The `while let` loop, with fuel. -/
def chLoop (fw : FOGraph) (bwDist : TSVec Nat) : Nat → TSVec (Option Nat) → List Nat → Option (TSVec (Option Nat))
  | _, pots, [] => some pots
  | 0, _, _ :: _ => none
  | fuel + 1, pots, node :: rest => do
    let (pots, stack) ← chStep fw bwDist pots node rest
    chLoop fw bwDist fuel pots stack

/-- `potential` (`ch_potentials.rs:357-397`), for a rank. -/
def chPotGet (fuel : Nat) (fw : FOGraph) (s : ChPotState) (node : Nat) : Option (ChPotState × Option Nat) := do
  match ← s.pots.get node with
  | some dist => return (s, if dist < INFINITY then some dist else none)
  | none =>
    let pots ← chLoop fw s.data.dist fuel s.pots [node]
    let dist ← pots.get node
    let dist ← dist
    return (⟨pots, s.data⟩, if dist < INFINITY then some dist else none)

/-- `init` (`ch_potentials.rs:349-355`), for a rank: Dijkstra on the backward graph until the queue is empty. -/
def chPotInit (bw : FOGraph) (s : ChPotState) (t : Nat) : Option ChPotState := do
  let d ← s.data.init t 0
  let (_, d, _) ← DData.searchLoop bw.linkIter defaultOps DData.plainCb bw.numNodes (bw.numNodes + 1) d ()
  return ⟨s.pots.reset, d⟩

/-- `impl Potential for CHPotential` (`ch_potentials.rs:348-398`). The loop of `potential` is bounded by `fuel`. -/
def chPot (fuel : Nat) (order : NodeOrder) (fw bw : FOGraph) : Potential ChPotState where
  init s t := do
    let r ← order.rank t
    chPotInit bw s r
  get s v := do
    let r ← order.rank v
    chPotGet fuel fw s r

end CCH
end Verif
