import Verif.Model.Dijkstra
import Verif.Model.GraphOps
import Verif.Spec.Potential
/- Model of the trait `Potential` and of the wrappers in `engine/src/algo/a_star.rs`, and of `GenQuery::permutate`
(`engine/src/algo/mod.rs`). -/
namespace Verif
open Spec

/-- `trait Potential` (`a_star.rs:4-7`); `none` is a panic. -/
structure Potential (σ : Type) where
  init : σ → Nat → Option σ
  get : σ → Nat → Option (σ × Option Nat)

/-- a history of calls; the answers in order -/
def Potential.run {σ : Type} (P : Potential σ) : σ → List PotCall → Option (List (Option Nat) × σ)
  | s, [] => some ([], s)
  | s, .init t :: cs => do
    let s ← P.init s t
    P.run s cs
  | s, .get v :: cs => do
    let (s, o) ← P.get s v
    let (os, s) ← P.run s cs
    return (o :: os, s)

/-- `PotentialForPermutated` (`a_star.rs:118-138`) -/
def permutatedPot {σ : Type} (P : Potential σ) (o : NodeOrder) : Potential σ where
  init s t := do
    let t ← o.node t
    P.init s t
  get s v := do
    let v ← o.node v
    P.get s v

/-- `RecyclingPotential` (`a_star.rs:78-103`); the state contains the last target. -/
def recyclingPot {σ : Type} (P : Potential σ) : Potential (σ × Option Nat) where
  init s t :=
    if s.2 ≠ some t then do
      let s ← P.init s.1 t
      return (s, some t)
    else some s
  get s v := do
    let (s', o) ← P.get s.1 v
    return ((s', s.2), o)

/-- `TurnExpandedPotential::new` (`a_star.rs:15-24`): the tail of every arc -/
def turnTails (g : FOGraph) : Option (List Nat) := do
  let degs ← (List.range g.numNodes).mapM g.degree
  return (List.zipWith List.replicate degs (List.range g.numNodes)).flatten

/-- `TurnExpandedPotential` (`a_star.rs:30-37`) -/
def turnPot {σ : Type} (P : Potential σ) (tail : List Nat) : Potential σ where
  init s t := do
    let t ← tail[t]?
    P.init s t
  get s v := do
    let v ← tail[v]?
    P.get s v

/-- `ZeroPotential` (`a_star.rs:105-116`) -/
def zeroPotential : Potential Unit where
  init _ _ := some ()
  get _ _ := some ((), some 0)

/-- `BaselinePotential` (`a_star.rs:39-76`) on the reversed graph `r`. The loop runs until the queue is empty: no node has the
number of nodes as its id. -/
def baselinePot (r : FOGraph) : Potential (DData Unit) where
  init d t := do
    let d ← d.init t 0
    let (_, d, _) ← DData.searchLoop r.linkIter defaultOps DData.plainCb r.numNodes (r.numNodes + 1) d ()
    return d
  get d v := do
    let x ← d.dist.get v
    return (d, if x < INFINITY then some x else none)

/-- `BaselinePotential::new` (`a_star.rs:45-54`): the reversed graph and the data -/
def baselineNew (g : FOGraph) : Option (FOGraph × DData Unit) := do
  let r ← GraphOps.reversed g.numNodes g.numArcs g.linkIter
  return (r, DData.new g.numNodes ())

/-- `struct Query` (`mod.rs:34-37`) -/
structure Query where
  source : Nat
  target : Nat
deriving DecidableEq, Repr

/-- `Query::permutate` (`mod.rs:53-56`); `TDQuery` does the same and keeps the departure. -/
def Query.permutate (q : Query) (o : NodeOrder) : Option Query := do
  let s ← o.rank q.source
  let t ← o.rank q.target
  return ⟨s, t⟩

end Verif
