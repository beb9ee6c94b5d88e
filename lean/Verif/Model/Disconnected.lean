import Verif.Model.GraphOps
import Verif.Model.BitVec
import Verif.Spec.Disconnected
/- Model of the check for disconnected targets (`engine/src/algo/dijkstra/query/mod.rs:11-125`). The graph is only used through `num_nodes`,
`num_arcs` and `link_iter`, so it is given by `n`, `m` and `links` (`none` = panic). -/
namespace Verif
namespace Disc
open Bits

/-- An `UnweightedOwnedGraph` (`first_out_graph.rs:405-412`). -/
structure UGraph where
  firstOut : List Nat
  head : List Nat
deriving DecidableEq, Repr

/-- `link_iter` of an unweighted graph (`first_out_graph.rs:463-477`). -/
def UGraph.heads (g : UGraph) (v : Nat) : Option (List Nat) := do
  let a ← g.firstOut[v]?
  let b ← g.firstOut[v + 1]?
  slice g.head a b

/-- `<UnweightedOwnedGraph as BuildReversed>::reversed` (`first_out_graph.rs:491-526`): the same loops as for weighted graphs, without weights. -/
def reversed (n m : Nat) (links : Nat → Option (List Nat)) : Option UGraph := do
  let st ← GraphOps.revBuild () n m (fun v => (links v).map (List.map (fun h => (h, ()))))
  return ⟨st.firstOut, st.head⟩

/-- What the search changes: the bit vector, and the variables of the closure (`query/mod.rs:48-50`). -/
structure DState where
  visited : FastClear
  counter : Nat
  reachable : Bool
deriving DecidableEq, Repr

/-- The closure `visit` (`query/mod.rs:51-63`): the result tells whether to turn back. -/
def visit (source node : Nat) (st : DState) : Bool × DState :=
  if node = source then (true, { st with reachable := true })
  else if st.counter < 200 then (false, { st with counter := st.counter + 1 })
  else (true, { st with reachable := true })

/-- `dfs` (`query/mod.rs:34-45`); the first argument is the number of stack frames left, `none` also stands for a stack overflow. -/
def dfs (g : UGraph) (source : Nat) : Nat → Nat → DState → Option DState
  | 0, _, _ => none
  | depth + 1, node, st => do
    let seen ← st.visited.get node
    if seen then return st
    else do
      let visited ← st.visited.set node
      let r := visit source node { st with visited := visited }
      if r.1 then return r.2
      else do
        let hs ← g.heads node
        hs.foldlM (fun st h => dfs g source depth h st) r.2

/-- `check_target` (`query/mod.rs:47-65`) with a stack for `depth` calls. -/
def checkTarget (g : UGraph) (depth : Nat) (visited : FastClear) (source target : Nat) : Option (Bool × FastClear) := do
  let visited ← visited.clear
  let st ← dfs g source depth target ⟨visited, 0, false⟩
  return (st.reachable, st.visited)

/-- `struct CatchDisconnectedTarget` (`query/mod.rs:16-20`) without the server. -/
structure Catch where
  reversed : UGraph
  visited : FastClear
deriving DecidableEq, Repr

/-- `new` (`query/mod.rs:23-32`) -/
def Catch.new (n m : Nat) (links : Nat → Option (List Nat)) : Option Catch := do
  let r ← Disc.reversed n m links
  return ⟨r, FastClear.new n⟩

/-- Calls of `check_target` one after the other. -/
def Catch.checks (depth : Nat) : Catch → List (Nat × Nat) → Option (List Bool)
  | _, [] => some []
  | c, q :: qs => do
    let r ← checkTarget c.reversed depth c.visited q.1 q.2
    let rest ← Catch.checks depth { c with visited := r.2 } qs
    return r.1 :: rest

/-- `query` and `td_query` (`query/mod.rs:67-103`): `ends` gives source and target of a query. If the target is found to be disconnected, the
server is not asked. -/
def wrap {S Q A P : Type} (ends : Q → Nat × Nat) (depth : Nat) (s : Spec.AnyServer S Q A P) : Spec.AnyServer (S × Catch) Q A (Option P) where
  ask st q := do
    let r ← checkTarget st.2.reversed depth st.2.visited (ends q).1 (ends q).2
    let c := { st.2 with visited := r.2 }
    if r.1 then do
      let a ← s.ask st.1 q
      return ((a.1.1, some a.1.2), (a.2, c))
    else return ((none, none), (st.1, c))

/-- `reconstruct_node_path` of `Option<P>` (`query/mod.rs:105-117`); the same for edge paths. -/
def pathOf {P N : Type} (unpack : P → Option (List N)) : Option P → Option (List N)
  | none => some []
  | some p => unpack p

end Disc
end Verif
