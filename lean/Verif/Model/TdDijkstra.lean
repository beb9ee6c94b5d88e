import Verif.Model.Plf
import Verif.Model.Dijkstra
/- Model of the time-dependent graphs (`time_dependent/graph.rs`) and of Dijkstra on them (`dijkstra/query/td_dijkstra.rs`). -/
namespace Verif
open Spec (Lookup PERIOD)

namespace TD

/-- `time_dependent::Graph` (`time_dependent/graph.rs:11-17`) -/
structure Graph where
  firstOut : List Nat
  head : List Nat
  firstIpp : List Nat
  dt : List Nat
  tt : List Nat
deriving DecidableEq, Repr

/-- `travel_time_function` (`time_dependent/graph.rs:70-76`) -/
def Graph.ttf (g : Graph) (e : Nat) : Option Plf.Fn := do
  let a ← g.firstIpp[e]?
  let b ← g.firstIpp[e + 1]?
  let dt ← slice g.dt a b
  let tt ← slice g.tt a b
  return ⟨dt, tt⟩

/-- `Graph::travel_time_function(e).eval(t)` -/
def Graph.eval (bs : List Nat → Nat → Lookup) (g : Graph) (e t : Nat) : Option Nat := do
  let f ← g.ttf e
  Plf.eval bs f t

/-- State of the loop of `Graph::new` (`time_dependent/graph.rs:28-32`): new entries of `first_ipp_of_arc`, new break points, number
of break points added so far. -/
structure NewState where
  first : List Nat
  dt : List Nat
  tt : List Nat
  added : Nat

/-- One round of the loop of `Graph::new` (`time_dependent/graph.rs:34-58`) -/
def newStep (firstIpp dt tt : List Nat) (st : NewState) (i : Nat) : Option NewState := do
  let a ← firstIpp[i]?
  let b ← firstIpp[i + 1]?
  if a = b then none
  else
    let f ← add32 a st.added
    let fdt ← slice dt a b
    let ftt ← slice tt a b
    let g ← Plf.normalize ⟨fdt, ftt⟩
    let added ← add32 st.added (g.dt.length - fdt.length)
    return ⟨st.first ++ [f], st.dt ++ g.dt, st.tt ++ g.tt, added⟩

/-- `Graph::new` (`time_dependent/graph.rs:21-66`). The entries of `first_ipp_of_arc` are changed in place, each after its last use
as the end of the range of the arc before, so that they can be collected in a new list. -/
def Graph.new (firstOut head firstIpp dt tt : List Nat) : Option Graph := do
  let st ← (List.range head.length).foldlM (newStep firstIpp dt tt) ⟨[], [], [], 0⟩
  let l ← firstIpp[head.length]?
  let l ← add32 l st.added
  return ⟨firstOut, head, st.first ++ [l], st.dt, st.tt⟩

/-- `LinkIterable<(NodeIdT, EdgeIdT)>::link_iter` (`time_dependent/graph.rs:199-202`), shared by the live graphs (l.337-343, l.530-540) -/
def links (firstOut head : List Nat) (v : Nat) : Option (List (Nat × Nat)) := do
  let a ← firstOut[v]?
  let b ← firstOut[v + 1]?
  let hs ← slice head a b
  return hs.zip ((List.range (b - a)).map (· + a))

/-- `LiveTDGraph` (`time_dependent/graph.rs:270-275`); live values are `InRangeOption`s, see C01 -/
structure LiveGraph where
  graph : Graph
  soon : Nat
  live : List (Option Nat)

/-- `LiveTDGraph::eval` (`time_dependent/graph.rs:284-300`) -/
def LiveGraph.eval (bs : List Nat → Nat → Lookup) (g : LiveGraph) (e t : Nat) : Option Nat := do
  let f ← g.graph.ttf e
  let l ← g.live[e]?
  Plf.evalLive bs f g.soon l t

/-- `PessimisticLiveTDGraph` (`time_dependent/graph.rs:389-393`) -/
structure PessGraph where
  graph : Graph
  live : List (Option (Nat × Nat))

/-- `PessimisticLiveTDGraph::eval` (`time_dependent/graph.rs:401-415`) -/
def PessGraph.eval (bs : List Nat → Nat → Lookup) (g : PessGraph) (e t : Nat) : Option Nat := do
  let f ← g.graph.ttf e
  let l ← g.live[e]?
  Plf.evalPess bs f l t

/-- `TDDijkstraOps`, `LiveTDDijkstraOps` and `PessimisticLiveTDDijkstraOps` (`dijkstra/query/td_dijkstra.rs`): they differ in the
evaluation of an arc, `ev`. -/
def ops (ev : Nat → Nat → Option Nat) : DOps (Nat × Nat) Unit where
  head := Prod.fst
  link label l := do
    let d ← ev l.2 label
    add32 label d
  predLink _ := ()

/-- `Server::distance` (`dijkstra/query/dijkstra.rs:46-70`) for a `TDQuery` on one of these graphs, with a potential -/
def distance {σ : Type} (firstOut head : List Nat) (ev : Nat → Nat → Option Nat) (pot : σ → Nat → Option (σ × Option Nat))
    (d : DData Unit) (c : σ) (s τ t : Nat) : Option (Option Nat × DData Unit × σ) :=
  DData.distance (firstOut.length - 1) (links firstOut head) (ops ev) pot d c s τ t

/-- a sequence of queries (source, departure, target) on one server, without potential -/
def queries (firstOut head : List Nat) (ev : Nat → Nat → Option Nat) :
    DData Unit → List (Nat × Nat × Nat) → Option (List (Option Nat) × DData Unit)
  | d, [] => some ([], d)
  | d, (s, τ, t) :: qs => do
    let (r, d, _) ← distance firstOut head ev DData.zeroPot d () s τ t
    let (rs, d) ← queries firstOut head ev d qs
    return (r :: rs, d)

end TD
end Verif
