import Verif.Model.Catchup
import Verif.Model.TdDijkstra
/- Model of Dijkstra on the time-dependent graphs of CATCHUp (`dijkstra/query/floating_td_dijkstra.rs`, `dijkstra/generic_dijkstra.rs`,
`floating_time_dependent/graph.rs`), in exact arithmetic. -/
namespace Verif.FlTd
open Spec Fl
open Catchup (INF least qset qdel)

/-- `floating_time_dependent::Graph` (`floating_time_dependent/graph.rs:12-18`) -/
structure Graph where
  firstOut : List Nat
  head : List Nat
  firstIpp : List Nat
  ipps : List Pt

/-- `num_nodes` (`floating_time_dependent/graph.rs:201-203`) -/
def Graph.n (g : Graph) : Nat := g.firstOut.length - 1

/-- `travel_time_function` (`floating_time_dependent/graph.rs:82-85`) -/
def Graph.ttf (g : Graph) (e : Nat) : Option (List Pt) := do
  let a ← g.firstIpp[e]?
  let b ← g.firstIpp[e + 1]?
  slice g.ipps a b

/-- `travel_time_function(e).evaluate(t)`; `bs`: the binary search, `eps`: the tolerance of `fuzzy_eq` -/
def Graph.time (bs : Search) (eps : Rat) (g : Graph) (e : Nat) (t : Rat) : Option Rat := do
  let f ← g.ttf e
  evaluate bs eps f t

/-- State of a search: `distances`, `predecessors`, `queue` of `DijkstraData<Timestamp, ()>` (`dijkstra.rs:80-99`). The arrays have `n`
entries. -/
structure State where
  dist : Nat → Rat
  par : Nat → Nat
  q : List (Nat × Rat)

/-- `DijkstraData::new` (`dijkstra.rs:92-101`): the predecessors point to no node -/
def State.new (n : Nat) : State := ⟨fun _ => INF, fun _ => n, []⟩

/-- `initialize`, `add_start_node` (`generic_dijkstra.rs:55-70`); predecessors are not reset -/
def begin (n : Nat) (s : State) (src : Nat) (dep : Rat) : Option State :=
  if src < n then some ⟨fupd (fun _ => INF) src dep, fupd s.par src src, [(src, dep)]⟩ else none

/-- The loop over the links of a node (`generic_dijkstra.rs:116-140`) with `FlTDDijkstraOps` (`floating_td_dijkstra.rs:103-114`). `ev e t`:
the travel time of `e` at `t`. -/
def relaxAll (n : Nat) (ev : Nat → Rat → Option Rat) (v : Nat) : List (Nat × Nat) → State → Option State
  | [], s => some s
  | (w, e) :: ls, s => do
    let tt ← ev e (s.dist v)
    let linked := s.dist v + tt
    if w < n then
      if linked < s.dist w then relaxAll n ev v ls ⟨fupd s.dist w linked, fupd s.par w v, qset s.q w linked⟩
      else relaxAll n ev v ls s
    else none

/-- `settle_next_node` (`generic_dijkstra.rs:109-144`): the node and the new state, nothing if the queue is empty -/
def settle (n : Nat) (links : Nat → Option (List (Nat × Nat))) (ev : Nat → Rat → Option Rat) (s : State) : Option (Option (Nat × State)) :=
  match least s.q with
  | none => some none
  | some (v, _) => do
    let ls ← links v
    let s' ← relaxAll n ev v ls { s with q := qdel s.q v }
    return some (v, s')

/-- the loop of `distance` (`floating_td_dijkstra.rs:48-54`): the tentative distance of the target -/
def loop (n : Nat) (links : Nat → Option (List (Nat × Nat))) (ev : Nat → Rat → Option Rat) (t : Nat) : Nat → State → Option (Option Rat × State)
  | 0, _ => none
  | fuel + 1, s =>
    match settle n links ev s with
    | none => none
    | some none => some (none, s)
    | some (some (v, s')) => if v = t then some (some (s'.dist v), s') else loop n links ev t fuel s'

/-- `distance` (`floating_td_dijkstra.rs:43-55`) -/
def distance (bs : Search) (eps : Rat) (g : Graph) (fuel : Nat) (S : State) (src t : Nat) (dep : Rat) : Option (Option Rat × State) := do
  let s ← begin g.n S src dep
  let r ← loop g.n (TD.links g.firstOut g.head) (g.time bs eps) t fuel s
  return (r.1.map (· - dep), r.2)

/-- the loop of `path` (`floating_td_dijkstra.rs:60-64`), from the target back; `acc`: the path so far, reversed already -/
def pathLoop (n : Nat) (s : State) (src : Nat) : Nat → Nat → List (Nat × Rat) → Option (List (Nat × Rat))
  | 0, _, _ => none
  | fuel + 1, x, acc =>
    if x = src then some acc
    else
      let next := s.par x
      if next < n then pathLoop n s src fuel next ((next, s.dist next) :: acc) else none

/-- `path` (`floating_td_dijkstra.rs:57-68`) -/
def path (n : Nat) (s : State) (fuel : Nat) (src t : Nat) : Option (List (Nat × Rat)) :=
  if t < n then pathLoop n s src fuel t [(t, s.dist t)] else none

/-- `usize::trailing_zeros` for numbers below `2 ^ fuel` -/
def trailingZeros : Nat → Nat → Nat
  | 0, _ => 0
  | fuel + 1, i => if i % 2 = 1 then 0 else trailingZeros fuel (i / 2) + 1

/-- the loop of `ranks` (`floating_td_dijkstra.rs:34-40`): the arguments of the calls of `callback`; `i`: number of nodes settled already -/
def ranksLoop (n : Nat) (links : Nat → Option (List (Nat × Nat))) (ev : Nat → Rat → Option Rat) : Nat → Nat → State → Option (List (Nat × Rat × Nat))
  | 0, _, _ => none
  | fuel + 1, i, s =>
    match settle n links ev s with
    | none => none
    | some none => some []
    | some (some (v, s')) => do
      let rest ← ranksLoop n links ev fuel (i + 1) s'
      return if (i + 1) &&& i = 0 then (v, s'.dist v, trailingZeros 64 (i + 1)) :: rest else rest

/-- `ranks` (`floating_td_dijkstra.rs:18-41`) -/
def ranks (bs : Search) (eps : Rat) (g : Graph) (fuel : Nat) (S : State) (src : Nat) (dep : Rat) : Option (List (Nat × Rat × Nat)) := do
  let s ← begin g.n S src dep
  ranksLoop g.n (TD.links g.firstOut g.head) (g.time bs eps) fuel 0 s

end Verif.FlTd
