import Verif.Model.FlTdDijkstra
/- Model of the constructor of the time-dependent graphs of CATCHUp (`floating_time_dependent/graph.rs`), in exact arithmetic. -/
namespace Verif.FlTd
open Spec Fl

/-- from ms to s (`floating_time_dependent/graph.rs:65-69`) -/
def toPoint (x : Nat × Nat) : Pt := ⟨(x.1 : Rat) / 1000, (x.2 : Rat) / 1000⟩

/-- the points (`floating_time_dependent/graph.rs:61-70`) -/
def points (dt tt : List Nat) : List Pt := (dt.zip tt).map toPoint

/-- `Graph::new` (`floating_time_dependent/graph.rs:23-79`). Up to l.59 the code is the same as the whole of `time_dependent::Graph::new`
(`time_dependent/graph.rs:21-65`), which is modelled by `TD.Graph.new`. -/
def Graph.new (firstOut head firstIpp dt tt : List Nat) : Option Graph := do
  let g ← TD.Graph.new firstOut head firstIpp dt tt
  return ⟨g.firstOut, g.head, g.firstIpp, points g.dt g.tt⟩

/-- `get_path_with_times` after its first node (`floating_time_dependent/graph.rs:129-132`) -/
def timesLoop (head : List Nat) (ev : Nat → Rat → Option Rat) : List Nat → Rat → Option (List (Nat × Rat))
  | [], _ => some []
  | e :: es, t => do
    let x ← ev e t
    let v ← head[e]?
    let rest ← timesLoop head ev es (t + x)
    return (v, t + x) :: rest

/-- `get_path_with_times` (`floating_time_dependent/graph.rs:126-134`); `tail`: `link_id_to_tail`, see C48 -/
def pathWithTimes (tail : Nat → Option Nat) (bs : Search) (eps : Rat) (g : Graph) (dep : Rat) (es : List Nat) : Option (List (Nat × Rat)) := do
  let e ← es[0]?
  let u ← tail e
  let rest ← timesLoop g.head (g.time bs eps) es dep
  return (u, dep) :: rest

end Verif.FlTd
