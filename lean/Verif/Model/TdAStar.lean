import Verif.Model.TopoDijkstra
/-
Model of the time-dependent A* search: `trait TDPotential` and its simple implementations (`engine/src/algo/td_astar.rs:13-79`), the closures
of `next_step_with_td_potential` (`dijkstra/gen_topo_dijkstra.rs`), and `SkipLowDegServer` of `ch_potentials/td_query.rs:356-443`.

Not modelled: the inspect callback, reports and counters.
-/
namespace Verif
namespace TdAStar
variable {α β σ : Type}

/-- `trait TDPotential` (`td_astar.rs:13-17`): `init s source target departure`, `get s node t`; `none` is a panic. -/
structure TDPot (σ : Type) where
  init : σ → Nat → Nat → Nat → Option σ
  get : σ → Nat → Option Nat → Option (σ × Option Nat)

/-- `impl<T: Potential> TDPotential for T` (`td_astar.rs:19-26`) -/
def ofPotential (P : Potential σ) : TDPot σ where
  init s _ target _ := P.init s target
  get s v _ := P.get s v

/-- `TDPotentialForPermutated` (`td_astar.rs:28-52`) -/
def permuted (order : NodeOrder) (P : TDPot σ) : TDPot σ where
  init s source target departure := do
    let source ← order.node source
    let target ← order.node target
    P.init s source target departure
  get s v t := do
    let v ← order.node v
    P.get s v t

/-- `TDRecyclingPotential` (`td_astar.rs:54-79`): the state includes the last query. -/
def recycling (P : TDPot σ) : TDPot (σ × Option (Nat × Nat × Nat)) where
  init s source target departure :=
    if s.2 ≠ some (source, target, departure) then do
      let c ← P.init s.1 source target departure
      return (c, some (source, target, departure))
    else some s
  get s v t := do
    let r ← P.get s.1 v t
    return ((r.1, s.2), r.2)

/-- the closures of `next_step_with_td_potential` (`gen_topo_dijkstra.rs:93-100`); the addition is that of l.212 -/
def closures (P : TDPot σ) : Topo.Closures σ where
  imp s _ _ := some (s, true)
  key s v label := do
    let (s, p) ← P.get s v (some label)
    match p with
    | none => return (s, none)
    | some p =>
      let key ← add32 p label
      return (s, some key)

/-- The loop of `distance_manually_initialized` (`td_query.rs:415-431`). With potentials that depend on the time nodes may be settled several
times, hence the number of rounds is a parameter; `none` also if it does not suffice. -/
def searchLoop (n : Nat) (sk : Topo.Skip) (G : Topo.TGraph α) (ops : DOps α β) (P : TDPot σ) (to targetPot cap : Nat) :
    Nat → DData β → σ → Option (DData β × σ)
  | 0, _, _ => none
  | fuel + 1, d, s => do
    let (o, d, s) ← Topo.settleNext n sk G ops (closures P) d s
    match o with
    | none => return (d, s)
    | some _ =>
      if ← Topo.mayStop d to targetPot cap then return (d, s)
      else searchLoop n sk G ops P to targetPot cap fuel d s

/-- `distance_manually_initialized` (`td_query.rs:402-443`). `dist - departure` cannot underflow: labels are at least the departure (theorem). -/
def distanceManually (fuel n : Nat) (sk : Topo.Skip) (G : Topo.TGraph α) (ops : DOps α β) (P : TDPot σ) (d : DData β) (s : σ)
    (source to cap : Nat) : Option (Option Nat × DData β × σ) := do
  let departure ← d.dist.get source
  let (s, targetPot) ← P.get s to none
  match targetPot with
  | none => return (none, d, s)
  | some targetPot =>
    let (d, s) ← searchLoop n sk G ops P to targetPot cap fuel d s
    let dist ← d.dist.get to
    return (if dist < INFINITY then some (dist - departure) else none, d, s)

/-- `SkipLowDegServer::distance` (`td_query.rs:391-400`) and `distance_with_cap` (l.383-389) -/
def distance (fuel n : Nat) (sk : Topo.Skip) (G : Topo.TGraph α) (ops : DOps α β) (P : TDPot σ) (d : DData β) (s : σ)
    (source departure to cap : Nat) : Option (Option Nat × DData β × σ) := do
  let d ← d.init source departure
  let s ← P.init s source to departure
  distanceManually fuel n sk G ops P d s source to cap

/-- a sequence of queries (source, departure, target) on one server; `cap` is `INFINITY` as in all callers -/
def queries (fuel n : Nat) (sk : Topo.Skip) (G : Topo.TGraph α) (ops : DOps α β) (P : TDPot σ) :
    DData β → σ → List (Nat × Nat × Nat) → Option (List (Option Nat) × DData β × σ)
  | d, s, [] => some ([], d, s)
  | d, s, (source, departure, to) :: qs => do
    let (r, d, s) ← distance fuel n sk G ops P d s source departure to INFINITY
    let (rs, d, s) ← queries fuel n sk G ops P d s qs
    return (r :: rs, d, s)

end TdAStar
end Verif
