import Verif.Model.Dijkstra
import Verif.Model.Potential
import Verif.Model.BiDijkstra
/-
Model of `engine/src/algo/dijkstra/gen_topo_dijkstra.rs` and of `SkipLowDegServer` in
`engine/src/algo/ch_potentials/query.rs`.

Not modelled: the edge callback (only used by experiments to count or draw), the inspect callback and the counters of
relaxed arcs and queue pushes.
-/
namespace Verif

/-- `enum SymmetricDeg` (`gen_topo_dijkstra.rs:301-306`) -/
inductive SymDeg
  | lessEqTwo
  | three
  | greaterEqFour
deriving Repr, DecidableEq

namespace Topo
variable {α β σ : Type}

/-- `const SKIP_DEG_2, SKIP_DEG_3` -/
structure Skip where
  deg2 : Bool
  deg3 : Bool
deriving Repr, DecidableEq

/-- The graph of a search: its arcs and `trait SymmetricDegreeGraph` (`gen_topo_dijkstra.rs:308-310`). -/
structure TGraph (α : Type) where
  links : Nat → Option (List α)
  deg : Nat → Option SymDeg

/-- The closures passed to `settle_next_node`: `improve_callback` and `potential`; `key` includes the addition
`p + next_distance.key()` (l.212). They may change their state (`FnMut`); `none` is a panic. -/
structure Closures (σ : Type) where
  imp : σ → Nat → Nat → Option (σ × Bool)
  key : σ → Nat → Nat → Option (σ × Option Nat)

/-- `struct ChainStep` (`gen_topo_dijkstra.rs:274-279`) -/
structure ChainStep (β : Type) where
  prev : Nat × β
  next : Nat
  dist : Nat

/-- the loop of l.163-167: the last edge that does not lead back -/
def lastOther (ops : DOps α β) (prev : Nat) (ls : List α) : Option α :=
  ls.foldl (fun o e => if ops.head e ≠ prev then some e else o) none

/-- the loop of l.185-193: the first and the last of the further edges that do not lead back -/
def twoOthers (ops : DOps α β) (prev : Nat) (ls : List α) : Option α × Option α :=
  ls.foldl (fun o e => if ops.head e ≠ prev then (if o.1.isNone then (some e, o.2) else (o.1, some e)) else o) (none, none)

/-- The local variables of the `while let Some(ChainStep …)` loop. -/
structure Loc (α β : Type) where
  chain : Option (ChainStep β)
  degThree : Option (Nat × α)
  hadDegThree : Bool

/-- What the `match self.graph.symmetric_degree(next_node)` (l.158-199) decides: `next_edge`, `endpoint`. -/
structure Branch (α : Type) where
  nextEdge : Option α
  endpoint : Bool

/-- `ChainStep { … }` for following `edge` from `node` with label `label` (l.134-140, 205-209, 229-239) -/
def follow (ops : DOps α β) (node label : Nat) (edge : α) : Option (ChainStep β) := do
  let dist ← ops.link label edge
  return ⟨(node, ops.predLink edge), ops.head edge, dist⟩

/-- The `match` of l.158-199. `inQueue` is the result of `self.queue.contains_index`, which is only evaluated in the last
case of the condition. -/
def branch (sk : Skip) (G : TGraph α) (ops : DOps α β) (cl : Closures σ) (q : IHeap QState) (prev node dist : Nat)
    (loc : Loc α β) (s : σ) : Option (Branch α × Loc α β × σ) := do
  match ← G.deg node with
  | .lessEqTwo =>
    if !sk.deg2 then return (⟨none, true⟩, loc, s)
    else
      let ls ← G.links node
      return (⟨lastOther ops prev ls, false⟩, loc, s)
  | .three =>
    if !sk.deg3 || loc.hadDegThree then return (⟨none, true⟩, loc, s)
    else if ← q.containsIndex node then return (⟨none, true⟩, loc, s)
    else
      let (s, _) ← cl.imp s node dist
      let ls ← G.links node
      let o := twoOthers ops prev ls
      return (⟨o.1, false⟩, { loc with hadDegThree := true, degThree := (o.2.map (fun e => (node, e))).or loc.degThree }, s)
  | .greaterEqFour => return (⟨none, true⟩, loc, s)

/-- l.210-223: queue an endpoint -/
def enqueue (cl : Closures σ) (q : IHeap QState) (node dist : Nat) (s : σ) : Option (IHeap QState × σ) := do
  let (s, ok) ← cl.imp s node dist
  if ok then
    let (s, key) ← cl.key s node dist
    match key with
    | none => return (q, s)
    | some key =>
      if ← q.containsIndex node then
        let q ← q.decreaseKey ⟨key, node⟩
        return (q, s)
      else
        let q ← q.push ⟨key, node⟩
        return (q, s)
  else return (q, s)

/-- l.203-223: continue the chain or queue the node -/
def advance (ops : DOps α β) (cl : Closures σ) (node dist : Nat) (b : Branch α) (d : DData β) (loc : Loc α β) (s : σ) :
    Option (DData β × Loc α β × σ) :=
  match b.nextEdge with
  | some e => do
    let c ← follow ops node dist e
    return (d, { loc with chain := some c }, s)
  | none =>
    if b.endpoint then do
      let (q, s) ← enqueue cl d.queue node dist s
      return ({ d with queue := q }, { loc with chain := none }, s)
    else some (d, { loc with chain := none }, s)

/-- l.226-241: at the end of a chain, the second edge of the node of degree three -/
def second (ops : DOps α β) (d : DData β) (loc : Loc α β) : Option (Loc α β) :=
  match loc.chain, loc.degThree with
  | none, some (node, e) => do
    let label ← d.dist.get node
    let c ← follow ops node label e
    return { loc with chain := some c, degThree := none }
  | _, _ => some loc

/-- The body of the `while` loop (l.150-241) for the chain step `c`; `loc.chain` has been taken. -/
def chainBody (sk : Skip) (G : TGraph α) (ops : DOps α β) (cl : Closures σ) (c : ChainStep β) (d : DData β) (loc : Loc α β)
    (s : σ) : Option (DData β × Loc α β × σ) := do
  let old ← d.dist.get c.next
  let dist ← d.dist.modify c.next (fun l => if c.dist < l then c.dist else l)
  let d := { d with dist := dist }
  if c.dist < old then
    let label ← dist.get c.next
    let (b, loc, s) ← branch sk G ops cl d.queue c.prev.1 c.next label { loc with chain := none } s
    let pred ← upd d.pred c.next c.prev
    let (d, loc, s) ← advance ops cl c.next label b { d with pred := pred } loc s
    let loc ← second ops d loc
    return (d, loc, s)
  else
    let loc ← second ops d { loc with chain := none }
    return (d, loc, s)

/-- The `while` loop (l.144-242); `none` also if the fuel does not suffice. -/
def chainLoop (sk : Skip) (G : TGraph α) (ops : DOps α β) (cl : Closures σ) :
    Nat → DData β → Loc α β → σ → Option (DData β × σ)
  | 0, _, _, _ => none
  | fuel + 1, d, loc, s =>
    match loc.chain with
    | none => some (d, s)
    | some c => do
      let (d, loc, s) ← chainBody sk G ops cl c d loc s
      chainLoop sk G ops cl fuel d loc s

/-- The body of the loop over the edges of the popped node (l.132-243). A chain visits every node at most once, and there
are at most two chains per edge (theorem), so `2 * n + 4` rounds are enough. -/
def relaxEdge (n : Nat) (sk : Skip) (G : TGraph α) (ops : DOps α β) (cl : Closures σ) (node : Nat) (st : DData β × σ)
    (e : α) : Option (DData β × σ) := do
  let label ← st.1.dist.get node
  let c ← follow ops node label e
  chainLoop sk G ops cl (2 * n + 4) st.1 ⟨some c, none, false⟩ st.2

/-- `TopoDijkstraRun::settle_next_node` (`gen_topo_dijkstra.rs:124-247`) -/
def settleNext (n : Nat) (sk : Skip) (G : TGraph α) (ops : DOps α β) (cl : Closures σ) (d : DData β) (s : σ) :
    Option (Option Nat × DData β × σ) := do
  let (o, queue) ← d.queue.pop
  match o with
  | none => return (none, { d with queue := queue }, s)
  | some st =>
    let ls ← G.links st.node
    let (d, s) ← ls.foldlM (relaxEdge n sk G ops cl st.node) ({ d with queue := queue }, s)
    return (some st.node, d, s)

/-- the closures of `next_step_with_potential` (l.84-91) -/
def potClosures (P : Potential σ) : Closures σ where
  imp s _ _ := some (s, true)
  key s v label := do
    let (s, p) ← P.get s v
    match p with
    | none => return (s, none)
    | some p =>
      let key ← add32 p label
      return (s, some key)

/-- the closures of `next_step` (l.79-83): the potential is `Neutral` -/
def plainClosures : Closures Unit where
  imp s _ _ := some (s, true)
  key s _ label := some (s, some label)

/-- `continue_query` (l.40-52) with `reinit_queue` (l.71-77): the labels are kept -/
def continueQuery (d : DData β) (node : Nat) : Option (DData β) := do
  let queue ← d.queue.clear
  let key ← d.dist.get node
  let queue ← queue.push ⟨key, node⟩
  return { d with queue := queue }

/-! ### `SkipLowDegServer` (`ch_potentials/query.rs:375-520`) -/

/-- The condition of l.437-442: the search may stop. -/
def mayStop (d : DData β) (to targetPot cap : Nat) : Option Bool :=
  match d.peekKey with
  | none => some false
  | some k => do
    let l ← d.dist.get to
    let lim ← add32 l targetPot
    return decide (k ≥ lim) || decide (k > cap)

/-- The loop of `distance_manually_initialized` (l.432-445) -/
def searchLoop (n : Nat) (sk : Skip) (G : TGraph α) (ops : DOps α β) (P : Potential σ) (to targetPot cap : Nat) :
    Nat → DData β → σ → Option (DData β × σ)
  | 0, _, _ => none
  | fuel + 1, d, s => do
    let (o, d, s) ← settleNext n sk G ops (potClosures P) d s
    match o with
    | none => return (d, s)
    | some _ =>
      if ← mayStop d to targetPot cap then return (d, s)
      else searchLoop n sk G ops P to targetPot cap fuel d s

/-- `distance_manually_initialized` (l.419-458). `dist - departure` cannot underflow in release builds without wrapping:
labels are at least the departure (theorem), natural subtraction is exact. -/
def distanceManually (n : Nat) (sk : Skip) (G : TGraph α) (ops : DOps α β) (P : Potential σ) (d : DData β) (s : σ)
    (source to cap : Nat) : Option (Option Nat × DData β × σ) := do
  let departure ← d.dist.get source
  let (s, targetPot) ← P.get s to
  match targetPot with
  | none => return (none, d, s)
  | some targetPot =>
    let (d, s) ← searchLoop n sk G ops P to targetPot cap (n + 2) d s
    let dist ← d.dist.get to
    return (if dist < INFINITY then some (dist - departure) else none, d, s)

/-- `SkipLowDegServer::distance` (l.408-417) and `distance_with_cap` (l.400-406); `departure` is 0 for `Query` -/
def distance (n : Nat) (sk : Skip) (G : TGraph α) (ops : DOps α β) (P : Potential σ) (d : DData β) (s : σ)
    (source departure to cap : Nat) : Option (Option Nat × DData β × σ) := do
  let d ← d.init source departure
  let s ← P.init s to
  distanceManually n sk G ops P d s source to cap

/-- `while let Some(_) = dijkstra.next_step() {}` (l.495) -/
def exhaust (n : Nat) (sk : Skip) (G : TGraph α) (ops : DOps α β) : Nat → DData β → Option (DData β)
  | 0, _ => none
  | fuel + 1, d => do
    let (o, d, _) ← settleNext n sk G ops plainClosures d ()
    match o with
    | none => return d
    | some _ => exhaust n sk G ops fuel d

/-- `one_to_all` (l.492-503) -/
def oneToAll (n : Nat) (sk : Skip) (G : TGraph α) (ops : DOps α β) (d : DData β) (source : Nat) : Option (DData β) := do
  let d ← d.init source 0
  exhaust n sk G ops (n + 2) d

end Topo
end Verif
