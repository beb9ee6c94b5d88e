import Verif.Model.Dijkstra
import Verif.Model.GraphOps
/-
Model of `engine/src/algo/dijkstra/query/bidirectional_dijkstra.rs`, the direction choosers of `algo/dijkstra.rs` and the
bidirectional potentials of `algo/a_star.rs`.
-/
namespace Verif
open DData

/-- `trait BidirChooseDir` (`dijkstra.rs:264-273`); `init` is `Default::default()`. -/
structure Chooser (δ : Type) where
  init : δ
  choose : δ → Option Nat → Option Nat → Bool × δ
  mayStop : δ → Bool

/-- `ChooseMinKeyDir` (`dijkstra.rs:275-289`) -/
def minKeyDir : Chooser Unit where
  init := ()
  choose _ fw bw :=
    match fw, bw with
    | some f, some b => (decide (f ≤ b), ())
    | none, some _ => (false, ())
    | _, _ => (true, ())
  mayStop _ := true

/-- `AlternatingDirs` (`dijkstra.rs:291-311`) -/
def alternatingDirs : Chooser Bool where
  init := false
  choose prev fw bw :=
    let prev := !prev
    match fw, bw with
    | some _, some _ => (prev, prev)
    | none, some _ => (false, prev)
    | _, _ => (true, prev)
  mayStop prev := !prev

/-- `trait BiDirPotential` (`a_star.rs:178-240`) after `init`. The methods take `&mut self`, but the values only depend on
the query (simplification: a potential with an internal cache is represented by its values). `none` of `stop` and the
prune functions is a `u32` overflow. -/
structure BiPot where
  fw : Nat → Option Nat
  bw : Nat → Option Nat
  stop : Option Nat → Option Nat → Nat → Option Bool
  pruneF : Nat → Nat → Nat → Nat → Option Bool
  pruneB : Nat → Nat → Nat → Nat → Option Bool

/-- `prune_forward_internal` and `prune_backward_internal` (`a_star.rs:199-233`): `raw` is the raw potential of the own
direction, `other` the potential of the opposite direction. -/
def pruneInternal (improved : Bool) (raw other : Nat → Option Nat) (head dist revMin maxDist : Nat) : Option Bool :=
  if maxDist < INFINITY then do
    let a ← add32 dist ((raw head).getD INFINITY)
    if a ≥ maxDist then return true
    else if improved then
      let b ← add32 dist (revMin - (other head).getD INFINITY)
      return decide (b ≥ maxDist)
    else return false
  else some false

/-- `BiDirZeroPot` (`a_star.rs:242-268`) -/
def zeroBi : BiPot where
  fw _ := some 0
  bw _ := some 0
  stop fw bw stopDist :=
    match fw, bw with
    | some f, some b => do return decide ((← add32 f b) ≥ stopDist)
    | _, _ => some true
  pruneF _ _ _ _ := some false
  pruneB _ _ _ _ := some false

/-- `SymmetricBiDirPotential` (`a_star.rs:345-394`) -/
def symmetricBi (improved : Bool) (pf pb : Nat → Option Nat) : BiPot where
  fw := pf
  bw := pb
  stop fw bw stopDist :=
    let stopF := (fw.map (fun k => decide (k ≥ stopDist))).getD true
    let stopB := (bw.map (fun k => decide (k ≥ stopDist))).getD true
    some ((stopF && stopB) || (decide (stopDist = INFINITY) && (fw.isNone || bw.isNone)))
  pruneF := pruneInternal improved pf pb
  pruneB := pruneInternal improved pb pf

/-- `AveragePotential` (`a_star.rs:270-343`); `i32` arithmetic is exact on the values that occur (simplification: `i32`
overflow is not modelled), `/ 2` truncates towards zero. -/
def averageBi (improved : Bool) (pf pb : Nat → Option Nat) (s t : Nat) : BiPot :=
  let avg (v : Nat) : Option Int := do return Int.tdiv (((← pf v) : Int) - ((← pb v) : Int)) 2
  let fwAdd : Int := (((pb t).getD INFINITY / 2 : Nat) : Int)
  let bwAdd : Int := (((pf s).getD INFINITY / 2 : Nat) : Int)
  let muAdd : Nat := ((avg s).map (fun p => (p + fwAdd).toNat)).getD 0
  { fw := fun v => (avg v).map (fun p => (max (p + fwAdd) 0).toNat)
    bw := fun v => (avg v).map (fun p => (max (bwAdd - p) 0).toNat)
    stop := fun fw bw stopDist =>
      match fw, bw with
      | some f, some b => do
        let l ← add32 f b
        let r ← add32 stopDist muAdd
        return decide (l ≥ r)
      | _, _ => some true
    pruneF := pruneInternal improved pf (fun v => (avg v).map (fun p => (max (bwAdd - p) 0).toNat))
    pruneB := pruneInternal improved pb (fun v => (avg v).map (fun p => (max (p + fwAdd) 0).toNat)) }

/-- smallest key of the queue: `queue().peek().map(|q| q.key)` -/
def DData.peekKey {β : Type} (d : DData β) : Option Nat := d.queue.peek.map QState.key

namespace BiD

/-- The two closures of a step (`bidirectional_dijkstra.rs:71-88`, `98-115`), combined as in `relax`; the state is
(`tentative_distance`, `meeting_node`), `other` the data of the opposite search. -/
def cb (prune : Nat → Nat → Nat → Nat → Option Bool) (pot : Nat → Option Nat) (other : DData Unit) (cap : Nat)
    (st : Nat × Nat) (head dist : Nat) : Option ((Nat × Nat) × Option Nat) := do
  let p ← prune head dist (other.peekKey.getD INFINITY) (min st.1 cap)
  if p then return (st, none)
  else
    let e ← other.dist.get head
    let sum ← add32 dist e
    let st := if sum < st.1 then (sum, head) else st
    match pot head with
    | none => return (st, none)
    | some q =>
      let key ← add32 q dist
      return (st, some key)

/-- What a query leaves behind: result, data of both searches, meeting node. -/
structure Res where
  result : Option Nat
  fd : DData Unit
  bd : DData Unit
  meet : Nat

variable {δ : Type}

/-- The condition of the loop (`bidirectional_dijkstra.rs:63-68`), negated. -/
def stopCheck (pot : BiPot) (ch : Chooser δ) (c : δ) (fd bd : DData Unit) (lim : Nat) : Option Bool :=
  if ch.mayStop c then pot.stop fd.peekKey bd.peekKey lim else some false

/-- The loop of `distance_with_cap` (`bidirectional_dijkstra.rs:62-130`), without the `inspect` callback and the counters.
`none` is a panic, or missing fuel. -/
def loop (pot : BiPot) (ch : Chooser δ) (fl bl : Nat → Option (List Link)) (s t cap : Nat) :
    Nat → δ → DData Unit → DData Unit → Nat × Nat → Option Res
  | 0, _, _, _, _ => none
  | fuel + 1, c, fd, bd, st => do
    let stop ← stopCheck pot ch c fd bd (min st.1 cap)
    if stop then
      -- `match tentative_distance { INFINITY => None, dist => Some(dist) }`
      return ⟨if st.1 = INFINITY then none else some st.1, fd, bd, st.2⟩
    else
      let dir := ch.choose c fd.peekKey bd.peekKey
      if dir.1 then
        let (o, fd, st) ← settleNext fl defaultOps (cb pot.pruneF pot.fw bd cap) fd st
        if o = some t then
          let r ← fd.dist.get t
          return ⟨some r, fd, bd, t⟩
        else loop pot ch fl bl s t cap fuel dir.2 fd bd st
      else
        let (o, bd, st) ← settleNext bl defaultOps (cb pot.pruneB pot.bw fd cap) bd st
        if o = some s then
          let r ← bd.dist.get s
          return ⟨some r, fd, bd, s⟩
        else loop pot ch fl bl s t cap fuel dir.2 fd bd st

/-- `distance_with_cap` (`bidirectional_dijkstra.rs:44-137`). Each step but the last settles a node in one direction, so
`2 n + 3` rounds are enough (theorem). -/
def distanceWithCap (pot : BiPot) (ch : Chooser δ) (n : Nat) (fl bl : Nat → Option (List Link)) (fd bd : DData Unit)
    (meet s t cap : Nat) : Option Res := do
  let fd ← fd.init s 0
  let bd ← bd.init t 0
  loop pot ch fl bl s t cap (2 * n + 3) ch.init fd bd (INFINITY, meet)

/-- `node_path` (`bidirectional_dijkstra.rs:167-185`) -/
def nodePath (r : Res) (s t : Nat) : Option (List Nat) := do
  let p ← nodePathLoop r.fd s (r.fd.pred.length + 2) [r.meet] r.meet
  nodePathLoop r.bd t (r.bd.pred.length + 2) p.reverse r.meet

/-- `Server::new_with_potentials` (`bidirectional_dijkstra.rs:22-36`): the reversed graph and fresh data. -/
structure Server where
  forward : FOGraph
  backward : FOGraph
  fd : DData Unit
  bd : DData Unit
  meet : Nat

def Server.new (g : FOGraph) : Option Server := do
  let r ← GraphOps.reversed g.numNodes g.numArcs g.linkIter
  return ⟨g, r, DData.new g.numNodes (), DData.new g.numNodes (), 0⟩

/-- one query; `pot` is the potential initialised for this query -/
def Server.query (sv : Server) (pot : BiPot) (ch : Chooser δ) (s t cap : Nat) : Option (Option Nat × Server) := do
  let r ← distanceWithCap pot ch sv.forward.numNodes sv.forward.linkIter sv.backward.linkIter sv.fd sv.bd sv.meet s t cap
  return (r.result, { sv with fd := r.fd, bd := r.bd, meet := r.meet })

/-- `node_path` on the server -/
def Server.nodePath (sv : Server) (s t : Nat) : Option (List Nat) :=
  BiD.nodePath ⟨none, sv.fd, sv.bd, sv.meet⟩ s t

/-- a sequence of queries `(s, t, cap)` -/
def Server.queries (pot : BiPot) (ch : Chooser δ) : Server → List (Nat × Nat × Nat) → Option (List (Option Nat) × Server)
  | sv, [] => some ([], sv)
  | sv, (s, t, cap) :: qs => do
    let (r, sv) ← sv.query pot ch s t cap
    let (rs, sv) ← Server.queries pot ch sv qs
    return (r :: rs, sv)

/-- a sequence of queries `(potential, s, t, cap)`: every query initialises the potential anew -/
def Server.queriesWith (ch : Chooser δ) : Server → List (BiPot × Nat × Nat × Nat) → Option (List (Option Nat) × Server)
  | sv, [] => some ([], sv)
  | sv, (pot, s, t, cap) :: qs => do
    let (r, sv) ← sv.query pot ch s t cap
    let (rs, sv) ← Server.queriesWith ch sv qs
    return (r :: rs, sv)

end BiD
end Verif
