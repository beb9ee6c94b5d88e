import Verif.Model.Topocore
/-
Model of the bidirectional searches that follow chains of nodes of low degree: `BiDirSkipLowDegRunner`, `BiDirServer`, `BiDirCoreServer` and
`MultiThreadedBiDirSkipLowDegServer` in `engine/src/algo/ch_potentials/query.rs`.

Simplifications: `pot_cap` is `None`, as in the `query` methods. The predecessor arcs (`DefaultOpsWithLinkPath`) are not stored: only node paths are
modelled. Counters and reports are left out.
-/
namespace Verif
open DData

namespace BiT
variable {δ : Type}

/-- The two closures of a step (`query.rs:860-883`, `893-916`); the state is (`tentative_distance`, `meeting_node`), `od` the data of the opposite
search, `stopDist` is computed before the step. -/
def cl (prune : Nat → Nat → Nat → Nat → Option Bool) (pot : Nat → Option Nat) (od : DData Unit) (stopDist : Nat) : Topo.Closures (Nat × Nat) where
  imp st head dist := do
    let p ← prune head dist (od.peekKey.getD INFINITY) stopDist
    if p then return (st, false)
    else
      let e ← od.dist.get head
      let sum ← add32 dist e
      return (if sum < st.1 then (sum, head) else st, true)
  key st head dist :=
    match pot head with
    | none => some (st, none)
    | some q => do
      let key ← add32 q dist
      return (st, some key)

/-- `query.rs:925-937`: the end of the search. A chain may reach the target (or the source) without a callback. -/
def finish (s t : Nat) (fd bd : DData Unit) (st : Nat × Nat) : Option BiD.Res := do
  let x ← fd.dist.get t
  let st := if x < st.1 then (x, t) else st
  let y ← bd.dist.get s
  let st := if y < st.1 then (y, s) else st
  return ⟨if st.1 = INFINITY then none else some st.1, fd, bd, st.2⟩

/-- The loop of `BiDirSkipLowDegRunner::distance` (`query.rs:846-938`); `none` is a panic, or missing fuel. -/
def loop (pot : BiPot) (ch : Chooser δ) (n : Nat) (F B : Topo.TGraph Link) (s t cap : Nat) :
    Nat → δ → DData Unit → DData Unit → Nat × Nat → Option BiD.Res
  | 0, _, _, _, _ => none
  | fuel + 1, c, fd, bd, st => do
    let stop ← BiD.stopCheck pot ch c fd bd (min st.1 cap)
    if stop then finish s t fd bd st
    else
      let dir := ch.choose c fd.peekKey bd.peekKey
      if dir.1 then
        let (o, fd, st) ← Topo.settleNext n ⟨true, true⟩ F defaultOps (cl pot.pruneF pot.fw bd (min st.1 cap)) fd st
        if o = some t then
          let r ← fd.dist.get t
          return ⟨some r, fd, bd, t⟩
        else loop pot ch n F B s t cap fuel dir.2 fd bd st
      else
        let (o, bd, st) ← Topo.settleNext n ⟨true, true⟩ B defaultOps (cl pot.pruneB pot.bw fd (min st.1 cap)) bd st
        if o = some s then
          let r ← bd.dist.get s
          return ⟨some r, fd, bd, s⟩
        else loop pot ch n F B s t cap fuel dir.2 fd bd st

/-- `BiDirSkipLowDegRunner::distance` (`query.rs:820-946`). Every second round at least settles a node in one direction, so `4 n + 6` rounds are
enough (theorem). -/
def distance (pot : BiPot) (ch : Chooser δ) (n : Nat) (F B : Topo.TGraph Link) (fd bd : DData Unit) (meet s t cap : Nat) : Option BiD.Res := do
  let fd ← fd.init s 0
  let bd ← bd.init t 0
  loop pot ch n F B s t cap (4 * n + 6) ch.init fd bd (INFINITY, meet)

/-- `struct BiDirSkipLowDegRunner` (`query.rs:809-817`); the potential is a parameter of the queries -/
structure Runner where
  forward : FOGraph
  backward : FOGraph
  topo : Topo.VTopo
  fd : DData Unit
  bd : DData Unit
  meet : Nat

/-- `BiDirCoreServer::new` (`query.rs:732-765`) for a `VirtualTopocoreGraph`. `VirtualTopocoreGraph::reversed` (`topocore.rs:747-754`) keeps the
degrees. -/
def Runner.core (g : FOGraph) (t : Topo.VTopo) : Option Runner := do
  let r ← GraphOps.reversed g.numNodes g.numArcs g.linkIter
  return ⟨g, r, t, DData.new g.numNodes (), DData.new g.numNodes (), g.numNodes⟩

/-- `BiDirServer::new` (`query.rs:640-664`) with `VirtualTopocoreGraph::new_bidir_graphs` (`topocore.rs:677-703`): arcs out of the core are removed
from both graphs -/
def Runner.bidir (srtN : (Nat → Nat) → List Nat → List Nat) (srt : (Link → Nat) → List Link → List Link) (g : FOGraph) : Option Runner := do
  let r ← GraphOps.reversed g.numNodes g.numArcs g.linkIter
  let t ← Topo.virtualTopocore srtN g
  let fw ← GraphOps.permutatedFiltered srt t.order g.linkIter (fun a b => !(t.inCore a && !t.inCore b))
  let bw ← GraphOps.permutatedFiltered srt t.order r.linkIter (fun a b => !(t.inCore a && !t.inCore b))
  return ⟨fw, bw, t, DData.new g.numNodes (), DData.new g.numNodes (), g.numNodes⟩

/-- one query on the runner, in ranks; `pot` is the potential initialised for this query -/
def Runner.query (sv : Runner) (pot : BiPot) (ch : Chooser δ) (s t cap : Nat) : Option (Option Nat × Runner) := do
  let r ← distance pot ch sv.forward.numNodes ⟨sv.forward.linkIter, sv.topo.symDeg⟩ ⟨sv.backward.linkIter, sv.topo.symDeg⟩ sv.fd sv.bd sv.meet s t cap
  return (r.result, { sv with fd := r.fd, bd := r.bd, meet := r.meet })

/-- `BiDirSkipLowDegRunner::path` (`query.rs:948-965`) -/
def Runner.path (sv : Runner) (s t : Nat) : Option (List Nat) := BiD.nodePath ⟨none, sv.fd, sv.bd, sv.meet⟩ s t

end BiT
end Verif
