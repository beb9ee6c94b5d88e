import Verif.Model.BiTopo
/-
Model of the two-thread search `MultiThreadedBiDirSkipLowDegServer` in `engine/src/algo/ch_potentials/query.rs` with `SendTopoDijkstraRun`
(`engine/src/algo/dijkstra/gen_topo_dijkstra.rs:312-520`).

The two threads share the labels (`AtomicDists`), the two progress values and the best tentative distance. Every access is `Relaxed`. What a thread
reads from the other one is therefore an argument (`Env`) of every round of its loop: the theorems range over all values that the other thread may
have made visible, so over every schedule and memory order.

Simplifications: `pot_cap` is `None`, as in `query`. `SendTopoDijkstraRun` differs from `TopoDijkstraRun` only in the storage of the labels, so
`Topo.settleNext` is used; a thread only writes its own labels, so it reads back what it wrote. The predecessor arcs are not stored.
-/
namespace Verif
open DData

namespace MT

/-- What one round of a loop reads from the other thread: `head` is the progress read by the loop condition, the functions give the values read by
callback number `i` of the round: the progress, the label of a node, and the smallest tentative distance written by the other thread. -/
structure Env where
  head : Nat
  prog : Nat → Nat
  label : Nat → Nat → Nat
  tent : Nat → Nat

/-- The local variables of a thread (`query.rs:1095-1098`); `clock` counts the callbacks of this round (ghost). -/
structure TState where
  tent : Nat
  stop : Nat
  meet : Option Nat
  clock : Nat

/-- The methods of a potential used by one thread. -/
structure Side where
  pot : Nat → Option Nat
  prune : Nat → Nat → Nat → Nat → Option Bool
  stop : Option Nat → Nat → Nat → Option Bool

/-- the forward thread with `BiDirZeroPot` (`a_star.rs:242-268`; `stop_forward` is the default, l.189-191) -/
def zeroF : Side where
  pot := zeroBi.fw
  prune := zeroBi.pruneF
  stop own other lim := zeroBi.stop own (some other) lim

/-- the backward thread with `BiDirZeroPot` -/
def zeroB : Side where
  pot := zeroBi.bw
  prune := zeroBi.pruneB
  stop own other lim := zeroBi.stop (some other) own lim

/-- the forward thread with `SymmetricBiDirPotential` (`a_star.rs:372-386`) -/
def symF (improved : Bool) (pf pb : Nat → Option Nat) : Side where
  pot := pf
  prune := (symmetricBi improved pf pb).pruneF
  stop own _ lim := some ((own.map (fun k => decide (k ≥ lim))).getD true)

/-- the backward thread with `SymmetricBiDirPotential` (`a_star.rs:375-389`) -/
def symB (improved : Bool) (pf pb : Nat → Option Nat) : Side where
  pot := pb
  prune := (symmetricBi improved pf pb).pruneB
  stop own _ lim := some ((own.map (fun k => decide (k ≥ lim))).getD true)

/-- The two closures (`query.rs:1105-1123`, `1156-1174`). `fetch_min` returns the smallest tentative distance written so far by one of the two
threads. -/
def cl (sd : Side) (cap : Nat) (env : Env) : Topo.Closures TState where
  imp st head dist := do
    let p ← sd.prune head dist (env.prog st.clock) st.stop
    if p then return ({ st with clock := st.clock + 1 }, false)
    else
      let sum ← add32 dist (env.label st.clock head)
      let tent := min st.tent sum
      let meet := if min st.tent (env.tent st.clock) > tent then some head else st.meet
      return (⟨tent, min tent cap, meet, st.clock + 1⟩, true)
  key st head dist :=
    match sd.pot head with
    | none => some (st, none)
    | some q => do
      let key ← add32 q dist
      return (st, some key)

/-- A thread: its data, its variables, the progress it has published and, when it has returned, its meeting node. -/
structure Thread where
  d : DData Unit
  st : TState
  prog : Nat
  done : Option (Option Nat)

/-- One round of the loop of a thread (`query.rs:1100-1144`, `1151-1195`): the loop condition, one settled node, the new progress. A thread that has
returned does nothing. -/
def step (sd : Side) (n : Nat) (G : Topo.TGraph Link) (goal cap : Nat) (env : Env) (th : Thread) : Option Thread :=
  if th.done.isSome then some th
  else do
    let stop ← sd.stop th.d.peekKey env.head th.st.stop
    if stop then
      match th.st.meet with
      | some m => return { th with done := some (some m) }
      | none =>
        let l ← th.d.dist.get goal
        return { th with done := some (if l < INFINITY then some goal else none) }
    else
      let (o, d, st) ← Topo.settleNext n ⟨true, true⟩ G defaultOps (cl sd cap env) th.d { th.st with clock := 0 }
      match o with
      | none => return { th with d := d, st := st }
      | some v =>
        if v = goal then return ⟨d, st, INFINITY, some (some goal)⟩
        else return ⟨d, st, d.peekKey.getD INFINITY, none⟩

/-- A query: the potentials of the two threads, the graphs and the terminals. -/
structure Job where
  f : Side
  b : Side
  n : Nat
  F : Topo.TGraph Link
  B : Topo.TGraph Link
  s : Nat
  t : Nat
  cap : Nat

/-- A schedule: in every round one thread (`true`: forward) runs with the values it reads. -/
def exec (J : Job) : List (Bool × Env) → Thread × Thread → Option (Thread × Thread)
  | [], th => some th
  | (true, env) :: rest, th => do
    let f ← step J.f J.n J.F J.t J.cap env th.1
    exec J rest (f, th.2)
  | (false, env) :: rest, th => do
    let b ← step J.b J.n J.B J.s J.cap env th.2
    exec J rest (th.1, b)

/-- `query.rs:1062-1099`: the data is reset, the progress starts at 0. -/
def start (J : Job) (fd bd : DData Unit) : Option (Thread × Thread) := do
  let fd ← fd.init J.s 0
  let bd ← bd.init J.t 0
  return (⟨fd, ⟨INFINITY, J.cap, none, 0⟩, 0, none⟩, ⟨bd, ⟨INFINITY, J.cap, none, 0⟩, 0, none⟩)

/-- `query.rs:1205-1216`: the length of the path over the meeting node of a thread -/
def value (fd bd : DData Unit) : Option Nat → Option (Option (Nat × Nat))
  | none => some none
  | some m => do
    let x ← fd.dist.get m
    let y ← bd.dist.get m
    let d ← add32 x y
    return some (m, d)

/-- After both threads have returned (`query.rs:1205-1239`); `meet` is the old value of `self.meeting_node` -/
def join (th : Thread × Thread) (meet : Nat) : Option BiD.Res := do
  let mf ← th.1.done
  let mb ← th.2.done
  let f ← value th.1.d th.2.d mf
  let b ← value th.1.d th.2.d mb
  match f, b with
  | some (m, x), some (m', y) => if x < y then return ⟨some x, th.1.d, th.2.d, m⟩ else return ⟨some y, th.1.d, th.2.d, m'⟩
  | some (m, x), none => return ⟨some x, th.1.d, th.2.d, m⟩
  | none, some (m', y) => return ⟨some y, th.1.d, th.2.d, m'⟩
  | none, none => return ⟨none, th.1.d, th.2.d, meet⟩

/-- `MultiThreadedBiDirSkipLowDegServer::distance` (`query.rs:1055-1239`) under a schedule, on the server `sv` (`query.rs:994-1053`; it has the fields of
`BiT.Runner`, and `new` builds them as `BiDirCoreServer::new` does). -/
def query (J : Job) (sched : List (Bool × Env)) (sv : BiT.Runner) : Option (Option Nat × BiT.Runner) := do
  let th ← start J sv.fd sv.bd
  let th ← exec J sched th
  let r ← join th sv.meet
  return (r.result, { sv with fd := r.fd, bd := r.bd, meet := r.meet })

/-- a query with `BiDirZeroPot` -/
def zeroJob (sv : BiT.Runner) (s t cap : Nat) : Job :=
  ⟨zeroF, zeroB, sv.forward.numNodes, ⟨sv.forward.linkIter, sv.topo.symDeg⟩, ⟨sv.backward.linkIter, sv.topo.symDeg⟩, s, t, cap⟩

/-- a query with `SymmetricBiDirPotential` -/
def symJob (sv : BiT.Runner) (improved : Bool) (pf pb : Nat → Option Nat) (s t cap : Nat) : Job :=
  ⟨symF improved pf pb, symB improved pf pb, sv.forward.numNodes, ⟨sv.forward.linkIter, sv.topo.symDeg⟩, ⟨sv.backward.linkIter, sv.topo.symDeg⟩, s, t, cap⟩

/-- The values a thread makes visible. -/
def Thread.view (th : Thread) : Env where
  head := th.prog
  prog _ := th.prog
  label _ v := (th.d.dist.get v).getD INFINITY
  tent _ := th.st.tent

/-- The schedules in which a round is atomic: the other thread is seen as it is. -/
def execAtomic (J : Job) : List Bool → Thread × Thread → Option (Thread × Thread)
  | [], th => some th
  | true :: rest, th => do
    let f ← step J.f J.n J.F J.t J.cap th.2.view th.1
    execAtomic J rest (f, th.2)
  | false :: rest, th => do
    let b ← step J.b J.n J.B J.s J.cap th.1.view th.2
    execAtomic J rest (th.1, b)

end MT
end Verif
