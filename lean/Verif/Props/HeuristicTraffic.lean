import Verif.Proof.HeuristicPath
import Verif.Proof.HeuristicSim
import Verif.Props.TrafficAware
set_option linter.unusedSimpArgs false
set_option linter.unusedVariables false
/- Property C65: traffic aware routes, heuristically. -/
namespace Verif
open Spec CCH UBS Traffic

namespace Traffic

theorem HSetup.queries_ok {σ : Type} {live smooth : FOGraph} {S : HServer σ} {dbg : Bool} {srt : List Rng → List Rng} {U : State PathState PathState → Prop}
    (hS : HSetup live smooth S dbg srt U) {inner rounds : Nat} : ∀ (qs : List Call) {st st' : HState σ} {outs : List HOutcome},
    (∀ q ∈ qs, q.s < live.numNodes ∧ ∀ a b, a ≤ b → q.thr a ≤ q.thr b) → Topo.DataOK live.numNodes st.data → U st.ubs →
    hqueries dbg S srt inner rounds st qs = some (outs, st') → List.Forall₂ (fun (q : Call) o => HRes live smooth q.thr q.late q.s q.t o) qs outs := by
  intro qs
  induction qs with
  | nil =>
    intro st st' outs _ _ _ h
    simp only [hqueries, Option.some.injEq, Prod.mk.injEq] at h
    obtain ⟨rfl, rfl⟩ := h
    exact .nil
  | cons q qs ih =>
    intro st st' outs hq h1 h2 h
    simp only [hqueries, Option.bind_eq_bind, Option.bind_eq_some_iff, Option.pure_def, Option.some.injEq, Prod.mk.injEq] at h
    obtain ⟨⟨o, st1⟩, e1, ⟨os, st2⟩, e2, rfl, rfl⟩ := h
    obtain ⟨k1, k2, k3⟩ := hS.query_ok (hq q (by simp)).2 (hq q (by simp)).1 h1 h2 e1
    exact .cons k3 (ih (fun q hq' => hq q (by simp [hq'])) k1 k2 e2)

theorem adj_of_same {g g' : FOGraph} (hg : g.WF) (hg' : g'.WF) (h1 : g.firstOut = g'.firstOut) (h2 : g.head = g'.head) {u v w : Nat} (hA : g.Arc u v w) :
    ∃ w, g'.Arc u v w := by
  obtain ⟨i, a, b, e1, e2, e3, e4, e5, e6⟩ := (edgeAt_arc hg).1 hA
  have hi : i < g'.weight.length := by
    have := (List.getElem?_eq_some_iff.1 e5).1
    rw [hg'.weights, ← h2]; exact this
  exact ⟨_, (edgeAt_arc hg').2 ⟨i, a, b, by rw [← h1]; exact e1, by rw [← h1]; exact e2, e3, e4, by rw [← h2]; exact e5, List.getElem?_eq_getElem hi⟩⟩

/-- The usual way to set up the server. -/
theorem hsetup {σ : Type} {smooth live : FOGraph} (hsm : smooth.WF) (hlive : live.WF) (hfo : live.firstOut = smooth.firstOut) (hhd : live.head = smooth.head)
    (hn : 0 < smooth.numNodes) (hposS : ∀ x ∈ smooth.weight, 0 < x) (hsmallS : ∀ x ∈ smooth.weight, smooth.numNodes * x < INFINITY)
    {order : NodeOrder} (hok : order.OK smooth.numNodes) {c : Cch} (hc : build smooth order = some c)
    {srtN : (Nat → Nat) → List Nat → List Nat} {srtL : (Link → Nat) → List Link → List Link} (hsN : SortOK srtN) (hsL : SortOK srtL)
    {sv : Topo.Server} (hsv : Topo.Server.new srtN srtL true live = some sv)
    {srt : List Rng → List Rng} (hsrt : ∀ l, (srt l).Perm l ∧ (srt l).Pairwise (fun a b => a.start < b.start ∨ a.start = b.start ∧ b.stop ≤ a.stop))
    (dbg : Bool) (P : Potential σ) (s0 : σ) : ∃ ws fbS, customize c smooth = some ws ∧ customizePerfect c ws = some fbS ∧
      HSetup live smooth ⟨(CchServer.new c fbS smooth).1, sv, P⟩ dbg srt (SOK smooth.numNodes (PReady smooth.numNodes) (PReady smooth.numNodes)) ∧
      SOK smooth.numNodes (PReady smooth.numNodes) (PReady smooth.numNodes) (CchServer.new c fbS smooth).2 := by
  have hnn : live.numNodes = smooth.numNodes := by simp only [FOGraph.numNodes, hfo]
  rcases build_spec hsm hok with h | ⟨c', h1, hgd, hb⟩
  · rw [hc] at h; simp at h
  · rw [hc] at h1; simp at h1; subst h1
    obtain ⟨w, fb, p, w0, k1, k2, _, _, rfl, hp⟩ := perfect_ready hsm hok hgd hb (metric := smooth) ⟨hsm, rfl, rfl⟩
    have hoe := hb.order_eq
    rw [← hoe] at hp
    have hnn2 : (perfSides smooth.numNodes c w p).1.graph.numNodes = smooth.numNodes := hp.dirs.1.nn
    obtain ⟨B, hB1, hB2⟩ := bound_exists smooth.numNodes smooth.weight hsmallS
    refine ⟨w, _, k1, k2, ⟨svOK hsN hsL hlive (by omega) hsv, ?_, fun u v w hA => CCH.FOGraph.WF.arc_lt hlive hA, ?_⟩, ?_⟩
    · intro p d hnd hlt hp
      obtain ⟨d', h5, h6⟩ := transfer (A' := smooth.Arc) (B := B) (fun u v w hA => by
        obtain ⟨w', hA'⟩ := adj_of_same hlive hsm hfo hhd hA
        exact ⟨w', hA', hB1 _ (arc_mem hsm hA')⟩) hp
      have h7 := nodup_len hnd hlt
      have h8 : (p.length - 1) * B ≤ smooth.numNodes * B := Nat.mul_le_mul_right _ (by omega)
      exact ⟨d', by omega, h5⟩
    · intro st thr path hst hthr hnodes hpath
      exact cch_find_spec' hsm rfl (by rw [hoe]; exact hok) hp hposS dbg hsrt hthr (by rw [← hnn]; exact hnodes)
        (fun hnd => .inr (hpath hnd)) hst
    · simp only [CchServer.new, hnn2]
      exact ⟨PReady.new _ _, PReady.new _ _, rfl, rfl⟩

end Traffic

/-- **C65 (partial).** The setting of C64, but with the heuristic server: a `TopoDijkstra` on the live graph, with its biconnected core and chains,
whose link operation refuses arcs that complete a forbidden path. Whatever potential is used, however the sorts order equal elements
and whatever happened before on this server: a route that is returned leads from `s` to `t`, visits no node twice, no part of it is
longer in `smooth` than the distance `d` of its ends by more than the threshold for `d`, and it is not longer in `live` than reported. The
query says that it ran out of time only if it did.

Missing: that queries end (they do not, `C65_never_ends`), that they return a route if there is one, and the absence of panics. -/
theorem C65_routes_partial {σ : Type} (smooth : FOGraph) (hsm : smooth.WF) (l : List Nat) (hl : l.length = smooth.numNodes) (order : NodeOrder)
    (hord : NodeOrder.fromNodeOrder l = some order) (c : Cch) (hc : build smooth order = some c) (live : FOGraph) (hlive : live.WF)
    (hfo : live.firstOut = smooth.firstOut) (hhd : live.head = smooth.head) (hn : 0 < smooth.numNodes) (hposS : ∀ x ∈ smooth.weight, 0 < x)
    (hsmallS : ∀ x ∈ smooth.weight, smooth.numNodes * x < INFINITY)
    (srtN : (Nat → Nat) → List Nat → List Nat) (srtL : (Link → Nat) → List Link → List Link) (hsN : SortOK srtN) (hsL : SortOK srtL)
    (sv : Topo.Server) (hsv : Topo.Server.new srtN srtL true live = some sv)
    (dbg : Bool) (srt : List Rng → List Rng)
    (hsrt : ∀ l, (srt l).Perm l ∧ (srt l).Pairwise (fun a b => a.start < b.start ∨ a.start = b.start ∧ b.stop ≤ a.stop))
    (P : Potential σ) (s0 : σ)
    (qs : List Call) (hqs : ∀ q ∈ qs, q.s < smooth.numNodes ∧ ∀ a b, a ≤ b → q.thr a ≤ q.thr b) :
    ∃ ws fbS, customize c smooth = some ws ∧ customizePerfect c ws = some fbS ∧
      ∀ inner rounds outs st', hqueries dbg ⟨(CchServer.new c fbS smooth).1, sv, P⟩ srt inner rounds
          (HState.new smooth.numNodes (CchServer.new c fbS smooth).2 s0) qs = some (outs, st') →
        List.Forall₂ (fun q o => match o with
          | .found p d => p.head? = some q.s ∧ p.getLast? = some q.t ∧ NoViolation smooth.Arc q.thr p ∧ ∃ x, PathOf live.Arc p x ∧ x ≤ d
          | .failed true => ∃ i, q.late i = true
          | _ => True) qs outs := by
  have hok : order.OK smooth.numNodes := by rw [← hl]; exact NodeOrder.ok_of_fromNodeOrder hord
  have hnn : live.numNodes = smooth.numNodes := by simp only [FOGraph.numNodes, hfo]
  obtain ⟨ws, fbS, k1, k2, k3, k4⟩ := hsetup hsm hlive hfo hhd hn hposS hsmallS hok hc hsN hsL hsv hsrt dbg P s0
  refine ⟨ws, fbS, k1, k2, fun inner rounds outs st' h => ?_⟩
  refine (k3.queries_ok qs (by rw [hnn]; exact hqs) (by rw [hnn]; exact Topo.DataOK.new _ _) k4 h).imp ?_
  intro q o h
  cases o with
  | found p d => exact h
  | failed l => cases l <;> exact h
  | running => trivial

end Verif

namespace Verif.Traffic
open Spec CCH UBS

theorem hloop_add {σ : Type} {dbg : Bool} {S : HServer σ} {srt : List Rng → List Rng} {thr : Nat → Nat} {late : Nat → Bool} {inner s t b : Nat} :
    ∀ (a i : Nat) (bf : Option (Nat × Nat)) (st : HState σ) {bf' : Option (Nat × Nat)} {st' : HState σ},
    hloop dbg S srt thr late inner s t a i bf st = some (.running, bf', st') →
    hloop dbg S srt thr late inner s t (a + b) i bf st = hloop dbg S srt thr late inner s t b (i + a) bf' st' := by
  intro a
  induction a with
  | zero =>
    intro i bf st bf' st' h
    simp only [hloop, Option.some.injEq, Prod.mk.injEq, true_and] at h
    obtain ⟨rfl, rfl⟩ := h
    simp
  | succ a ih =>
    intro i bf st bf' st' h
    rw [show a + 1 + b = (a + b) + 1 by omega]
    rw [hloop] at h ⊢
    split at h
    · exact (nomatch h)
    · rename_i hl
      simp only [hl, if_false, Bool.false_eq_true]
      simp only [Option.bind_eq_bind, Option.bind_eq_some_iff] at h
      obtain ⟨⟨r, st1⟩, e1, h⟩ := h
      simp only [e1, Option.bind_eq_bind, Option.bind_some]
      cases r with
      | none => exact (nomatch h)
      | some r =>
        obtain ⟨dist, path⟩ := r
        simp only [Option.bind_eq_some_iff] at h
        obtain ⟨⟨viol, u⟩, e2, h⟩ := h
        simp only [e2, Option.bind_some]
        split at h
        · exact (nomatch h)
        · rename_i hv
          simp only [Option.bind_eq_some_iff] at h
          obtain ⟨ranks, e3, ops, e4, h⟩ := h
          simp only [hv, if_false, e3, e4, Option.bind_some]
          rw [ih _ _ _ h, show i + 1 + a = i + (a + 1) by omega]

theorem hloop_prefix {σ : Type} {dbg : Bool} {S : HServer σ} {srt : List Rng → List Rng} {thr : Nat → Nat} {late : Nat → Bool} {inner s t b : Nat} :
    ∀ (a i : Nat) (bf : Option (Nat × Nat)) (st : HState σ) {bf' : Option (Nat × Nat)} {st' : HState σ},
    hloop dbg S srt thr late inner s t (a + b) i bf st = some (.running, bf', st') →
    ∃ bf' st', hloop dbg S srt thr late inner s t a i bf st = some (.running, bf', st') := by
  intro a
  induction a with
  | zero => intro i bf st bf' st' h; exact ⟨bf, st, rfl⟩
  | succ a ih =>
    intro i bf st bf' st' h
    rw [show a + 1 + b = (a + b) + 1 by omega] at h
    rw [hloop] at h ⊢
    split at h
    · exact (nomatch h)
    · rename_i hl
      simp only [hl, if_false, Bool.false_eq_true]
      simp only [Option.bind_eq_bind, Option.bind_eq_some_iff] at h
      obtain ⟨⟨r, st1⟩, e1, h⟩ := h
      simp only [e1, Option.bind_eq_bind, Option.bind_some]
      cases r with
      | none => exact (nomatch h)
      | some r =>
        obtain ⟨dist, path⟩ := r
        simp only [Option.bind_eq_some_iff] at h
        obtain ⟨⟨viol, u⟩, e2, h⟩ := h
        simp only [e2, Option.bind_some]
        split at h
        · exact (nomatch h)
        · rename_i hv
          simp only [Option.bind_eq_some_iff] at h
          obtain ⟨ranks, e3, ops, e4, h⟩ := h
          simp only [hv, if_false, e3, e4, Option.bind_some]
          exact ih _ _ _ h

/-- the concrete round that repeats: the data before and after -/
structure Cycle {σ : Type} (live : FOGraph) (S : HServer σ) (dbg : Bool) (srt : List Rng → List Rng) (thr : Nat → Nat) (inner s t : Nat)
    (U : State PathState PathState → Prop) (st0 : HState σ) (dist : Nat) (path : List Nat) (r : Rng) (ranks part : List Nat) (last : Nat) : Prop where
  U0 : U st0.ubs
  search : ∃ d, S.topo.distanceP inner hskip st0.ops.ops S.pot st0.data st0.pot s t = some (some dist, d, st0.pot) ∧ Topo.DSim d st0.data ∧
    S.topo.nodePath d s t = some path
  find : ∃ u, S.ubs.find dbg srt st0.ubs thr path = some ([r], u)
  hranks : path.mapM S.topo.topo.order.rank = some ranks
  hpart : slice ranks r.start (r.stop + 1) = some part
  hlast : part.getLast? = some last
  old : ∃ old, st0.ops.paths[last]? = some old ∧ part.dropLast ∈ old

/-- the states from which the round repeats -/
structure InCycle {σ : Type} (U : State PathState PathState → Prop) (st0 : HState σ) (part : List Nat) (last : Nat) (st : HState σ) : Prop where
  U : U st.ubs
  data : Topo.DSim st0.data st.data
  pot : st.pot = st0.pot
  ops : st.ops.ops = st0.ops.ops
  old : ∃ old, st.ops.paths[last]? = some old ∧ part.dropLast ∈ old

theorem nodePath_sim {sv : Topo.Server} {d d' : DData Unit} (h : d.pred = d'.pred) (s t : Nat) : sv.nodePath d' s t = sv.nodePath d s t := by
  have key : ∀ (fuel rs v : Nat) (acc : List Nat), d'.nodePathLoop rs fuel acc v = d.nodePathLoop rs fuel acc v := by
    intro fuel
    induction fuel with
    | zero => intros; rfl
    | succ fuel ih => intro rs v acc; simp only [DData.nodePathLoop, h, ih]
  simp only [Topo.Server.nodePath, DData.nodePath, h, key]

theorem answer_single {A : Nat → Nat → Nat → Prop} {thr : Nat → Nat} {p : List Nat} {r : Rng} {out : List Rng} (h1 : UbsAnswer A thr p [r]) (h2 : UbsAnswer A thr p out) :
    out = [r] := by
  have key : (∀ x, x ∈ out ↔ x = r) ∧ out.Pairwise (fun a b => a.stop < b.stop) := by
    by_cases hn : p.Nodup
    · obtain ⟨a1, _⟩ := h1.1 hn
      obtain ⟨b1, b2⟩ := h2.1 hn
      exact ⟨fun x => by rw [b1, ← a1]; simp, b2.imp (fun h => h.2)⟩
    · obtain ⟨a1, _⟩ := h1.2 hn
      obtain ⟨b1, b2⟩ := h2.2 hn
      exact ⟨fun x => by rw [b1, ← a1]; simp, b2⟩
  obtain ⟨k1, k2⟩ := key
  match out, k1, k2 with
  | [], k1, _ => have := (k1 r).2 rfl; simp at this
  | [x], k1, _ => rw [(k1 x).1 (by simp)]
  | x :: y :: l, k1, k2 =>
    have hx := (k1 x).1 (by simp)
    have hy := (k1 y).1 (by simp)
    have := (List.pairwise_cons.1 k2).1 y (by simp)
    rw [hx, hy] at this
    omega

theorem Cycle.round {σ : Type} {live smooth : FOGraph} {S : HServer σ} {dbg : Bool} {srt : List Rng → List Rng} {thr : Nat → Nat} {inner s t : Nat}
    {U : State PathState PathState → Prop} {st0 : HState σ} {dist : Nat} {path : List Nat} {r : Rng} {ranks part : List Nat} {last : Nat}
    (hS : HSetup live smooth S dbg srt U) (hthr : ∀ a b, a ≤ b → thr a ≤ thr b) (hnodes : ∀ v ∈ path, v < live.numNodes)
    (hpath : ∃ d, d < INFINITY ∧ PathOf smooth.Arc path d) (hst : s ≠ t)
    (C : Cycle live S dbg srt thr inner s t U st0 dist path r ranks part last) : ∀ (rounds i : Nat) (bf : Option (Nat × Nat)) (st : HState σ),
    InCycle U st0 part last st → ∃ bf' st', hloop dbg S srt thr (fun _ => false) inner s t rounds i bf st = some (.running, bf', st') := by
  intro rounds
  induction rounds with
  | zero => intro i bf st _; exact ⟨bf, st, rfl⟩
  | succ rounds ih =>
    intro i bf st hin
    obtain ⟨d, h1, h2, h3⟩ := C.search
    obtain ⟨u0, h4⟩ := C.find
    have hs : ∃ d', S.topo.distanceP inner hskip st0.ops.ops S.pot st.data st0.pot s t = some (some dist, d', st0.pot) ∧ Topo.DSim d d' := by
      unfold Topo.Server.distanceP at h1 ⊢
      rw [if_neg hst] at h1 ⊢
      simp only [Option.bind_eq_bind, Option.bind_eq_some_iff] at h1
      obtain ⟨a, e1, b, e2, e3⟩ := h1
      obtain ⟨d', e4, e5⟩ := Topo.Server.distanceCoreP_sim hin.data e3
      exact ⟨d', by simp only [e1, e2, Option.bind_eq_bind, Option.bind_some]; exact e4, e5⟩
    obtain ⟨d', g1, g2⟩ := hs
    have hnp : S.topo.nodePath d' s t = some path := by
      rw [← h3]
      exact nodePath_sim g2.pred s t
    have hsearch' : hsearch inner S st s t = some (some (dist, path), { st with data := d', pot := st0.pot }) := by
      simp only [hsearch, hin.ops, hin.pot, g1, hnp, Option.bind_eq_bind, Option.bind_some, Option.pure_def]
    obtain ⟨out0, u0', m1, _, m2⟩ := hS.find st0.ubs thr path C.U0 hthr hnodes (fun _ => hpath)
    rw [h4] at m1
    simp only [Option.some.injEq, Prod.mk.injEq] at m1
    obtain ⟨rfl, rfl⟩ := m1
    obtain ⟨out, u, m3, m4, m5⟩ := hS.find st.ubs thr path hin.U hthr hnodes (fun _ => hpath)
    obtain rfl := answer_single m2 m5
    obtain ⟨old, o1, o2⟩ := hin.old
    have hlt : last < st.ops.paths.length := (List.getElem?_eq_some_iff.1 o1).1
    have hadd : ∃ b, st.ops.add part = some b := by
      simp only [Detours.add, C.hlast, o1, upd_of_lt _ hlt, Option.bind_eq_bind, Option.bind_some, Option.pure_def]
      exact ⟨_, rfl⟩
    obtain ⟨b, hb⟩ := hadd
    obtain ⟨q1, q2, q3⟩ := Detours.add_again C.hlast o1 o2 hb
    rw [hloop]
    simp only [Bool.false_eq_true, if_false, hsearch', m3, Option.bind_eq_bind, Option.bind_some, List.cons_ne_nil, C.hranks, forbidDetours, C.hpart, hb]
    refine ih _ _ _ ⟨m4, (h2.symm.trans g2), rfl, by rw [q1]; exact hin.ops, ?_⟩
    have : last < b.paths.length := by omega
    exact ⟨_, List.getElem?_eq_getElem this, q2 _ (List.getElem?_eq_getElem this)⟩

namespace HeuristicExample

/-- the usual travel times -/
def smooth : FOGraph := ⟨[0, 2, 5, 8, 9, 9, 9], [1, 2, 3, 4, 5, 3, 4, 5, 4], [60, 1, 1, 100, 1, 50, 10, 1, 1]⟩
/-- the current ones -/
def live : FOGraph := { smooth with weight := [1, 2, 9, 1, 1, 3, 1000, 1, 1] }

theorem smooth_wf : smooth.WF := ⟨by decide, by decide, by decide, by decide, FOGraph.mono_of_check (by decide), by decide⟩
theorem live_wf : live.WF := ⟨by decide, by decide, by decide, by decide, FOGraph.mono_of_check (by decide), by decide⟩

abbrev Pot := PotState × Option Nat

/-- The server: CCH potentials for `live`, kept between the rounds. -/
def setup (smooth live : FOGraph) (l : List Nat) : Option (HServer Pot × HState Pot) := do
  let order ← NodeOrder.fromNodeOrder l
  let c ← build smooth order
  let ws ← customize c smooth
  let fbS ← customizePerfect c ws
  let wl ← customize c live
  let fbL ← customizePerfect c wl
  let sv ← Topo.Server.new isort isort true live
  return (⟨(CchServer.new c fbS smooth).1, sv, recyclingPot (cchPot c fbL.1.graph fbL.2.graph)⟩,
    HState.new smooth.numNodes (CchServer.new c fbS smooth).2 (PotState.new smooth.numNodes, none))

/-- 20 % more than the shortest -/
def thr (d : Nat) : Nat := d / 5

/-- three rounds, and the one that repeats -/
def repeats (S : HServer Pot) (st : HState Pot) : Option Bool := do
  let ops ← st.ops.reset
  let (o, _, st0) ← hloop true S UBS.Example.sort thr (fun _ => false) 50 0 4 3 0 none { st with ops := ops }
  let (r, d, c) ← S.topo.distanceP 50 hskip st0.ops.ops S.pot st0.data st0.pot 0 4
  let p ← S.topo.nodePath d 0 4
  let (v, _) ← S.ubs.find true UBS.Example.sort st0.ubs thr p
  let ranks ← p.mapM S.topo.topo.order.rank
  let old ← st0.ops.paths[2]?
  return (o == .running && r == some 11 && p == [0, 2, 3, 4] && v == [⟨1, 3⟩] && ranks == [4, 0, 3, 2] && c == st0.pot && d.pred == st0.data.pred && d.queue == st0.data.queue &&
    (List.range 6).all (fun i => d.dist.get i == st0.data.dist.get i) && old.contains [0, 3])

end HeuristicExample
end Verif.Traffic

namespace Verif
open Spec CCH UBS Traffic Traffic.HeuristicExample

theorem HeuristicExample.runs : ((setup smooth live [0, 1, 2, 3, 4, 5]).bind fun x => repeats x.1 x.2) = some true := by decide +kernel

/-- **C65, refuted part.** There are two metrics for a graph with six nodes, positive and small, and a query on a fresh server that never ends unless a
time limit ends it: however many rounds it is allowed, it is still running. Every round finds the same route, and forbids the same part of it again.
The exact server of C64 finds a route. -/
theorem C65_never_ends : smooth.WF ∧ live.WF ∧ live.firstOut = smooth.firstOut ∧ live.head = smooth.head ∧
    (∀ x ∈ smooth.weight ++ live.weight, 0 < x ∧ smooth.numNodes * x < INFINITY) ∧
    (∃ S st, setup smooth live [0, 1, 2, 3, 4, 5] = some (S, st) ∧
      ∀ rounds, ∃ st', hquery true S UBS.Example.sort (fun _ => false) 50 rounds st thr 0 4 = some (.running, st')) ∧
    (Traffic.Example.answers true smooth live [0, 1, 2, 3, 4, 5] 60 [⟨thr, 0, 4, fun _ => false⟩]).map Prod.fst = some [.found [0, 2, 4] 1002] := by
  refine ⟨smooth_wf, live_wf, rfl, rfl, by decide, ?_, by decide +kernel⟩
  have hr := HeuristicExample.runs
  simp only [Option.bind_eq_some_iff] at hr
  obtain ⟨⟨S, st⟩, h1, h2⟩ := hr
  refine ⟨S, st, h1, ?_⟩
  simp only [setup, Option.bind_eq_bind, Option.bind_eq_some_iff, Option.pure_def, Option.some.injEq, Prod.mk.injEq] at h1
  obtain ⟨order, e1, c, e2, ws, e3, fbS, e4, wl, e5, fbL, e6, sv, e7, hS, hst⟩ := h1
  have hok : order.OK smooth.numNodes := NodeOrder.ok_of_fromNodeOrder e1
  obtain ⟨ws', fbS', k1, k2, k3, k4⟩ := hsetup smooth_wf live_wf rfl rfl (by decide) (by decide) (by decide) hok e2 isort_ok isort_ok e7 UBS.Example.sort_ok true
    (recyclingPot (cchPot c fbL.1.graph fbL.2.graph)) (PotState.new smooth.numNodes, none)
  rw [e3] at k1; injection k1 with k1; subst k1
  rw [e4] at k2; injection k2 with k2; subst k2
  rw [hS] at k3
  simp only [repeats, Option.bind_eq_bind, Option.bind_eq_some_iff, Option.pure_def, Option.some.injEq] at h2
  obtain ⟨ops, f1, ⟨o, bf, st0⟩, f2, ⟨r, d, cc⟩, f3, p, f4, ⟨v, u⟩, f5, ranks, f6, old, f7, f8⟩ := h2
  simp only [Bool.and_eq_true, beq_iff_eq, List.all_eq_true, List.mem_range, List.contains_iff_mem] at f8
  obtain ⟨⟨⟨⟨⟨⟨⟨⟨⟨g1, g2⟩, g3⟩, g4⟩, g5⟩, g6⟩, g7⟩, g8⟩, g9⟩, g10⟩ := f8
  subst g1 g2 g3 g4 g5 g6
  have hthr : ∀ a b, a ≤ b → thr a ≤ thr b := fun a b h => Nat.div_le_div_right h
  obtain ⟨u1, u2, _⟩ := k3.loop_ok hthr (by decide) 3 0 none _ (by subst hst; exact Topo.DataOK.new _ _) (by subst hst; exact k4) f2
  have hd : Topo.DSim d st0.data := by
    have f3' := f3
    unfold Topo.Server.distanceP at f3'
    rw [if_neg (by decide)] at f3'
    simp only [Option.bind_eq_bind, Option.bind_eq_some_iff] at f3'
    obtain ⟨rs, _, rt, _, f9⟩ := f3'
    obtain ⟨u3, _⟩ := Topo.Server.distanceCoreP_ok (Detours.linkOK k3.sv.comp.1 k3.sv.comp.2 _ _) (Detours.linkOK k3.sv.main.1 k3.sv.main.2 _ _) u1 f9
    obtain ⟨l, m1, m2⟩ := u1.rep
    obtain ⟨l', m3, m4⟩ := u3.rep
    have : l' = l := by
      apply List.ext_getElem?
      intro i
      by_cases hi : i < 6
      · rw [← m1.get, ← m3.get]; exact g9 i hi
      · rw [List.getElem?_eq_none_iff.2 (by rw [m4]; exact Nat.le_of_not_lt hi), List.getElem?_eq_none_iff.2 (by rw [m2]; exact Nat.le_of_not_lt hi)]
    subst this
    exact ⟨g7, g8, by rw [u1.dflt, u3.dflt], l', m3, m1⟩
  have hC : Cycle live S true UBS.Example.sort thr 50 0 4 (SOK smooth.numNodes (PReady smooth.numNodes) (PReady smooth.numNodes)) st0 11 [0, 2, 3, 4] ⟨1, 3⟩ [4, 0, 3, 2] [0, 3, 2] 2 :=
    ⟨u2, ⟨d, f3, hd, f4⟩, ⟨u, f5⟩, f6, by decide, by decide, old, f7, g10⟩
  have hrep : Topo.DSim st0.data st0.data := (hd.symm).trans hd
  have hrun : ∀ k, ∃ bf' st', hloop true S UBS.Example.sort thr (fun _ => false) 50 0 4 (3 + k) 0 none { st with ops := ops } = some (.running, bf', st') := by
    intro k
    rw [hloop_add 3 0 none _ f2]
    refine hC.round k3 hthr (by decide) ?_ (by decide) k _ _ _ ⟨u2, hrep, rfl, rfl, old, f7, g10⟩
    exact ⟨1 + (50 + (1 + 0)), by decide, .cons ⟨_, rfl, by decide⟩ (.cons ⟨_, rfl, by decide⟩ (.cons ⟨_, rfl, by decide⟩ (.single 4)))⟩
  have hlow : ∀ rounds, ∃ bf' st', hloop true S UBS.Example.sort thr (fun _ => false) 50 0 4 rounds 0 none { st with ops := ops } = some (.running, bf', st') := by
    intro rounds
    obtain ⟨bf', st', h⟩ := hrun rounds
    rw [Nat.add_comm] at h
    exact hloop_prefix rounds 0 none _ h
  intro rounds
  obtain ⟨bf', st', h⟩ := hlow rounds
  exact ⟨st', by simp only [hquery, f1, h, Option.bind_eq_bind, Option.bind_some, Option.pure_def]⟩

end Verif

namespace Verif.Traffic.HeuristicExample
open Spec CCH UBS UBS.Example Traffic.Example

/-- The hypotheses of `C65_routes_partial` hold for the graphs of the example for C64 and the same queries; the first one forbids the way round
and then takes the traffic jam. -/
example : usual.WF ∧ jam.WF ∧ (∀ x ∈ usual.weight, 0 < x ∧ usual.numNodes * x < INFINITY) ∧
    ((setup usual jam [6, 5, 0, 3, 4, 1, 2]).bind fun x => (hqueries true x.1 UBS.Example.sort 60 10 x.2 calls).map Prod.fst) =
      some [.found [0, 1, 2, 3] 320, .found [0, 1, 4, 2, 3] 80, .failed false, .failed true, .found [4] 0] ∧
    ((setup usual jam [6, 5, 0, 3, 4, 1, 2]).bind fun x => (hqueries true x.1 UBS.Example.sort 60 10 x.2 (calls.take 1)).map (fun r => r.2.ops)) =
      some ⟨[[], [], [[0, 1]], [], [], [], []], [2]⟩ :=
  ⟨usual_wf, jam_wf, by decide, by decide +kernel, by decide +kernel⟩

end Verif.Traffic.HeuristicExample
