import Verif.Proof.TrafficAwareQuery
import Verif.Props.CchSubPaths
set_option linter.unusedSimpArgs false
set_option linter.unusedVariables false
/- Property C64: traffic aware routes by iterative path blocking. -/
namespace Verif
open Spec CCH UBS Traffic

namespace Traffic

/-- the exact distances below `INFINITY`, as lower bounds -/
noncomputable def exactPot (A : Nat → Nat → Nat → Prop) (t v : Nat) : Option Nat := by
  classical
  exact if h : ∃ d, IsDist A v t d ∧ d < INFINITY then some h.choose else none

theorem exactPot_answer (A : Nat → Nat → Nat → Prop) (t v : Nat) : Answer A v t (exactPot A t v) := by
  classical
  intro d
  unfold exactPot
  split
  · rename_i h
    have := h.choose_spec
    constructor
    · intro he; injection he with he; subst he; exact this
    · rintro ⟨h1, h2⟩; rw [this.1.unique h1]
  · rename_i h
    constructor
    · intro he; exact (nomatch he)
    · intro hd; exact absurd ⟨d, hd⟩ h

theorem implements_imp {σ : Type} {P : Potential σ} {n : Nat} {s0 : σ} {R R' : Nat → Nat → Option Nat → Prop} (h : Implements P n s0 R)
    (hR : ∀ t v x, R t v x → R' t v x) : Implements P n s0 R' := by
  intro t cs ht hcs
  obtain ⟨outs, s, h1, h2⟩ := h t cs ht hcs
  exact ⟨outs, s, h1, h2.imp (fun _ _ h => hR _ _ _ h)⟩

/-- If no simple path is as long as `INFINITY`, the exact distances are consistent. -/
theorem exactPot_consistent {g : FOGraph} (hg : g.WF) {B : Nat} (hB : ∀ u v w, g.Arc u v w → w ≤ B) (hpos : ∀ u v w, g.Arc u v w → 0 < w)
    (hs : g.numNodes * B < INFINITY) : Consistent g.Arc (exactPot g.Arc) := by
  have hfin : ∀ u v d, IsDist g.Arc u v d → d < INFINITY := by
    intro u v d hd
    obtain ⟨p, l, h1, h2, h3, h4⟩ := exists_good hpos hd.1 (fun _ => 0)
    obtain ⟨d', h5, h6⟩ := transfer (A' := g.Arc) (B := B) (fun u v w hA => ⟨w, hA, hB u v w hA⟩) h1
    have h7 := hd.2 _ (pathWalk h5 h2 h3)
    by_cases hp : p.length ≤ 1
    · have h0 : (p.length - 1) * B = 0 := by simp [show p.length - 1 = 0 by omega]
      have : 0 < INFINITY := by decide
      omega
    · have hn : ∀ v ∈ p, v < g.numNodes := pathOf_mem h5 (fun u v w hA => CCH.FOGraph.WF.arc_lt hg hA) (fun v hv => by
        cases h5 with
        | single x => simp at hp
        | cons hA _ => simp at hv; subst hv; exact (CCH.FOGraph.WF.arc_lt hg hA).1)
      have h8 := nodup_len h4.1 hn
      have h9 : (p.length - 1) * B ≤ g.numNodes * B := Nat.mul_le_mul_right _ (by omega)
      omega
  refine ⟨fun t => ?_, ?_, ?_, ?_⟩
  · exact (exactPot_answer g.Arc t t 0).2 ⟨⟨.nil t, fun _ _ => Nat.zero_le _⟩, by decide⟩
  · intro t u v w y hA hy
    obtain ⟨h1, h2⟩ := (exactPot_answer g.Arc t v y).1 hy
    obtain ⟨x, h3, h4⟩ := exists_isDist (Walk.cons hA h1.1)
    exact ⟨x, (exactPot_answer g.Arc t u x).2 ⟨h4, hfin _ _ _ h4⟩, h3⟩
  · intro t v x hx
    exact ((exactPot_answer g.Arc t v x).1 hx).2
  · intro t v x hx
    exact ⟨x, ((exactPot_answer g.Arc t v x).1 hx).1.1⟩

theorem bound_exists (n : Nat) (l : List Nat) (h : ∀ w ∈ l, n * w < INFINITY) : ∃ B, (∀ w ∈ l, w ≤ B) ∧ n * B < INFINITY := by
  induction l with
  | nil => exact ⟨0, by simp, by simp [INFINITY]⟩
  | cons a l ih =>
    obtain ⟨B, h1, h2⟩ := ih (fun w hw => h w (by simp [hw]))
    refine ⟨max a B, fun w hw => ?_, ?_⟩
    · rcases List.mem_cons.1 hw with rfl | hw
      · omega
      · have := h1 w hw; omega
    · have := h a (by simp)
      rcases Nat.le_total a B with hab | hab
      · rw [Nat.max_eq_right hab]; exact h2
      · rw [Nat.max_eq_left hab]; exact this

theorem arc_mem {g : FOGraph} (hg : g.WF) {u v w : Nat} (h : g.Arc u v w) : w ∈ g.weight := by
  obtain ⟨ls, h1, h2⟩ := h
  exact hg.mem_weights h1 h2

/-- Several queries, one after the other. -/
theorem Setup.queries_spec {σ : Type} {live smooth : FOGraph} {B : Nat} {P : Potential σ} {s0 : σ} {h : Nat → Nat → Option Nat} {ubs : CchServer} {dbg : Bool}
    {srt : List Rng → List Rng} {U : State PathState PathState → Prop} (S : Setup live smooth B P s0 h ubs dbg srt U) (qs : List Call)
    (hq : ∀ q ∈ qs, q.s < live.numNodes ∧ q.t < live.numNodes ∧ ∀ a b, a ≤ b → q.thr a ≤ q.thr b) : ∀ {st : TState σ}, Ready live P s0 U st →
    ∃ F outs st', (∀ inner fuel, F ≤ inner → F ≤ fuel → queries dbg ⟨ubs, live, P⟩ srt inner fuel st qs = some (outs, st')) ∧
      Ready live P s0 U st' ∧ List.Forall₂ (fun (q : Call) o => QueryRes live smooth q.thr q.late q.s q.t o) qs outs := by
  induction qs with
  | nil => intro st hst; exact ⟨0, [], st, fun _ _ _ _ => rfl, hst, .nil⟩
  | cons q qs ih =>
    intro st hst
    obtain ⟨h1, h2, h3⟩ := hq q (by simp)
    obtain ⟨F, o, st1, e1, e2, e3⟩ := S.query_spec h3 q.late h1 h2 hst
    obtain ⟨F', os, st2, e4, e5, e6⟩ := ih (fun q hq' => hq q (by simp [hq'])) e2
    refine ⟨F + F', o :: os, st2, fun inner fuel hi hf => ?_, e5, .cons e3 e6⟩
    rw [queries, e1 inner fuel (by omega) (by omega)]
    simp only [Option.bind_eq_bind, Option.bind_some, e4 inner fuel (by omega) (by omega)]
    rfl

end Traffic

/-- **C64.** A graph with the usual travel times (`smooth`) and one with the current ones (`live`), on the same arcs; positive weights, and
no simple path as long as `INFINITY`. A server is set up as in `cchpot_traffic_aware`: one CCH for both metrics, customized perfectly
for each; the one for `smooth` gives the shortest path trees of the search for violating subpaths, the one for `live` the lower bounds.
Then for every node order and every history of queries on this server, in debug as well as in release builds: every query ends without a panic
(the loops end, no matter how many paths have to be blocked). If it returns a route, the route visits no node twice, no part of it is
longer in `smooth` than the distance `d` of its ends by more than the threshold for `d`, and among all such routes from `s` to `t` it is
a fastest one in `live`; the distance reported is its length in `live`. It returns none only if the target cannot be reached or
because of the time limit. -/
theorem C64_traffic_aware (smooth : FOGraph) (hsm : smooth.WF) (l : List Nat) (hl : l.length = smooth.numNodes) (order : NodeOrder)
    (hord : NodeOrder.fromNodeOrder l = some order) (c : Cch) (hc : build smooth order = some c) (live : FOGraph) (hlive : live.WF)
    (hfo : live.firstOut = smooth.firstOut) (hhd : live.head = smooth.head) (hposS : ∀ x ∈ smooth.weight, 0 < x) (hpos : ∀ x ∈ live.weight, 0 < x)
    (hsmallS : ∀ x ∈ smooth.weight, smooth.numNodes * x < INFINITY) (hsmall : ∀ x ∈ live.weight, smooth.numNodes * x < INFINITY)
    (dbg : Bool) (srt : List Rng → List Rng)
    (hsrt : ∀ l, (srt l).Perm l ∧ (srt l).Pairwise (fun a b => a.start < b.start ∨ a.start = b.start ∧ b.stop ≤ a.stop))
    (qs : List Call) (hqs : ∀ q ∈ qs, q.s < smooth.numNodes ∧ q.t < smooth.numNodes ∧ ∀ a b, a ≤ b → q.thr a ≤ q.thr b) :
    ∃ ws fbS wl fbL, customize c smooth = some ws ∧ customizePerfect c ws = some fbS ∧ customize c live = some wl ∧ customizePerfect c wl = some fbL ∧
      ∃ fuel0 outs st', (∀ inner fuel, fuel0 ≤ inner → fuel0 ≤ fuel →
          queries dbg ⟨(CchServer.new c fbS smooth).1, live, cchPot c fbL.1.graph fbL.2.graph⟩ srt inner fuel
            (TState.new live (CchServer.new c fbS smooth).2 (PotState.new smooth.numNodes)) qs = some (outs, st')) ∧
        List.Forall₂ (fun q o => match o with
          | .found p d => BestWithoutDetour live.Arc smooth.Arc q.thr q.s q.t p d
          | .failed true => ∃ i, q.late i = true
          | .failed false => ¬ ∃ d, Walk live.Arc q.s q.t d) qs outs := by
  have hok : order.OK smooth.numNodes := by rw [← hl]; exact NodeOrder.ok_of_fromNodeOrder hord
  have hnn : live.numNodes = smooth.numNodes := by simp only [FOGraph.numNodes, hfo]
  obtain ⟨wl, fbL, k3, k4, himpl⟩ := C40_cch_potential_perfect smooth hsm l hl order hord c hc live hlive hfo hhd
  rcases build_spec hsm hok with h | ⟨c', h1, hgd, hb⟩
  · rw [hc] at h; simp at h
  · rw [hc] at h1; simp at h1; subst h1
    obtain ⟨w, fb, p, w0, k1, k2, _, _, rfl, hp⟩ := perfect_ready hsm hok hgd hb (metric := smooth) ⟨hsm, rfl, rfl⟩
    have hoe := hb.order_eq
    rw [← hoe] at hp
    obtain ⟨B, hB1, hB2⟩ := bound_exists smooth.numNodes (smooth.weight ++ live.weight) (fun w hw => (List.mem_append.1 hw).elim (hsmallS w) (hsmall w))
    have hBl : ∀ u v w, live.Arc u v w → w ≤ B := fun u v w hA => hB1 w (List.mem_append.2 (.inr (arc_mem hlive hA)))
    have hpl : ∀ u v w, live.Arc u v w → 0 < w := fun u v w hA => hpos w (arc_mem hlive hA)
    have hadj : ∀ {g g' : FOGraph}, g.WF → g'.WF → g.firstOut = g'.firstOut → g.head = g'.head → ∀ u v, (∃ w, g.Arc u v w) → ∃ w, g'.Arc u v w := by
      intro g g' hg hg' h1 h2 u v ⟨w, hA⟩
      obtain ⟨i, a, b, e1, e2, e3, e4, e5, e6⟩ := (edgeAt_arc hg).1 hA
      have hi : i < g'.weight.length := by
        have := (List.getElem?_eq_some_iff.1 e5).1
        rw [hg'.weights, ← h2]; exact this
      exact ⟨_, (edgeAt_arc hg').2 ⟨i, a, b, by rw [← h1]; exact e1, by rw [← h1]; exact e2, e3, e4, by rw [← h2]; exact e5, List.getElem?_eq_getElem hi⟩⟩
    have S : Setup live smooth B (cchPot c fbL.1.graph fbL.2.graph) (PotState.new smooth.numNodes) (exactPot live.Arc)
        (CchServer.new c (perfSides smooth.numNodes c w p) smooth).1 dbg srt (SOK smooth.numNodes (PReady smooth.numNodes) (PReady smooth.numNodes)) := by
      refine ⟨hlive, hsm, hnn.symm, fun u v => ⟨hadj hlive hsm hfo hhd u v, hadj hsm hlive hfo.symm hhd.symm u v⟩, hpl,
        fun u v w hA => hposS w (arc_mem hsm hA), hBl, fun u v w hA => hB1 w (List.mem_append.2 (.inl (arc_mem hsm hA))), by rw [hnn]; exact hB2, ?_,
        exactPot_consistent hlive hBl hpl (by rw [hnn]; exact hB2), ?_⟩
      · rw [hnn]
        exact implements_imp himpl (fun t v x hx => hx.unique (exactPot_answer live.Arc t v))
      · intro st thr path hst hthr hnodes hpath
        exact cch_find_spec' hsm rfl (by rw [hoe]; exact hok) hp hposS dbg hsrt hthr (by rw [← hnn]; exact hnodes)
          (fun hnd => .inr (hpath hnd)) hst
    have hnn2 : (perfSides smooth.numNodes c w p).1.graph.numNodes = smooth.numNodes := hp.dirs.1.nn
    obtain ⟨F, outs, st', e1, e2, e3⟩ := S.queries_spec qs (by rw [hnn]; exact hqs)
      (st := TState.new live (CchServer.new c (perfSides smooth.numNodes c w p) smooth).2 (PotState.new smooth.numNodes)) ⟨by
        simp only [TState.new, CchServer.new, hnn2]
        exact ⟨PReady.new _ _, PReady.new _ _, rfl, rfl⟩, MC.MReady.new _, .inl rfl, _, BOK.new live⟩
    refine ⟨w, _, wl, fbL, k1, k2, k3, k4, F, outs, st', e1, e3.imp ?_⟩
    intro q o h
    cases o with
    | found p d => exact h
    | failed l => cases l <;> exact h

end Verif

namespace Verif.Traffic.Example
open Spec CCH UBS UBS.Example

/-- a road 0 → 1 → 2 → 3, a way round 1 → 4 → 2, and a dead end 4 ↔ 5; node 6 is isolated -/
def usual : FOGraph := ⟨[0, 1, 3, 4, 4, 6, 7, 7], [1, 2, 4, 3, 2, 5, 4], [10, 10, 30, 10, 30, 1, 1]⟩
/-- a traffic jam on 1 → 2 -/
def jam : FOGraph := { usual with weight := [10, 300, 30, 10, 30, 1, 1] }

theorem usual_wf : usual.WF := ⟨by decide, by decide, by decide, by decide, FOGraph.mono_of_check (by decide), by decide⟩
theorem jam_wf : jam.WF := ⟨by decide, by decide, by decide, by decide, FOGraph.mono_of_check (by decide), by decide⟩

def calls : List Call := [⟨fun d => d / 5, 0, 3, fun _ => false⟩, ⟨fun d => 5 * d, 0, 3, fun _ => false⟩, ⟨fun d => d / 5, 3, 0, fun _ => false⟩,
  ⟨fun d => d / 5, 1, 2, fun i => decide (1 ≤ i)⟩, ⟨fun d => d / 5, 4, 4, fun _ => false⟩]

/-- everything that has to be set up, and the answers -/
def answers (dbg : Bool) (smooth live : FOGraph) (l : List Nat) (fuel : Nat) (qs : List Call) : Option (List Outcome × List (List Nat)) := do
  let order ← NodeOrder.fromNodeOrder l
  let c ← build smooth order
  let ws ← customize c smooth
  let fbS ← customizePerfect c ws
  let wl ← customize c live
  let fbL ← customizePerfect c wl
  let (outs, st) ← queries dbg ⟨(CchServer.new c fbS smooth).1, live, cchPot c fbL.1.graph fbL.2.graph⟩ UBS.Example.sort fuel fuel
    (TState.new live (CchServer.new c fbS smooth).2 (PotState.new smooth.numNodes)) qs
  return (outs, st.ops.nodes)

/-- The hypotheses of C64 hold. The first query tries the way round, then the same with a turn in the dead end, and ends up in the
traffic jam; the second, with a higher tolerance, takes the way round; the third has no route; the fourth runs out of time, having blocked
the way round; the last is trivial. -/
example : usual.WF ∧ jam.WF ∧ (∀ x ∈ usual.weight, 0 < x) ∧ (∀ x ∈ jam.weight, 0 < x ∧ usual.numNodes * x < INFINITY) ∧
    answers true usual jam [6, 5, 0, 3, 4, 1, 2] 60 calls =
      some ([.found [0, 1, 2, 3] 320, .found [0, 1, 4, 2, 3] 80, .failed false, .failed true, .found [4] 0], []) ∧
    answers false usual jam [6, 5, 0, 3, 4, 1, 2] 60 (calls.take 1) = some ([.found [0, 1, 2, 3] 320], [[1, 4, 2], [4, 5, 4]]) :=
  ⟨usual_wf, jam_wf, by decide, by decide, by decide +kernel, by decide +kernel⟩

end Verif.Traffic.Example
