import Verif.Proof.TrafficAwareLoop
import Verif.Spec.TrafficAware
set_option linter.unusedSimpArgs false
set_option linter.unusedVariables false
/- Lemmas about queries of the traffic aware server. -/
namespace Verif.Traffic
open Spec UBS CCH MC

variable {σ : Type}

/-- what the queries rely on -/
structure Setup (live smooth : FOGraph) (B : Nat) (P : Potential σ) (s0 : σ) (h : Nat → Nat → Option Nat) (ubs : CchServer) (dbg : Bool)
    (srt : List Rng → List Rng) (U : State PathState PathState → Prop) : Prop where
  hg : live.WF
  hsm : smooth.WF
  nn : smooth.numNodes = live.numNodes
  adj : ∀ u v, (∃ w, live.Arc u v w) ↔ ∃ w, smooth.Arc u v w
  pos : ∀ u v w, live.Arc u v w → 0 < w
  posS : ∀ u v w, smooth.Arc u v w → 0 < w
  le : ∀ u v w, live.Arc u v w → w ≤ B
  leS : ∀ u v w, smooth.Arc u v w → w ≤ B
  small : live.numNodes * B < INFINITY
  impl : Implements P live.numNodes s0 (fun t v x => x = h t v)
  cons : Consistent live.Arc h
  find : ∀ (st : State PathState PathState) (thr : Nat → Nat) (path : List Nat), U st → (∀ a b, a ≤ b → thr a ≤ thr b) → (∀ v ∈ path, v < live.numNodes) →
    (path.Nodup → ∃ d, d < INFINITY ∧ PathOf smooth.Arc path d) →
    ∃ out st', ubs.find dbg srt st thr path = some (out, st') ∧ U st' ∧ UbsAnswer smooth.Arc thr path out

/-- what holds of the forbidden paths -/
structure LInv (live : FOGraph) (A : Nat → Nat → Nat → Prop) (thr : Nat → Nat) (dbg : Bool) (s : Nat) (b : Blocked) : Prop where
  ok : ∃ loc, BOK live b loc
  bad : ∀ f ∈ b.nodes, Bad A thr f
  kind : ∀ f ∈ b.nodes, f.Nodup ∨ f.head? = f.getLast?
  src : ∀ f ∈ b.nodes, s ∉ f.tail
  simple : dbg = true → ∀ f ∈ b.nodes, f.tail.Nodup

theorem LInv.new (live : FOGraph) (A : Nat → Nat → Nat → Prop) (thr : Nat → Nat) (dbg : Bool) (s : Nat) :
    LInv live A thr dbg s (Blocked.new live.numNodes live.numArcs) := by
  have hn : (Blocked.new live.numNodes live.numArcs).nodes = [] := rfl
  exact ⟨⟨_, BOK.new live⟩, by simp [hn], by simp [hn], by simp [hn], by simp [hn]⟩

theorem LInv.shape {live : FOGraph} {A : Nat → Nat → Nat → Prop} {thr : Nat → Nat} {dbg : Bool} {s : Nat} {b : Blocked} (h : LInv live A thr dbg s b)
    (hs : s < live.numNodes) : Shape b s (Active.new 0) := by
  obtain ⟨loc, hb⟩ := h.ok
  obtain ⟨c, hc⟩ : ∃ c, b.counter[s]? = some c := ⟨_, List.getElem?_eq_getElem (by rw [hb.cl]; exact hs)⟩
  have h0 : c = 0 := by
    by_contra hne
    obtain ⟨p, h1, i, x, h2, h3, h4, h5⟩ := hb.zero s c hc hne
    obtain ⟨k, hk⟩ := List.mem_iff_getElem?.1 h1
    refine h.src (p.map Prod.fst) (List.mem_of_getElem? (nodes_get.2 ⟨p, hk, rfl⟩)) ?_
    refine List.mem_iff_getElem?.2 ⟨i - 1, ?_⟩
    rw [List.getElem?_tail, show i - 1 + 1 = i from by omega, List.getElem?_map, h4]
    simp [h5]
  subst h0
  exact ⟨0, hc, Active.Same.refl _⟩

/-- the lists of nodes up to a length -/
theorem lists_le_finite (n : Nat) : ∀ k, ∃ L : List (List Nat), ∀ q : List Nat, q.length ≤ k → (∀ v ∈ q, v < n) → q ∈ L := by
  intro k
  induction k with
  | zero => exact ⟨[[]], fun q hq _ => by rw [List.length_eq_zero_iff.1 (by omega : q.length = 0)]; simp⟩
  | succ k ih =>
    obtain ⟨L, hL⟩ := ih
    refine ⟨[] :: (List.range n).flatMap (fun v => L.map (v :: ·)), fun q hq hn => ?_⟩
    cases q with
    | nil => simp
    | cons v q =>
      refine List.mem_cons_of_mem _ (List.mem_flatMap.2 ⟨v, List.mem_range.2 (hn v (by simp)), List.mem_map.2 ⟨q, hL q ?_ ?_, rfl⟩⟩)
      · simp only [List.length_cons] at hq; omega
      · exact fun x hx => hn x (by simp [hx])

section
variable {live smooth : FOGraph} {B : Nat} {P : Potential σ} {s0 : σ} {h : Nat → Nat → Option Nat} {ubs : CchServer} {dbg : Bool} {srt : List Rng → List Rng}
  {U : State PathState PathState → Prop} {thr : Nat → Nat} {s t : Nat}

theorem Setup.ctx (S : Setup live smooth B P s0 h ubs dbg srt U) {b : Blocked} (hL : LInv live smooth.Arc thr dbg s b) (hs : s < live.numNodes)
    {loc : Nat → Nat → Nat} (hb : BOK live b loc) : Ctx live b loc P (PotAt P live.numNodes s0 t) s (h t) where
  hg := S.hg
  hb := hb
  pos := S.pos
  cons := fun u v w pv hA hp => S.cons.arc t u v w pv hA hp
  lt := S.cons.lt t
  src := hL.shape hs
  get := by
    intro c v hc hv
    obtain ⟨c', o, h1, h2, h3⟩ := S.impl.get_step hc hv
    subst h3
    exact ⟨c', h1, h2⟩

/-- A path without violations is followed by the search. -/
theorem Setup.good_run (S : Setup live smooth B P s0 h ubs dbg srt U) {b : Blocked} (hL : LInv live smooth.Arc thr dbg s b) (hs : s < live.numNodes)
    {q : List Nat} {d : Nat} (hq : PathOf live.Arc q d) (hh : q.head? = some s) (hl : q.getLast? = some t) (hv : NoViolation smooth.Arc thr q) (pot : Nat → Option Nat) :
    ∃ a, Run (env live b s pot) s (Active.new 0) t a d := by
  obtain ⟨loc, hb⟩ := hL.ok
  obtain ⟨q', rfl⟩ : ∃ q', q = s :: q' := by
    cases q with
    | nil => simp at hh
    | cons x q => simp at hh; subst hh; exact ⟨q, rfl⟩
  obtain ⟨x, hx⟩ := track_some S.hg hb hL.kind q' [s] s (Active.new 0) rfl (linked_of_pathOf S.hg hq) (hL.shape hs) (hist_new _ _ _ _ _)
    (by simpa using hv.1) (fun f hf hin => hL.bad f hf _ hin hv)
  exact ⟨x, run_of_track hq (Active.new 0) x (fun u hu => by simp at hu; subst hu; exact hL.shape hs) S.hg ⟨loc, hb⟩ (Apart.of_nodup hv.1) hx s t rfl hl⟩

/-- the state between queries, while the target `t` is set -/
structure TInv (n : Nat) (P : Potential σ) (s0 : σ) (U : State PathState PathState → Prop) (t : Nat) (st : TState σ) : Prop where
  ubs : U st.ubs
  data : MReady n st.data
  pot : PotAt P n s0 t st.pot

/-- what a loop ends with -/
def LoopRes (live smooth : FOGraph) (thr : Nat → Nat) (late : Nat → Bool) (s t : Nat) : Outcome → Prop
  | .found p d => BestWithoutDetour live.Arc smooth.Arc thr s t p d
  | .failed l => l = true ∧ ∃ i, late i = true

theorem Setup.loop_spec (S : Setup live smooth B P s0 h ubs dbg srt U) (hthr : ∀ a b, a ≤ b → thr a ≤ thr b) (late : Nat → Bool) (hs : s < live.numNodes)
    {q0 : List Nat} {C : Nat} (hq : PathOf live.Arc q0 C) (hq1 : q0.head? = some s) (hq2 : q0.getLast? = some t) (hq3 : NoViolation smooth.Arc thr q0)
    (hCB : C + B < INFINITY) {M : List (List Nat)} (hM : ∀ q : List Nat, q.length ≤ C + 1 → (∀ v ∈ q, v < live.numNodes) → q ∈ M) :
    ∀ (k : Nat) (Q : List (List Nat)) (st : TState σ) (i : Nat), Q.Nodup → (∀ q ∈ Q, q ∈ M) → M.length ≤ k + Q.length → TInv live.numNodes P s0 U t st →
      LInv live smooth.Arc thr dbg s st.ops → (∀ q ∈ Q, ∃ f ∈ st.ops.nodes, f <:+: q) →
      ∃ F o st', (∀ inner fuel, F ≤ inner → F ≤ fuel → loop dbg ⟨ubs, live, P⟩ srt thr late inner s t fuel i st = some (o, st')) ∧
        TInv live.numNodes P s0 U t st' ∧ (∃ loc, BOK live st'.ops loc) ∧ LoopRes live smooth thr late s t o := by
  intro k
  induction k with
  | zero =>
    intro Q st i hnd hQM hlen hT hL hQ
    by_cases hlate : late i = true
    · refine ⟨1, .failed true, st, ?_, hT, hL.ok, rfl, i, hlate⟩
      intro inner fuel _ hf
      obtain ⟨f, rfl⟩ : ∃ f, fuel = f + 1 := ⟨fuel - 1, by omega⟩
      rw [loop, if_pos hlate]
    · -- one more path would be too many
      exfalso
      obtain ⟨loc, hb⟩ := hL.ok
      have hC := S.ctx (t := t) hL hs hb
      obtain ⟨a0, hrun⟩ := S.good_run hL hs hq hq1 hq2 hq3 (h t)
      obtain ⟨F, dist, path, d', c', e1, e2, e3, e4, e5, e6, ⟨a, e7⟩, e8, e9, e10⟩ := searchPath_spec hC hs hrun (S.cons.target t) S.le hCB ubs rfl hT.data hT.pot
      have hpn : ∀ v ∈ path, v < live.numNodes := pathOf_mem e6.1 (fun u v w hA => CCH.FOGraph.WF.arc_lt S.hg hA) (fun v hv => by rw [e4] at hv; injection hv with hv; omega)
      have hin : path ∈ M := hM path (by have := pathOf_pos S.pos e6.1; have := e10 _ _ hrun; omega) hpn
      have hnotin : path ∉ Q := by
        intro hmem
        obtain ⟨f, f1, f2⟩ := hQ path hmem
        exact track_infix S.hg hb path _ a (linked_of_pathOf S.hg e6.1) (fun u hu => by
          rw [e4] at hu; injection hu with hu; subst hu; exact hC.src) e7 f f1 f2
      have := (List.subperm_of_subset (List.nodup_cons.2 ⟨hnotin, hnd⟩) (fun x hx => by
        rcases List.mem_cons.1 hx with rfl | hx
        · exact hin
        · exact hQM x hx) : List.Subperm (path :: Q) M).length_le
      simp only [List.length_cons] at this
      omega
  | succ k ih =>
    intro Q st i hnd hQM hlen hT hL hQ
    by_cases hlate : late i = true
    · refine ⟨1, .failed true, st, ?_, hT, hL.ok, rfl, i, hlate⟩
      intro inner fuel _ hf
      obtain ⟨f, rfl⟩ : ∃ f, fuel = f + 1 := ⟨fuel - 1, by omega⟩
      rw [loop, if_pos hlate]
    · obtain ⟨loc, hb⟩ := hL.ok
      have hC := S.ctx (t := t) hL hs hb
      obtain ⟨a0, hrun⟩ := S.good_run hL hs hq hq1 hq2 hq3 (h t)
      obtain ⟨F, dist, path, d', c', e1, e2, e3, e4, e5, e6, ⟨a, e7⟩, e8, e9, e10⟩ := searchPath_spec hC hs hrun (S.cons.target t) S.le hCB ubs rfl hT.data hT.pot
      have hpn : ∀ v ∈ path, v < live.numNodes := pathOf_mem e6.1 (fun u v w hA => CCH.FOGraph.WF.arc_lt S.hg hA) (fun v hv => by rw [e4] at hv; injection hv with hv; omega)
      have hin : path ∈ M := hM path (by have := pathOf_pos S.pos e6.1; have := e10 _ _ hrun; omega) hpn
      have hno := track_infix S.hg hb path _ a (linked_of_pathOf S.hg e6.1) (fun u hu => by
          rw [e4] at hu; injection hu with hu; subst hu; exact hC.src) e7
      have hnotin : path ∉ Q := by
        intro hmem
        obtain ⟨f, f1, f2⟩ := hQ path hmem
        exact hno f f1 f2
      obtain ⟨viol, u, f1, f2, f3⟩ := S.find st.ubs thr path hT.ubs hthr hpn (fun hnd => by
        obtain ⟨d, h1, h2⟩ := transfer (A' := smooth.Arc) (B := B) (fun u v w hA => by
          obtain ⟨w', hw'⟩ := (S.adj u v).1 ⟨w, hA⟩
          exact ⟨w', hw', S.leS _ _ _ hw'⟩) e6.1
        refine ⟨d, ?_, h1⟩
        have h3 := nodup_len hnd hpn
        have h4 : (path.length - 1) * B ≤ live.numNodes * B := Nat.mul_le_mul_right _ (by omega)
        have := S.small
        omega)
      by_cases hvi : viol = []
      · refine ⟨F + 1, .found path dist, { st with data := d', pot := c', ubs := u }, ?_, ⟨f2, e2, e3⟩, ⟨loc, hb⟩, e4, e5, (noViolation_iff f3).1 hvi, e6, ?_⟩
        · intro inner fuel hi hf
          obtain ⟨f, rfl⟩ : ∃ f, fuel = f + 1 := ⟨fuel - 1, by omega⟩
          rw [loop, if_neg hlate, e1 dbg inner (by omega)]
          simp only [Option.bind_eq_bind, Option.bind_some, f1]
          rw [if_pos hvi]
          rfl
        · intro q d'' hq1 hq2 hq3 hq4
          obtain ⟨a', ha'⟩ := S.good_run hL hs hq4 hq1 hq2 hq3 (h t)
          exact e10 _ _ ha'
      · obtain ⟨b', g1, g2⟩ := forbid_spec S.hg (linked_of_pathOf S.hg e6.1) hpn f3 hno
          (fun hdbg r r' hr hr' hlt => no_repeat hC (hL.simple hdbg) e4 e5 e6.1 e7 e9 e10 hr hr' hlt) viol [] st.ops rfl
          ⟨⟨loc, hb⟩, fun _ hf => hf, fun _ hf => .inl hf, by simp, hL.simple⟩
        obtain ⟨r0, hr0⟩ : ∃ r0, r0 ∈ viol := List.exists_mem_of_ne_nil _ hvi
        have hsub : ∀ f ∈ b'.nodes, f ∈ st.ops.nodes ∨ (Bad smooth.Arc thr f ∧ (f.Nodup ∨ f.head? = f.getLast?) ∧ s ∉ f.tail) := by
          intro f hf
          rcases g2.new f hf with hf | ⟨r, hr, rfl⟩
          · exact .inl hf
          · obtain ⟨v1, v2, v3, v4⟩ := violation f3 hr
            refine .inr ⟨v3, v4, fun hmem => e8 ?_⟩
            have hx : path[r.start]? = some path[r.start] := List.getElem?_eq_getElem (by omega)
            rw [subPath_cons hx, List.tail_cons] at hmem
            have := List.mem_of_mem_take hmem
            rw [show path.drop (r.start + 1) = path.tail.drop r.start by rw [List.tail_drop.symm]; cases path <;> simp] at this
            exact List.mem_of_mem_drop this
        obtain ⟨F', o, st', h1, h2, h3, h4⟩ := ih (path :: Q) { st with data := d', pot := c', ubs := u, ops := b' } (i + 1)
          (List.nodup_cons.2 ⟨hnotin, hnd⟩) (fun q hq => by
            rcases List.mem_cons.1 hq with rfl | hq
            · exact hin
            · exact hQM q hq) (by simp only [List.length_cons]; omega) ⟨f2, e2, e3⟩
          ⟨g2.ok, fun f hf => (hsub f hf).elim (hL.bad f) (·.1), fun f hf => (hsub f hf).elim (hL.kind f) (·.2.1),
            fun f hf => (hsub f hf).elim (hL.src f) (·.2.2), g2.simple⟩ (fun q hq => by
            rcases List.mem_cons.1 hq with rfl | hq
            · obtain ⟨f, k1, k2⟩ := g2.cov r0 hr0
              exact ⟨f, k1, k2.trans (subPath_infix _ _)⟩
            · obtain ⟨f, k1, k2⟩ := hQ q hq
              exact ⟨f, g2.old f k1, k2⟩)
        refine ⟨F + F' + 1, o, st', ?_, h2, h3, h4⟩
        intro inner fuel hi hf
        obtain ⟨f, rfl⟩ : ∃ f, fuel = f + 1 := ⟨fuel - 1, by omega⟩
        rw [loop, if_neg hlate, e1 dbg inner (by omega)]
        simp only [Option.bind_eq_bind, Option.bind_some, f1]
        rw [if_neg hvi]
        simp only [g1, Option.bind_some]
        exact h1 inner f (by omega) (by omega)

/-- a lower bound along a path -/
theorem bound_path {A : Nat → Nat → Nat → Prop} {h : Nat → Nat → Option Nat} (hc : Consistent A h) {p : List Nat} {d : Nat} (hp : PathOf A p d) {s t : Nat}
    (hs : p.head? = some s) (ht : p.getLast? = some t) : ∃ x, h t s = some x ∧ x ≤ d := by
  induction hp generalizing s with
  | single u => simp at hs ht; subst hs ht; exact ⟨0, hc.target _, Nat.le_refl _⟩
  | @cons u v w d p hA _ ih =>
    simp at hs
    subst hs
    obtain ⟨y, h1, h2⟩ := ih (s := v) rfl (by simpa using ht)
    obtain ⟨x, h3, h4⟩ := hc.arc t u v w y hA h1
    exact ⟨x, h3, by omega⟩

/-- what a query ends with -/
def QueryRes (live smooth : FOGraph) (thr : Nat → Nat) (late : Nat → Bool) (s t : Nat) : Outcome → Prop
  | .found p d => BestWithoutDetour live.Arc smooth.Arc thr s t p d
  | .failed true => ∃ i, late i = true
  | .failed false => ¬ ∃ d, Walk live.Arc s t d

/-- the state between queries -/
structure Ready (live : FOGraph) (P : Potential σ) (s0 : σ) (U : State PathState PathState → Prop) (st : TState σ) : Prop where
  ubs : U st.ubs
  data : MReady live.numNodes st.data
  pot : PotReach P live.numNodes s0 st.pot
  ops : ∃ loc, BOK live st.ops loc

theorem Setup.query_spec (S : Setup live smooth B P s0 h ubs dbg srt U) (hthr : ∀ a b, a ≤ b → thr a ≤ thr b) (late : Nat → Bool) (hs : s < live.numNodes)
    (ht : t < live.numNodes) {st : TState σ} (hst : Ready live P s0 U st) :
    ∃ F o st', (∀ inner fuel, F ≤ inner → F ≤ fuel → query dbg ⟨ubs, live, P⟩ srt late inner fuel st thr s t = some (o, st')) ∧
      Ready live P s0 U st' ∧ QueryRes live smooth thr late s t o := by
  obtain ⟨loc, hb⟩ := hst.ops
  have e1 := reset_spec S.hg hb
  obtain ⟨c1, e2, e3⟩ := S.impl.init_step hst.pot ht
  obtain ⟨c2, x, e4, e5, e6⟩ := S.impl.get_step e3 hs
  have e6 : x = h t s := e6
  subst e6
  cases hbase : h t s with
  | none =>
    refine ⟨0, .failed false, { st with ops := Blocked.new live.numNodes live.numArcs, pot := c2 }, ?_, ⟨hst.ubs, hst.data, .inr ⟨t, e5⟩, _, BOK.new live⟩, ?_⟩
    · intro inner fuel _ _
      unfold query
      rw [hbase] at e4
      simp only [e1, e2, e4, Option.bind_eq_bind, Option.bind_some]
      rfl
    · rintro ⟨d, hw⟩
      obtain ⟨p, h1, h2, h3⟩ := walkPath hw
      obtain ⟨y, h4, _⟩ := bound_path S.cons h1 h2 h3
      rw [hbase] at h4
      simp at h4
  | some base =>
    obtain ⟨d, hw⟩ := S.cons.reach t s base hbase
    obtain ⟨p, h1, h2, h3⟩ := walkPath hw
    have hadj : ∀ u v w, live.Arc u v w → ∃ w', smooth.Arc u v w' ∧ w' ≤ B := fun u v w hA => by
      obtain ⟨w', hw'⟩ := (S.adj u v).1 ⟨w, hA⟩
      exact ⟨w', hw', S.leS _ _ _ hw'⟩
    have hadj' : ∀ u v w, smooth.Arc u v w → ∃ w', live.Arc u v w' ∧ w' ≤ B := fun u v w hA => by
      obtain ⟨w', hw'⟩ := (S.adj u v).2 ⟨w, hA⟩
      exact ⟨w', hw', S.le _ _ _ hw'⟩
    obtain ⟨ds, k1, _⟩ := transfer hadj h1
    obtain ⟨q0, l, k2, k3, k4, k5⟩ := exists_good S.posS (pathWalk k1 h2 h3) thr
    obtain ⟨C, k6, k7⟩ := transfer hadj' k2
    have hqn : ∀ v ∈ q0, v < live.numNodes := pathOf_mem k6 (fun u v w hA => CCH.FOGraph.WF.arc_lt S.hg hA) (fun v hv => by rw [k3] at hv; injection hv with hv; omega)
    have hCB : C + B < INFINITY := by
      have h4 := nodup_len k5.1 hqn
      have h5 : 0 < q0.length := by cases q0 <;> simp at k3 ⊢
      have h6 : q0.length * B ≤ live.numNodes * B := Nat.mul_le_mul_right _ h4
      have h7 : q0.length * B = (q0.length - 1) * B + B := by
        conv_lhs => rw [show q0.length = q0.length - 1 + 1 from by omega]
        rw [Nat.succ_mul]
      have := S.small
      omega
    obtain ⟨M, hM⟩ := lists_le_finite live.numNodes (C + 1)
    obtain ⟨F, o, st', g1, g2, g3, g4⟩ := S.loop_spec hthr late hs k6 k3 k4 k5 hCB hM M.length [] { st with ops := Blocked.new live.numNodes live.numArcs, pot := c2 } 0
      (by simp) (by simp) (by simp) ⟨hst.ubs, hst.data, e5⟩ (LInv.new live _ _ _ _) (by simp)
    refine ⟨F, o, st', ?_, ⟨g2.ubs, g2.data, .inr ⟨t, g2.pot⟩, g3⟩, ?_⟩
    · intro inner fuel hi hf
      have := g1 inner fuel hi hf
      unfold query
      rw [hbase] at e4
      simp only [e1, e2, e4, this, Option.bind_eq_bind, Option.bind_some]
      cases o with
      | failed l => rfl
      | found p dist =>
        obtain ⟨m1, m2, m3, m4, m5⟩ := g4
        obtain ⟨y, m6, m7⟩ := bound_path S.cons m4.1 m1 m2
        rw [hbase] at m6
        injection m6 with m6
        subst m6
        simp [minus, m7]
    · cases o with
      | failed l =>
        obtain ⟨rfl, h4⟩ := g4
        exact h4
      | found p dist => exact g4

end
end Verif.Traffic
