import Verif.Proof.BiTopoMT
import Verif.Props.BiTopo
set_option linter.unusedSimpArgs false
set_option linter.unusedVariables false
/-
Property C60: the two-thread search along chains, for every schedule and memory order.
-/
namespace Verif
open Spec DData GraphOps

namespace MT

/-- Values that a thread can have read: no value exceeds `INFINITY`. -/
structure Plausible (env : Env) : Prop where
  head : env.head ≤ INFINITY
  prog : ∀ i, env.prog i ≤ INFINITY
  label : ∀ i v, env.label i v ≤ INFINITY
  tent : ∀ i, env.tent i ≤ INFINITY

/-- Values that a thread can have read when the other one ends as `other`: labels only decrease, so a label that was read is at least the last one. -/
structure Visible (other : Thread) (env : Env) : Prop extends Plausible env where
  last : ∀ i v l, other.d.dist.get v = some l → l ≤ env.label i v

/-- The queries on a graph: with zero potentials, or with any potentials of at most `P` if labels and potentials cannot exceed `INFINITY`. -/
inductive Valid (g : FOGraph) (sv : BiT.Runner) : Job → Prop
  | zero (s t cap : Nat) : s < g.numNodes → t < g.numNodes → Valid g sv (zeroJob sv s t cap)
  | sym (improved : Bool) (pf pb : Nat → Option Nat) (s t cap W P : Nat) : s < g.numNodes → t < g.numNodes → (∀ u v w, g.Arc u v w → w ≤ W) →
      (∀ v q, pf v = some q → q ≤ P) → (∀ v q, pb v = some q → q ≤ P) → g.numNodes * W + P ≤ INFINITY → Valid g sv (symJob sv improved pf pb s t cap)

/-- The servers that can occur: a new one, or what remains after a query, whatever the threads read. -/
inductive Reachable (g : FOGraph) (tc : Topo.VTopo) : BiT.Runner → Prop
  | new {sv : BiT.Runner} : BiT.Runner.core g tc = some sv → Reachable g tc sv
  | query {sv sv' : BiT.Runner} {J : Job} {sched : List (Bool × Env)} {r : Option Nat} : Reachable g tc sv → Valid g sv J → (∀ x ∈ sched, Plausible x.2) →
      query J sched sv = some (r, sv') → Reachable g tc sv'

theorem zero_side : SideOK zeroF 0 ∧ SideOK zeroB 0 := by
  refine ⟨⟨?_, ?_, ?_, ?_⟩, ?_, ?_, ?_, ?_⟩
  · intro v q h; simp [zeroF, zeroBi] at h; omega
  · intro v l pr lim _ _; exact ⟨false, rfl⟩
  · intro k pr lim hk hp
    have h : add32 k pr = some (k + pr) := add32_of_lt (by simp only [INFINITY, U32] at *; omega)
    exact ⟨_, by simp only [zeroF, zeroBi, h, Option.bind_eq_bind, Option.bind_some]; rfl⟩
  · intro pr lim; rfl
  · intro v q h; simp [zeroB, zeroBi] at h; omega
  · intro v l pr lim _ _; exact ⟨false, rfl⟩
  · intro k pr lim hk hp
    have h : add32 pr k = some (pr + k) := add32_of_lt (by simp only [INFINITY, U32] at *; omega)
    exact ⟨_, by simp only [zeroB, zeroBi, h, Option.bind_eq_bind, Option.bind_some]; rfl⟩
  · intro pr lim; rfl

theorem prune_total {improved : Bool} {raw other : Nat → Option Nat} {P : Nat} (hr : ∀ v q, raw v = some q → q ≤ P) (hP : P ≤ INFINITY) {v l pr lim : Nat}
    (hl : l < INFINITY) (hp : pr ≤ INFINITY) : ∃ b, pruneInternal improved raw other v l pr lim = some b := by
  have h1 : (raw v).getD INFINITY ≤ INFINITY := by
    cases h : raw v with
    | none => simp
    | some q => have := hr v q h; simp; omega
  have h2 : add32 l ((raw v).getD INFINITY) = some (l + (raw v).getD INFINITY) := add32_of_lt (by simp only [INFINITY, U32] at *; omega)
  have h3 : add32 l (pr - (other v).getD INFINITY) = some (l + (pr - (other v).getD INFINITY)) := add32_of_lt (by simp only [INFINITY, U32] at *; omega)
  unfold pruneInternal
  simp only [h2, h3, Option.bind_eq_bind, Option.bind_some, Option.pure_def]
  split
  · split
    · exact ⟨_, rfl⟩
    · split <;> exact ⟨_, rfl⟩
  · exact ⟨_, rfl⟩

theorem sym_side {improved : Bool} {pf pb : Nat → Option Nat} {P : Nat} (hf : ∀ v q, pf v = some q → q ≤ P) (hb : ∀ v q, pb v = some q → q ≤ P)
    (hP : P ≤ INFINITY) : SideOK (symF improved pf pb) P ∧ SideOK (symB improved pf pb) P :=
  ⟨⟨hf, fun v l pr lim hl hp => prune_total hf hP hl hp, fun _ _ _ _ _ => ⟨_, rfl⟩, fun _ _ => rfl⟩,
    hb, fun v l pr lim hl hp => prune_total hb hP hl hp, fun _ _ _ _ _ => ⟨_, rfl⟩, fun _ _ => rfl⟩

/-- The two threads of a valid query. -/
structure JobOK (g : FOGraph) (deg : Nat → Option SymDeg) (sv : BiT.Runner) (J : Job) (W L P : Nat) : Prop where
  n : J.n = g.numNodes
  F : J.F = ⟨g.linkIter, deg⟩
  B : J.B = ⟨sv.backward.linkIter, deg⟩
  s : J.s < g.numNodes
  t : J.t < g.numNodes
  f : Fix J.f g.numNodes g.linkIter deg W L P
  b : Fix J.b g.numNodes sv.backward.linkIter deg W L P

theorem valid_ok {g : FOGraph} {deg : Nat → Option SymDeg} {sv : BiT.Runner} {J : Job} (h : BiT.RunnerOK g deg sv) (hv : Valid g sv J) :
    ∃ W L P, JobOK g deg sv J W L P := by
  have hw : ∀ u v w, LArc g.linkIter u v w → w ≤ INFINITY := by
    rintro u v w ⟨ls, h1, h2⟩; exact h.set.fw.weights u ls _ h1 h2
  cases hv with
  | zero s t cap hs ht =>
    refine ⟨INFINITY, INFINITY - 1, 0, by simp [zeroJob, h.fw], by simp [zeroJob, h.fw, h.topo], by simp [zeroJob, h.topo], hs, ht, ?_, ?_⟩
    · exact ⟨h.set.fw, ⟨h.degF.total, h.degF.two, h.degF.three⟩, zero_side.1, hw, .inr (by simp [INFINITY]), by simp⟩
    · exact ⟨h.set.bw, ⟨h.degB.total, h.degB.two, h.degB.three⟩, zero_side.2, fun u v w ha => hw v u w ((h.set.rev v u w).1 ha), .inr (by simp [INFINITY]), by simp⟩
  | sym improved pf pb s t cap W P hs ht hW hf hb hP =>
    refine ⟨W, g.numNodes * W, P, by simp [symJob, h.fw], by simp [symJob, h.fw, h.topo], by simp [symJob, h.topo], hs, ht, ?_, ?_⟩
    · exact ⟨h.set.fw, ⟨h.degF.total, h.degF.two, h.degF.three⟩, (sym_side hf hb (by omega)).1, hW, .inl (Nat.le_refl _), hP⟩
    · exact ⟨h.set.bw, ⟨h.degB.total, h.degB.two, h.degB.three⟩, (sym_side hf hb (by omega)).2, fun u v w ha => hW v u w ((h.set.rev v u w).1 ha), .inl (Nat.le_refl _), hP⟩

theorem Plausible.ok {env : Env} (h : Plausible env) : EnvOK (fun _ => 0) env := ⟨h.head, h.prog, fun i v => ⟨Nat.zero_le _, h.label i v⟩, h.tent⟩

/-- The beginning of a query. -/
theorem start_ok {g : FOGraph} {deg : Nat → Option SymDeg} {sv : BiT.Runner} {J : Job} {W L P : Nat} (h : BiT.RunnerOK g deg sv) (hJ : JobOK g deg sv J W L P)
    (Ef Eb : Nat → Nat) : ∃ th a b, start J sv.fd sv.bd = some th ∧ TOK J.f g.numNodes g.linkIter J.s W J.t Ef th.1 a ∧
      TOK J.b g.numNodes sv.backward.linkIter J.t W J.s Eb th.2 b := by
  obtain ⟨_, hfd⟩ := h.fd
  obtain ⟨_, hbd⟩ := h.bd
  obtain ⟨d1, a, h1, h2⟩ := start_spec J.f g.numNodes g.linkIter W J.t Ef hfd hJ.s J.cap
  obtain ⟨d2, b, h3, h4⟩ := start_spec J.b g.numNodes sv.backward.linkIter W J.s Eb hbd hJ.t J.cap
  exact ⟨_, a, b, by simp only [start, h1, h3, Option.bind_eq_bind, Option.bind_some]; rfl, h2, h4⟩

/-- The values made visible by a thread. -/
theorem TOK.view {sd : Side} {n : Nat} {links : Nat → Option (List Link)} {s W goal : Nat} {E : Nat → Nat} {th : Thread} {a : Abs Unit}
    (h : TOK sd n links s W goal E th a) : Plausible th.view := by
  refine ⟨h.prog, fun _ => h.prog, ?_, fun _ => h.inv.tent⟩
  intro i v
  simp only [Thread.view]
  by_cases hv : v < n
  · rw [h.ref.get hv]; exact h.inv.ub v
  · cases hg : th.d.dist.get v with
    | none => simp
    | some l => exact absurd (get_lt h.ref hg) hv

/-- The meeting node of a thread. -/
theorem value_ok {n s t : Nat} {fl bl : Nat → Option (List Link)} {fd bd : DData Unit} {a b : Abs Unit} (hf : Refines n fd a) (hb : Refines n bd b)
    (hab : (∀ x, a.D x ≤ INFINITY) ∧ ∀ x, b.D x ≤ INFINITY) {m : Option Nat} (hm : ∀ x, m = some x → x < n ∧ a.D x < INFINITY ∧ b.D x < INFINITY) :
    ∃ r, value fd bd m = some r ∧ (r = none ↔ m = none) ∧ ∀ x d, r = some (x, d) → m = some x ∧ d = a.D x + b.D x ∧ a.D x < INFINITY ∧ b.D x < INFINITY := by
  cases m with
  | none => exact ⟨none, rfl, by simp, by simp⟩
  | some x =>
    obtain ⟨h1, h2, h3⟩ := hm x rfl
    have h4 : add32 (a.D x) (b.D x) = some (a.D x + b.D x) := add32_of_lt (by simp only [INFINITY, U32] at *; omega)
    refine ⟨some (x, a.D x + b.D x), by simp [value, hf.get h1, hb.get h1, h4], by simp, ?_⟩
    intro y d hy
    simp only [Option.some.injEq, Prod.mk.injEq] at hy
    obtain ⟨rfl, rfl⟩ := hy
    exact ⟨rfl, rfl, h2, h3⟩

/-- The join of two threads that have returned. -/
theorem join_ok {n s t : Nat} {fl bl : Nat → Option (List Link)} {th : Thread × Thread} {a b : Abs Unit} (hf : Refines n th.1.d a) (hb : Refines n th.2.d b)
    (hab : (∀ x, a.D x ≤ INFINITY) ∧ ∀ x, b.D x ≤ INFINITY) {mf mb : Option Nat} (h1 : th.1.done = some mf) (h2 : th.2.done = some mb)
    (hmf : ∀ x, mf = some x → x < n ∧ a.D x < INFINITY ∧ b.D x < INFINITY) (hmb : ∀ x, mb = some x → x < n ∧ a.D x < INFINITY ∧ b.D x < INFINITY) (meet : Nat) :
    ∃ r, join th meet = some r ∧ r.fd = th.1.d ∧ r.bd = th.2.d ∧ (r.result = none ↔ mf = none ∧ mb = none) ∧
      ∀ d, r.result = some d → d = a.D r.meet + b.D r.meet ∧ a.D r.meet < INFINITY ∧ b.D r.meet < INFINITY := by
  obtain ⟨rf, e1, e2, e3⟩ := value_ok (s := s) (t := t) (fl := fl) (bl := bl) hf hb hab hmf
  obtain ⟨rb, g1, g2, g3⟩ := value_ok (s := s) (t := t) (fl := fl) (bl := bl) hf hb hab hmb
  simp only [join, h1, h2, e1, g1, Option.bind_eq_bind, Option.bind_some]
  cases rf with
  | none =>
    cases rb with
    | none => exact ⟨_, rfl, rfl, rfl, by simp at e2 g2; simp [e2, g2], by simp⟩
    | some y =>
      obtain ⟨y, d⟩ := y
      refine ⟨_, rfl, rfl, rfl, by simp at g2; simp [g2], ?_⟩
      intro d' hd'
      simp only [Option.some.injEq] at hd'; subst hd'
      exact (g3 y d rfl).2
  | some x =>
    obtain ⟨x, d⟩ := x
    cases rb with
    | none =>
      refine ⟨_, rfl, rfl, rfl, by simp at e2; simp [e2], ?_⟩
      intro d' hd'
      simp only [Option.some.injEq] at hd'; subst hd'
      exact (e3 x d rfl).2
    | some y =>
      obtain ⟨y, d'⟩ := y
      simp only
      split
      · refine ⟨_, rfl, rfl, rfl, by simp at e2; simp [e2], ?_⟩
        intro d'' hd''
        simp only [Option.some.injEq] at hd''; subst hd''
        exact (e3 x d rfl).2
      · refine ⟨_, rfl, rfl, rfl, by simp at e2; simp [e2], ?_⟩
        intro d'' hd''
        simp only [Option.some.injEq] at hd''; subst hd''
        exact (g3 y d' rfl).2

theorem reachable_ok {g : FOGraph} (hg : g.WF) (hw : g.Bounded) {tc : Topo.VTopo} (hd : BiT.SoundBoth g tc.symDeg) {sv : BiT.Runner}
    (h : Reachable g tc sv) : BiT.RunnerOK g tc.symDeg sv := by
  induction h with
  | new h =>
    obtain ⟨sv', h1, h2⟩ := BiT.core_ok hg hw tc hd
    rw [h1] at h; simp only [Option.some.injEq] at h; subst h; exact h2
  | @query sv sv' J sched r _ hv hp hq ih =>
    obtain ⟨W, L, P, hJ⟩ := valid_ok ih hv
    obtain ⟨th, a, b, h1, h2, h3⟩ := start_ok ih hJ (fun _ => 0) (fun _ => 0)
    obtain ⟨th', a', b', h4, h5, h6, _⟩ := exec_spec hJ.n hJ.F hJ.B hJ.f hJ.b hJ.s hJ.t sched (fun x hx => by
      have := (hp x hx).ok; split <;> exact this) h2 h3
    simp only [query, h1, h4, Option.bind_eq_bind, Option.bind_some, Option.bind_eq_some_iff] at hq
    obtain ⟨res, hres, hq⟩ := hq
    simp only [Option.pure_def, Option.some.injEq, Prod.mk.injEq] at hq
    have hd : res.fd = th'.1.d ∧ res.bd = th'.2.d := by
      simp only [join, Option.bind_eq_bind, Option.bind_eq_some_iff] at hres
      obtain ⟨_, _, _, _, f, _, b, _, hres⟩ := hres
      split at hres
      · split at hres <;> · simp only [Option.pure_def, Option.some.injEq] at hres; subst hres; exact ⟨rfl, rfl⟩
      all_goals · simp only [Option.pure_def, Option.some.injEq] at hres; subst hres; exact ⟨rfl, rfl⟩
    rw [← hq.2]
    exact ⟨ih.fw, ih.topo, ih.set, ⟨a', by rw [hd.1]; exact h5.ref⟩, ⟨b', by rw [hd.2]; exact h6.ref⟩, ih.degF, ih.degB⟩

end MT

/-! #### Results -/

/-- **C60** The two-thread search never panics, whatever values (at most `INFINITY`) the threads read from each other, and it terminates: a thread that was
scheduled more than `n (2 INFINITY + 1)` times has returned. The values it makes visible are at most `INFINITY`, so they are possible reads. -/
theorem C60_safe (g : FOGraph) (hg : g.WF) (hw : g.Bounded) (tc : Topo.VTopo) (hd : BiT.SoundBoth g tc.symDeg) (sv : BiT.Runner)
    (hsv : MT.Reachable g tc sv) (J : MT.Job) (hJ : MT.Valid g sv J) (sched : List (Bool × MT.Env)) (hs : ∀ x ∈ sched, MT.Plausible x.2) :
    ∃ th0 th, MT.start J sv.fd sv.bd = some th0 ∧ MT.exec J sched th0 = some th ∧ MT.Plausible th.1.view ∧ MT.Plausible th.2.view ∧
      (g.numNodes * (2 * INFINITY + 1) < (sched.filter (fun x => x.1 == true)).length → ∃ m, th.1.done = some m) ∧
      (g.numNodes * (2 * INFINITY + 1) < (sched.filter (fun x => x.1 == false)).length → ∃ m, th.2.done = some m) := by
  have h := MT.reachable_ok hg hw hd hsv
  obtain ⟨W, L, P, hJ⟩ := MT.valid_ok h hJ
  obtain ⟨th, a, b, h1, h2, h3⟩ := MT.start_ok h hJ (fun _ => 0) (fun _ => 0)
  obtain ⟨th', a', b', h4, h5, h6, _, _, h7, h8⟩ := MT.exec_spec hJ.n hJ.F hJ.B hJ.f hJ.b hJ.s hJ.t sched (fun x hx => by
    have := (hs x hx).ok; split <;> exact this) h2 h3
  refine ⟨th, th', h1, h4, h5.view, h6.view, fun hlt => ?_, fun hlt => ?_⟩
  · cases hd : th'.1.done with
    | some m => exact ⟨m, rfl⟩
    | none =>
      have g1 := h7 hd
      have g2 := MT.rank_le (n := g.numNodes) h2.inv.ub
      simp only [MT.turns] at g1
      omega
  · cases hd : th'.2.done with
    | some m => exact ⟨m, rfl⟩
    | none =>
      have g1 := h8 hd
      have g2 := MT.rank_le (n := g.numNodes) h3.inv.ub
      simp only [MT.turns] at g1
      omega

/-- **C60** Labels only decrease: what a thread reads of the other one is at least the last label. -/
theorem C60_labels (g : FOGraph) (hg : g.WF) (hw : g.Bounded) (tc : Topo.VTopo) (hd : BiT.SoundBoth g tc.symDeg) (sv : BiT.Runner)
    (hsv : MT.Reachable g tc sv) (J : MT.Job) (hJ : MT.Valid g sv J) (early late : List (Bool × MT.Env)) (hs : ∀ x ∈ early ++ late, MT.Plausible x.2)
    (th0 th1 th2 : MT.Thread × MT.Thread) (h0 : MT.start J sv.fd sv.bd = some th0) (h1 : MT.exec J early th0 = some th1) (h2 : MT.exec J late th1 = some th2) :
    MT.Visible th2.1 th1.1.view ∧ MT.Visible th2.2 th1.2.view := by
  have h := MT.reachable_ok hg hw hd hsv
  obtain ⟨W, L, P, hJ⟩ := MT.valid_ok h hJ
  obtain ⟨th, a, b, e1, e2, e3⟩ := MT.start_ok h hJ (fun _ => 0) (fun _ => 0)
  rw [e1] at h0; simp only [Option.some.injEq] at h0; subst h0
  have hok : ∀ l : List (Bool × MT.Env), (∀ x ∈ l, x ∈ early ++ late) → ∀ x ∈ l, MT.EnvOK (if x.1 then fun _ => 0 else fun _ => 0) x.2 := by
    intro l hl x hx; have := (hs x (hl x hx)).ok; split <;> exact this
  obtain ⟨th', a', b', g1, g2, g3, _⟩ := MT.exec_spec hJ.n hJ.F hJ.B hJ.f hJ.b hJ.s hJ.t early (hok _ (fun x hx => by simp [hx])) e2 e3
  rw [g1] at h1; simp only [Option.some.injEq] at h1; subst h1
  obtain ⟨th'', a'', b'', f1, f2, f3, f4, f5, _⟩ := MT.exec_spec hJ.n hJ.F hJ.B hJ.f hJ.b hJ.s hJ.t late (hok _ (fun x hx => by simp [hx])) g2 g3
  rw [f1] at h2; simp only [Option.some.injEq] at h2; subst h2
  refine ⟨⟨g2.view, ?_⟩, g3.view, ?_⟩
  · intro i v l hl
    have hv := MT.get_lt f2.ref hl
    rw [f2.ref.get hv] at hl; simp only [Option.some.injEq] at hl; subst hl
    simp only [MT.Thread.view, g2.ref.get hv, Option.getD_some]; exact f4 v
  · intro i v l hl
    have hv := MT.get_lt f3.ref hl
    rw [f3.ref.get hv] at hl; simp only [Option.some.injEq] at hl; subst hl
    simp only [MT.Thread.view, g3.ref.get hv, Option.getD_some]; exact f5 v

/-- **C60** Under every schedule and memory order the reported distance is the length of a walk from `s` to `t`, and the reported path is a walk that is not
longer. (It need not be a shortest one: `C60_exact_refuted`.) -/
theorem C60_sound_partial (g : FOGraph) (hg : g.WF) (hw : g.Bounded) (tc : Topo.VTopo) (hd : BiT.SoundBoth g tc.symDeg) (sv : BiT.Runner)
    (hsv : MT.Reachable g tc sv) (J : MT.Job) (hJ : MT.Valid g sv J) (sched : List (Bool × MT.Env)) (th0 th : MT.Thread × MT.Thread)
    (h0 : MT.start J sv.fd sv.bd = some th0) (h1 : MT.exec J sched th0 = some th) (hf : ∃ m, th.1.done = some m) (hb : ∃ m, th.2.done = some m)
    (hs : ∀ x ∈ sched, MT.Visible (if x.1 then th.2 else th.1) x.2) :
    ∃ r sv', MT.query J sched sv = some (r, sv') ∧ MT.Reachable g tc sv' ∧
      ∀ d, r = some d → Walk g.Arc J.s J.t d ∧
        ∃ ns y, sv'.path J.s J.t = some ns ∧ ns.head? = some J.s ∧ ns.getLast? = some J.t ∧ PathOf g.Arc ns y ∧ y ≤ d := by
  have h := MT.reachable_ok hg hw hd hsv
  obtain ⟨W, L, P, hJ'⟩ := MT.valid_ok h hJ
  obtain ⟨th0', a0, b0, e1, e2, e3⟩ := MT.start_ok h hJ' (fun x => (th.2.d.dist.get x).getD 0) (fun x => (th.1.d.dist.get x).getD 0)
  rw [e1] at h0; simp only [Option.some.injEq] at h0; subst h0
  obtain ⟨th', a, b, g1, g2, g3, _⟩ := MT.exec_spec hJ'.n hJ'.F hJ'.B hJ'.f hJ'.b hJ'.s hJ'.t sched (fun x hx => by
    obtain ⟨hp, hl⟩ := hs x hx
    refine ⟨hp.head, hp.prog, fun i v => ⟨?_, hp.label i v⟩, hp.tent⟩
    cases hx1 : x.1 with
    | true =>
      simp only [hx1, if_true] at hl ⊢
      cases hv : th.2.d.dist.get v with
      | none => simp
      | some l => exact hl i v l hv
    | false =>
      simp only [hx1, Bool.false_eq_true, if_false] at hl ⊢
      cases hv : th.1.d.dist.get v with
      | none => simp
      | some l => exact hl i v l hv) e2 e3
  rw [g1] at h1; simp only [Option.some.injEq] at h1; subst h1
  obtain ⟨mf, hmf⟩ := hf
  obtain ⟨mb, hmb⟩ := hb
  have hz : b.D J.t < INFINITY ∧ a.D J.s < INFINITY := by rw [g3.inv.src, g2.inv.src]; simp [INFINITY]
  obtain ⟨r, j1, j2, j3, j4, j5⟩ := MT.join_ok (s := J.s) (t := J.t) (fl := g.linkIter) (bl := sv.backward.linkIter) g2.ref g3.ref ⟨g2.inv.ub, g3.inv.ub⟩ hmf hmb
    (by
      rintro x rfl
      obtain ⟨k1, k2, k3⟩ := g2.done x hmf
      refine ⟨k1, k2, ?_⟩
      rcases k3 with rfl | k3
      · exact hz.1
      · simpa [g3.ref.get k1] using k3)
    (by
      rintro x rfl
      obtain ⟨k1, k2, k3⟩ := g3.done x hmb
      refine ⟨k1, ?_, k2⟩
      rcases k3 with rfl | k3
      · exact hz.2
      · simpa [g2.ref.get k1] using k3) sv.meet
  have hq : MT.query J sched sv = some (r.result, { sv with fd := r.fd, bd := r.bd, meet := r.meet }) := by
    simp only [MT.query, e1, g1, j1, Option.bind_eq_bind, Option.bind_some]; rfl
  refine ⟨r.result, _, hq, .query hsv hJ (fun x hx => (hs x hx).toPlausible) hq, fun d hd => ?_⟩
  obtain ⟨k1, k2, k3⟩ := j5 d hd
  refine ⟨?_, ?_⟩
  · rw [k1]
    exact (g2.inv.walk _ k2).append (h.set.walk (g3.inv.walk _ k3))
  · obtain ⟨ns, y, p1, p2, p3, p4, p5⟩ := BiT.path_spec h.set hJ'.s hJ'.t g2.ref g3.ref g2.inv.pinv g3.inv.pinv k2 k3 (Nat.le_refl _) none
    refine ⟨ns, y, ?_, p2, p3, p4, by omega⟩
    simp only [BiT.Runner.path, j2, j3]; exact p1

/-- **C60** The schedules of atomic rounds are among the schedules of the theorems: every read is visible. -/
theorem C60_atomic (g : FOGraph) (hg : g.WF) (hw : g.Bounded) (tc : Topo.VTopo) (hd : BiT.SoundBoth g tc.symDeg) (sv : BiT.Runner)
    (hsv : MT.Reachable g tc sv) (J : MT.Job) (hJ : MT.Valid g sv J) (turns : List Bool) (th0 : MT.Thread × MT.Thread)
    (h0 : MT.start J sv.fd sv.bd = some th0) :
    ∃ sched th, MT.execAtomic J turns th0 = some th ∧ sched.map Prod.fst = turns ∧ MT.exec J sched th0 = some th ∧
      ∀ x ∈ sched, MT.Visible (if x.1 then th.2 else th.1) x.2 := by
  have h := MT.reachable_ok hg hw hd hsv
  obtain ⟨W, L, P, hJ'⟩ := MT.valid_ok h hJ
  obtain ⟨th, a, b, e1, e2, e3⟩ := MT.start_ok h hJ' (fun _ => 0) (fun _ => 0)
  rw [e1] at h0; simp only [Option.some.injEq] at h0; subst h0
  have key : ∀ (turns : List Bool) (th : MT.Thread × MT.Thread) (a b : Abs Unit), MT.TOK J.f g.numNodes g.linkIter J.s W J.t (fun _ => 0) th.1 a →
      MT.TOK J.b g.numNodes sv.backward.linkIter J.t W J.s (fun _ => 0) th.2 b →
      ∃ sched th' a' b', MT.execAtomic J turns th = some th' ∧ sched.map Prod.fst = turns ∧ MT.exec J sched th = some th' ∧
        (∀ x ∈ sched, MT.Visible (if x.1 then th'.2 else th'.1) x.2) ∧
        MT.TOK J.f g.numNodes g.linkIter J.s W J.t (fun _ => 0) th'.1 a' ∧ MT.TOK J.b g.numNodes sv.backward.linkIter J.t W J.s (fun _ => 0) th'.2 b' ∧
        (∀ x, a'.D x ≤ a.D x) ∧ ∀ x, b'.D x ≤ b.D x := by
    intro turns
    induction turns with
    | nil => intro th a b ha hb; exact ⟨[], th, a, b, rfl, rfl, rfl, by simp, ha, hb, fun _ => Nat.le_refl _, fun _ => Nat.le_refl _⟩
    | cons x rest ih =>
      rintro ⟨tf, tb⟩ a b ha hb
      cases x with
      | true =>
        obtain ⟨t1, a1, k1, k2, k3, _⟩ := MT.step_spec (cap := J.cap) hJ'.f hJ'.t hb.view.ok ha
        obtain ⟨sched, th', a', b', g1, g2, g3, g4, g5, g6, g7, g8⟩ := ih (t1, tb) a1 b k2 hb
        refine ⟨(true, tb.view) :: sched, th', a', b', ?_, by simp [g2], ?_, ?_, g5, g6, fun x => Nat.le_trans (g7 x) (k3 x), g8⟩
        · simp only [MT.execAtomic, hJ'.F, hJ'.n, k1, Option.bind_eq_bind, Option.bind_some]; exact g1
        · simp only [MT.exec, hJ'.F, hJ'.n, k1, Option.bind_eq_bind, Option.bind_some]; exact g3
        · intro x hx
          simp only [List.mem_cons] at hx
          rcases hx with rfl | hx
          · refine ⟨hb.view, ?_⟩
            intro i v l hl
            simp only [if_true] at hl
            have hv := MT.get_lt g6.ref hl
            rw [g6.ref.get hv] at hl; simp only [Option.some.injEq] at hl; subst hl
            have h1 := hb.ref.get hv
            simp only at h1
            simp only [MT.Thread.view, h1, Option.getD_some]; exact g8 v
          · exact g4 x hx
      | false =>
        obtain ⟨t1, b1, k1, k2, k3, _⟩ := MT.step_spec (cap := J.cap) hJ'.b hJ'.s ha.view.ok hb
        obtain ⟨sched, th', a', b', g1, g2, g3, g4, g5, g6, g7, g8⟩ := ih (tf, t1) a b1 ha k2
        refine ⟨(false, tf.view) :: sched, th', a', b', ?_, by simp [g2], ?_, ?_, g5, g6, g7, fun x => Nat.le_trans (g8 x) (k3 x)⟩
        · simp only [MT.execAtomic, hJ'.B, hJ'.n, k1, Option.bind_eq_bind, Option.bind_some]; exact g1
        · simp only [MT.exec, hJ'.B, hJ'.n, k1, Option.bind_eq_bind, Option.bind_some]; exact g3
        · intro x hx
          simp only [List.mem_cons] at hx
          rcases hx with rfl | hx
          · refine ⟨ha.view, ?_⟩
            intro i v l hl
            simp only [Bool.false_eq_true, if_false] at hl
            have hv := MT.get_lt g5.ref hl
            rw [g5.ref.get hv] at hl; simp only [Option.some.injEq] at hl; subst hl
            have h1 := ha.ref.get hv
            simp only at h1
            simp only [MT.Thread.view, h1, Option.getD_some]; exact g7 v
          · exact g4 x hx
  obtain ⟨sched, th', _, _, k1, k2, k3, k4, _⟩ := key turns th a b e2 e3
  exact ⟨sched, th', k1, k2, k3, k4⟩

namespace BiTopoMTEx
/-- 0 and 4 have degree four; between them are the chains 0 - 4, 0 - 1 - 4, 0 - 5 - 4 and 0 - 2 - 3 - 4 -/
def g : FOGraph := ⟨[0, 4, 6, 8, 10, 14, 16], [1, 5, 4, 2, 0, 4, 3, 0, 4, 2, 3, 5, 1, 0, 4, 0], [4, 1, 1, 5, 3, 3, 1, 1, 3, 2, 3, 5, 2, 4, 2, 3]⟩
theorem wf : g.WF where
  small := by decide
  first := by decide
  last := by decide
  weights := by decide
  mono := FOGraph.mono_of_check (by decide)
  heads := by decide
def r : FOGraph := (reversed g.numNodes g.numArcs g.linkIter).getD ⟨[0], [], []⟩
theorem reversed : GraphOps.reversed g.numNodes g.numArcs g.linkIter = some r := by decide +kernel
theorem few : g.FewArcs := FOGraph.few_of_check wf reversed (by decide +kernel)
def tc : Topo.VTopo := (Topo.virtualTopocore isort g).getD ⟨⟨[], []⟩, 0, 0, 0, [], [], []⟩
theorem topo : Topo.virtualTopocore isort g = some tc := by
  obtain ⟨t, _, h, _⟩ := Topo.virtualTopocore_spec isort_ok wf (by decide)
  simp [tc, h]
def p : FOGraph := (permutated isort tc.order g.linkIter).getD ⟨[0], [], []⟩
theorem perm : permutated isort tc.order g.linkIter = some p := by
  obtain ⟨t, _, h, _, h'⟩ := Topo.virtualTopocore_spec isort_ok wf (by decide)
  rw [topo] at h; injection h with h; subst h
  obtain ⟨q, _, h1, _⟩ := permutatedFiltered_spec isort_ok wf h'.order (fun _ _ => true)
  have h1' : permutated isort tc.order g.linkIter = some q := h1
  simp [p, h1']
theorem sound : BiT.SoundBoth p tc.symDeg :=
  C59_degrees isort isort isort_ok isort_ok g wf (by decide) few tc topo (by decide +kernel) p perm
theorem pwf : p.WF := by
  obtain ⟨t, _, h, _, h'⟩ := Topo.virtualTopocore_spec isort_ok wf (by decide)
  rw [topo] at h; injection h with h; subst h
  exact (Topo.permutated_links isort_ok wf h'.order perm).1.wf
theorem pbounded : p.Bounded := by unfold FOGraph.Bounded; decide +kernel
def sv : BiT.Runner := (BiT.Runner.core p tc).getD ⟨⟨[], [], []⟩, ⟨[], [], []⟩, tc, DData.new 0 (), DData.new 0 (), 0⟩
theorem core : BiT.Runner.core p tc = some sv := by
  obtain ⟨x, h, _⟩ := BiT.core_ok pwf pbounded tc sound
  simp [sv, h]
theorem dist : IsDist p.Arc 2 3 1 := by
  refine isDist_of_potential (π := fun v => [1, 1, 1, 0, 1, 1].getD v 0) pwf (by decide +kernel) (by decide) (by decide +kernel) ?_
  have a1 : p.Arc 2 3 1 := ⟨(p.linkIter 2).getD [], by decide +kernel, by decide +kernel⟩
  exact .cons a1 (.nil 3)

/-- the hypotheses hold: the forward thread settles `s`, then the backward thread settles `t`, then each thread makes three more rounds -/
def turns : List Bool := [true, false, true, true, true, false, false, false]
example : ∃ th0 sched th, MT.start (MT.zeroJob sv 2 3 INFINITY) sv.fd sv.bd = some th0 ∧ MT.exec (MT.zeroJob sv 2 3 INFINITY) sched th0 = some th ∧ sched.length = 8 ∧
    (∀ x ∈ sched, MT.Visible (if x.1 then th.2 else th.1) x.2) := by
  obtain ⟨th0, _, h1, _⟩ := C60_safe p pwf pbounded tc sound sv (.new core) (MT.zeroJob sv 2 3 INFINITY) (.zero 2 3 INFINITY (by decide +kernel) (by decide +kernel)) [] (by simp)
  obtain ⟨sched, th, h2, h3, h4, h5⟩ := C60_atomic p pwf pbounded tc sound sv (.new core) (MT.zeroJob sv 2 3 INFINITY)
    (.zero 2 3 INFINITY (by decide +kernel) (by decide +kernel)) turns th0 h1
  exact ⟨th0, sched, th, h1, h4, by simpa [turns] using congrArg List.length h3, h5⟩

/-- consistent potentials of an improved symmetric query on another graph -/
def g' : FOGraph := ⟨[0, 2, 4, 6, 8, 12, 16], [4, 5, 5, 4, 5, 3, 2, 4, 5, 0, 1, 3, 4, 1, 2, 0], [1, 1, 2, 2, 2, 2, 2, 1, 2, 1, 1, 2, 2, 2, 1, 2]⟩
theorem wf' : g'.WF where
  small := by decide
  first := by decide
  last := by decide
  weights := by decide
  mono := FOGraph.mono_of_check (by decide)
  heads := by decide
def r' : FOGraph := (GraphOps.reversed g'.numNodes g'.numArcs g'.linkIter).getD ⟨[0], [], []⟩
theorem reversed' : GraphOps.reversed g'.numNodes g'.numArcs g'.linkIter = some r' := by decide +kernel
theorem few' : g'.FewArcs := FOGraph.few_of_check wf' reversed' (by decide +kernel)
def tc' : Topo.VTopo := (Topo.virtualTopocore isort g').getD ⟨⟨[], []⟩, 0, 0, 0, [], [], []⟩
theorem topo' : Topo.virtualTopocore isort g' = some tc' := by
  obtain ⟨t, _, h, _⟩ := Topo.virtualTopocore_spec isort_ok wf' (by decide)
  simp [tc', h]
def p' : FOGraph := (permutated isort tc'.order g'.linkIter).getD ⟨[0], [], []⟩
theorem perm' : permutated isort tc'.order g'.linkIter = some p' := by
  obtain ⟨t, _, h, _, h'⟩ := Topo.virtualTopocore_spec isort_ok wf' (by decide)
  rw [topo'] at h; injection h with h; subst h
  obtain ⟨q, _, h1, _⟩ := permutatedFiltered_spec isort_ok wf' h'.order (fun _ _ => true)
  have h1' : permutated isort tc'.order g'.linkIter = some q := h1
  simp [p', h1']
theorem sound' : BiT.SoundBoth p' tc'.symDeg :=
  C59_degrees isort isort isort_ok isort_ok g' wf' (by decide) few' tc' topo' (by decide +kernel) p' perm'
theorem pwf' : p'.WF := by
  obtain ⟨t, _, h, _, h'⟩ := Topo.virtualTopocore_spec isort_ok wf' (by decide)
  rw [topo'] at h; injection h with h; subst h
  exact (Topo.permutated_links isort_ok wf' h'.order perm').1.wf
theorem pbounded' : p'.Bounded := by unfold FOGraph.Bounded; decide +kernel
def sv' : BiT.Runner := (BiT.Runner.core p' tc').getD ⟨⟨[], [], []⟩, ⟨[], [], []⟩, tc', DData.new 0 (), DData.new 0 (), 0⟩
theorem core' : BiT.Runner.core p' tc' = some sv' := by
  obtain ⟨x, h, _⟩ := BiT.core_ok pwf' pbounded' tc' sound'
  simp [sv', h]
def pf (v : Nat) : Option Nat := [1, 2, 2, 0, 0, 2][v]?
def pb (v : Nat) : Option Nat := [1, 0, 1, 0, 0, 0][v]?
theorem arcs {Q : Nat → Nat → Nat → Prop} (h : ∀ u, u < 6 → ∀ l ∈ (p'.linkIter u).getD [], Q u l.node l.weight) (u v w : Nat) (ha : p'.Arc u v w) : Q u v w := by
  obtain ⟨ls, g1, g2⟩ := ha
  have hn : p'.numNodes = 6 := by decide +kernel
  have hu : u < 6 := hn ▸ pwf'.tail_lt g1
  exact h u hu ⟨v, w⟩ (by rw [g1]; exact g2)
theorem consistent : BiConsistent p'.Arc 4 3 (fun v => (pf v).getD INFINITY) (fun v => (pb v).getD INFINITY) := ⟨arcs (by decide +kernel), arcs (by decide +kernel), by decide, by decide⟩
theorem valid (improved : Bool) (cap : Nat) : MT.Valid p' sv' (MT.symJob sv' improved pf pb 4 3 cap) := by
  refine .sym improved pf pb 4 3 cap 2 2 (by decide +kernel) (by decide +kernel) (arcs (by decide +kernel)) ?_ ?_ (by decide +kernel)
  · intro v q h
    exact (by decide : ∀ x ∈ [1, 2, 2, 0, 0, 2], x ≤ 2) q (List.mem_of_getElem? h)
  · intro v q h
    exact (by decide : ∀ x ∈ [1, 0, 1, 0, 0, 0], x ≤ 2) q (List.mem_of_getElem? h)
theorem dist' : IsDist p'.Arc 4 3 2 := by
  refine isDist_of_potential (π := fun v => [1, 2, 2, 0, 2, 2].getD v 0) pwf' (by decide +kernel) (by decide) (by decide +kernel) ?_
  have a1 : p'.Arc 4 3 2 := ⟨(p'.linkIter 4).getD [], by decide +kernel, by decide +kernel⟩
  exact .cons a1 (.nil 3)
def turns' : List Bool := [true, false, true, true, true, false, false, false]
end BiTopoMTEx

/-- **C60** The search is not exact: there is a graph with correctly recorded degrees and a schedule of atomic rounds under which a query on a new server without
potentials reports 5, although source and target are neighbours at distance 1. A thread that has found a meeting node does not look at its own label of the
other terminal. -/
theorem C60_exact_refuted : ∃ (g p : FOGraph) (tc : Topo.VTopo) (sv : BiT.Runner) (s t dist x : Nat) (turns : List Bool), g.WF ∧
    Topo.virtualTopocore isort g = some tc ∧ permutated isort tc.order g.linkIter = some p ∧ p.WF ∧ p.Bounded ∧ BiT.SoundBoth p tc.symDeg ∧
    BiT.Runner.core p tc = some sv ∧ MT.Valid p sv (MT.zeroJob sv s t INFINITY) ∧ IsDist p.Arc s t dist ∧ dist < x ∧
    ((MT.start (MT.zeroJob sv s t INFINITY) sv.fd sv.bd).bind (fun th0 => (MT.execAtomic (MT.zeroJob sv s t INFINITY) turns th0).bind (fun th =>
      (MT.join th sv.meet).map BiD.Res.result))) = some (some x) := by
  exact ⟨BiTopoMTEx.g, BiTopoMTEx.p, BiTopoMTEx.tc, BiTopoMTEx.sv, 2, 3, 1, 5, BiTopoMTEx.turns, BiTopoMTEx.wf, BiTopoMTEx.topo, BiTopoMTEx.perm, BiTopoMTEx.pwf,
    BiTopoMTEx.pbounded, BiTopoMTEx.sound, BiTopoMTEx.core, .zero 2 3 INFINITY (by decide +kernel) (by decide +kernel), BiTopoMTEx.dist, by decide, by decide +kernel⟩

/-- **C60** The same for consistent potentials. -/
theorem C60_symmetric_refuted : ∃ (g p : FOGraph) (tc : Topo.VTopo) (sv : BiT.Runner) (pf pb : Nat → Option Nat) (s t dist x : Nat) (turns : List Bool), g.WF ∧
    Topo.virtualTopocore isort g = some tc ∧ permutated isort tc.order g.linkIter = some p ∧ p.WF ∧ p.Bounded ∧ BiT.SoundBoth p tc.symDeg ∧
    BiT.Runner.core p tc = some sv ∧ BiConsistent p.Arc s t (fun v => (pf v).getD INFINITY) (fun v => (pb v).getD INFINITY) ∧ IsDist p.Arc s t dist ∧ dist < x ∧
    ∀ improved, MT.Valid p sv (MT.symJob sv improved pf pb s t INFINITY) ∧
      ((MT.start (MT.symJob sv improved pf pb s t INFINITY) sv.fd sv.bd).bind (fun th0 => (MT.execAtomic (MT.symJob sv improved pf pb s t INFINITY) turns th0).bind
        (fun th => (MT.join th sv.meet).map BiD.Res.result))) = some (some x) := by
  refine ⟨BiTopoMTEx.g', BiTopoMTEx.p', BiTopoMTEx.tc', BiTopoMTEx.sv', BiTopoMTEx.pf, BiTopoMTEx.pb, 4, 3, 2, 4, BiTopoMTEx.turns', BiTopoMTEx.wf', BiTopoMTEx.topo',
    BiTopoMTEx.perm', BiTopoMTEx.pwf', BiTopoMTEx.pbounded', BiTopoMTEx.sound', BiTopoMTEx.core', BiTopoMTEx.consistent, BiTopoMTEx.dist', by decide, ?_⟩
  intro improved
  refine ⟨BiTopoMTEx.valid improved INFINITY, ?_⟩
  cases improved <;> decide +kernel

end Verif
