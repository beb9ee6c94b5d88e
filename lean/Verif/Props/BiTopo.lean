import Verif.Proof.BiTopo
import Verif.Props.BiAStar
import Verif.Props.Topocore
set_option linter.unusedSimpArgs false
set_option linter.unusedVariables false
/-
Property C59: the bidirectional servers that follow chains of nodes of low degree.
-/
namespace Verif
open Spec DData GraphOps

/-! #### Preparations -/

private theorem arc_pos (g : FOGraph) (u v w : Nat) : g.Arc u v w ↔ 0 < linkCount g.linkIter u v w := by
  unfold FOGraph.Arc linkCount
  rw [List.count_pos_iff]
  cases g.linkIter u <;> simp

namespace BiT
open Topo

/-- The degrees are sound for the graph and for the reversed graph. -/
structure SoundBoth (g : FOGraph) (deg : Nat → Option SymDeg) : Prop where
  fw : SoundDegrees g.numNodes g.linkIter Link.node deg
  bw : ∀ r, reversed g.numNodes g.numArcs g.linkIter = some r → SoundDegrees g.numNodes r.linkIter Link.node deg

/-- what holds of the server between queries -/
structure RunnerOK (g : FOGraph) (deg : Nat → Option SymDeg) (sv : Runner) : Prop where
  fw : sv.forward = g
  topo : sv.topo.symDeg = deg
  set : BiD.Setting g.numNodes g.linkIter sv.backward.linkIter
  fd : ∃ a, Refines g.numNodes sv.fd a
  bd : ∃ a, Refines g.numNodes sv.bd a
  degF : SoundDegrees g.numNodes g.linkIter Link.node deg
  degB : SoundDegrees g.numNodes sv.backward.linkIter Link.node deg

theorem core_ok {g : FOGraph} (hg : g.WF) (hw : g.Bounded) (t : VTopo) (hd : SoundBoth g t.symDeg) :
    ∃ sv, Runner.core g t = some sv ∧ RunnerOK g t.symDeg sv := by
  obtain ⟨r, h1, h2, h3, h4, h5⟩ := GraphOps.reversed_spec hg
  have hrev : ∀ u v w, LArc r.linkIter v u w ↔ LArc g.linkIter u v w := by
    intro u v w
    have := arc_pos r v u w
    rw [h5, ← arc_pos] at this
    exact this
  refine ⟨_, by simp only [Runner.core, h1, Option.bind_eq_bind, Option.bind_some]; rfl, rfl, rfl, ⟨hg.linksOK hw, ?_, hrev⟩,
    ⟨_, refines_new _ ()⟩, ⟨_, refines_new _ ()⟩, hd.fw, hd.bw r h1⟩
  refine ⟨?_, ?_, ?_⟩
  · intro v hv; exact h2.total (by rw [h3]; exact hv)
  · intro v ls l g1 g2; rw [← h3]; exact h2.mem_heads g1 g2
  · intro v ls l g1 g2
    obtain ⟨ls', g3, g4⟩ := (hrev l.node v l.weight).1 ⟨ls, g1, g2⟩
    have := hg.mem_weights g3 g4
    exact hw _ this

/-- A sequence of queries `(potential, s, t, cap)`. -/
def Runner.queriesWith {δ : Type} (ch : Chooser δ) : Runner → List (BiPot × Nat × Nat × Nat) → Option (List (Option Nat) × Runner)
  | sv, [] => some ([], sv)
  | sv, (pot, s, t, cap) :: qs => do
    let (r, sv) ← sv.query pot ch s t cap
    let (rs, sv) ← Runner.queriesWith ch sv qs
    return (r :: rs, sv)

/-- A query `(s, t, cap)` with consistent potentials that do not overestimate (`pf`: distance to `t`, `pb`: distance from `s`). With improved pruning, sums of
labels and keys must fit into `u32`: `R` bounds the distances from `s` and to `t`, `C` the chains, `P` the potentials, `X` the cap. -/
structure SymQuery (g : FOGraph) (deg : Nat → Option SymDeg) (improved : Bool) (pf pb : Nat → Option Nat) (s t cap : Nat) : Prop where
  source : s < g.numNodes
  target : t < g.numNodes
  fwLt : ∀ v x, pf v = some x → x < INFINITY
  bwLt : ∀ v x, pb v = some x → x < INFINITY
  cons : BiConsistent g.Arc s t (potVal pf) (potVal pb)
  small : improved = true → ∃ R C P X, (∀ v x, pf v = some x → x ≤ P) ∧ (∀ v x, pb v = some x → x ≤ P) ∧
    ChainsWithin g.Arc deg C ∧ ChainsWithin (fun u v w => g.Arc v u w) deg C ∧
    (∀ u d, IsDist g.Arc s u d → d < INFINITY → d ≤ R) ∧ (∀ u d, IsDist g.Arc u t d → d < INFINITY → d ≤ R) ∧
    (cap < INFINITY → cap ≤ X) ∧ 2 * (R + P + C) ≤ X ∧ R + P < INFINITY ∧ 2 * (X + C) + P < U32

private theorem opt_potVal {p : Nat → Option Nat} (h : ∀ v x, p v = some x → x < INFINITY) : BiA.opt (potVal p) = p := by
  funext v
  unfold BiA.opt potVal
  cases hv : p v with
  | none => simp
  | some x => simp [h v x hv]

private theorem potVal_le {p : Nat → Option Nat} (h : ∀ v x, p v = some x → x < INFINITY) (v : Nat) : potVal p v ≤ INFINITY := by
  unfold potVal
  cases hv : p v with
  | none => simp
  | some x => have := h v x hv; simp; omega

private theorem potVal_P {p : Nat → Option Nat} {P : Nat} (h : ∀ v x, p v = some x → x ≤ P) (v : Nat) (hv : potVal p v < INFINITY) : potVal p v ≤ P := by
  unfold potVal at *
  cases h0 : p v with
  | none => simp [h0] at hv
  | some x => have := h v x h0; simpa using this

/-- what a query promises -/
def QueryOK (g : FOGraph) (deg : Nat → Option SymDeg) (s t cap : Nat) (q : Option (Option Nat × Runner)) : Prop :=
  ∃ r sv', q = some (r, sv') ∧ RunnerOK g deg sv' ∧ CapAnswer g.Arc s t cap r ∧
    ∀ x, r = some x → ∃ p y, sv'.path s t = some p ∧ p.head? = some s ∧ p.getLast? = some t ∧ PathOf g.Arc p y ∧ y ≤ x

private theorem of_fin {g : FOGraph} {deg : Nat → Option SymDeg} {sv : Runner} (h : RunnerOK g deg sv) {δ : Type} {pot : BiPot} {ch : Chooser δ} {s t cap : Nat}
    {r : BiD.Res} (g1 : distance pot ch g.numNodes ⟨g.linkIter, deg⟩ ⟨sv.backward.linkIter, deg⟩ sv.fd sv.bd sv.meet s t cap = some r)
    (g2 : BiA.Fin g.numNodes g.linkIter s t cap r) : QueryOK g deg s t cap (sv.query pot ch s t cap) := by
  refine ⟨r.result, { sv with fd := r.fd, bd := r.bd, meet := r.meet }, by simp [Runner.query, h.fw, h.topo, g1],
    ⟨h.fw, h.topo, h.set, g2.rf, g2.rb, h.degF, h.degB⟩, g2.ans, ?_⟩
  intro x hx
  obtain ⟨p, y, e1, e2⟩ := g2.path x hx
  exact ⟨p, y, by simpa [Runner.path, BiD.nodePath] using e1, e2⟩

theorem zero_ok {δ : Type} {ch : Chooser δ} (hch : ch.OK) {g : FOGraph} {deg : Nat → Option SymDeg} {sv : Runner} (h : RunnerOK g deg sv) {s t : Nat}
    (hs : s < g.numNodes) (ht : t < g.numNodes) (cap : Nat) : QueryOK g deg s t cap (sv.query zeroBi ch s t cap) := by
  obtain ⟨a, ha⟩ := h.fd
  obtain ⟨b, hb⟩ := h.bd
  obtain ⟨r, g1, g2⟩ := query_zero (cap := cap) hch (ctx_zero h.set (deg := deg) ⟨h.degF.total, h.degF.two, h.degF.three⟩
    ⟨h.degB.total, h.degB.two, h.degB.three⟩) hs ht sv.meet ha hb
  exact of_fin h g1 g2

/-! Bounds by the number of nodes and the largest weight -/

theorem path_suffix {A : Nat → Nat → Nat → Prop} {p : List Nat} {d x : Nat} (h : PathOf A p d) (hx : x ∈ p) :
    ∃ q d', PathOf A q d' ∧ d' ≤ d ∧ q.head? = some x ∧ q.getLast? = p.getLast? ∧ List.Sublist q p := by
  induction h with
  | single u => simp at hx; subst hx; exact ⟨[x], 0, .single x, by omega, rfl, rfl, .refl _⟩
  | @cons u v w d p ha hp ih =>
    by_cases h : x = u
    · subst h; exact ⟨_, _, .cons ha hp, by omega, rfl, rfl, .refl _⟩
    · obtain ⟨q, d', h1, h2, h3, h4, h5⟩ := ih (by simpa [h] using hx)
      exact ⟨q, d', h1, by omega, h3, by rw [h4]; simp [List.getLast?_cons_cons], h5.cons _⟩

theorem walk_simple {A : Nat → Nat → Nat → Prop} {s t d : Nat} (h : Walk A s t d) :
    ∃ p d', PathOf A p d' ∧ d' ≤ d ∧ p.head? = some s ∧ p.getLast? = some t ∧ p.Nodup := by
  induction h with
  | nil u => exact ⟨[u], 0, .single u, by omega, rfl, rfl, by simp⟩
  | @cons u v t w d ha _ ih =>
    obtain ⟨p, d', h1, h2, h3, h4, h5⟩ := ih
    by_cases hu : u ∈ p
    · obtain ⟨q, d'', g1, g2, g3, g4, g5⟩ := path_suffix h1 hu
      exact ⟨q, d'', g1, by omega, g3, by rw [g4]; exact h4, g5.nodup h5⟩
    · cases h1 with
      | single x =>
        simp at h3 h4; subst h3; subst h4
        exact ⟨[u, x], w + 0, .cons ha (.single x), by omega, rfl, rfl, by simpa using hu⟩
      | @cons x y w' d0 p hxy hp =>
        simp at h3; subst h3
        refine ⟨_, _, .cons ha (.cons hxy hp), by omega, rfl, ?_, List.nodup_cons.2 ⟨hu, h5⟩⟩
        rw [List.getLast?_cons_cons]; exact h4

theorem path_weight {A : Nat → Nat → Nat → Prop} {n W : Nat} (hA : ∀ u v w, A u v w → u < n ∧ v < n ∧ w ≤ W) {p : List Nat} {d : Nat} (h : PathOf A p d) :
    d + W ≤ p.length * W ∧ (2 ≤ p.length → ∀ x ∈ p, x < n) := by
  induction h with
  | single u => simp
  | @cons u v w d p ha hp ih =>
    obtain ⟨h1, h2, h3⟩ := hA _ _ _ ha
    refine ⟨?_, ?_⟩
    · rw [List.length_cons, Nat.add_mul]; omega
    · intro _ x hx
      rcases List.mem_cons.1 hx with rfl | hx
      · exact h1
      · by_cases hl : 2 ≤ (v :: p).length
        · exact ih.2 hl x hx
        · have : p = [] := by
            cases p with
            | nil => rfl
            | cons a b => simp at hl
          subst this
          simp at hx; subst hx; exact h2

theorem nodup_le {n : Nat} {l : List Nat} (h : l.Nodup) (hl : ∀ x ∈ l, x < n) : l.length ≤ n := by
  have : l.Subperm (List.range n) := List.subperm_of_subset h (fun x hx => List.mem_range.2 (hl x hx))
  simpa using this.length_le

/-- Distances are at most the number of nodes times the largest weight. -/
theorem dist_le {A : Nat → Nat → Nat → Prop} {n W : Nat} (hA : ∀ u v w, A u v w → u < n ∧ v < n ∧ w ≤ W) {s t d : Nat} (h : IsDist A s t d) : d ≤ n * W := by
  obtain ⟨p, d', h1, h2, h3, h4, h5⟩ := walk_simple h.1
  obtain ⟨g1, g2⟩ := path_weight hA h1
  obtain ⟨s', t', w1, w2, w3⟩ := h1.walk
  rw [h3] at w1; rw [h4] at w2
  simp at w1 w2; subst w1; subst w2
  have := h.2 _ w3
  by_cases hl : 2 ≤ p.length
  · have := Nat.mul_le_mul_right W (nodup_le h5 (g2 hl))
    omega
  · have : p.length * W ≤ 1 * W := Nat.mul_le_mul_right W (by omega)
    omega

/-- So are chains. -/
theorem chains_le {A : Nat → Nat → Nat → Prop} {n W : Nat} (hA : ∀ u v w, A u v w → u < n ∧ v < n ∧ w ≤ W) (deg : Nat → Option SymDeg) :
    ChainsWithin A deg (n * W) := by
  have key : ∀ {h u ns x l}, LowRun A deg h u ns x l → (ns ++ [x]).Nodup ∧ l ≤ ns.length * W ∧ ∀ y ∈ ns, y < n := by
    intro h u ns x l hr
    have step : ∀ {ns : List Nat} {x v w l : Nat}, A x v w → v ∉ ns ++ [x] → ((ns ++ [x]).Nodup ∧ l ≤ ns.length * W ∧ ∀ y ∈ ns, y < n) →
        ((ns ++ [x]) ++ [v]).Nodup ∧ l + w ≤ (ns ++ [x]).length * W ∧ ∀ y ∈ ns ++ [x], y < n := by
      rintro ns x v w l ha hn ⟨h1, h2, h3⟩
      obtain ⟨a1, a2, a3⟩ := hA _ _ _ ha
      refine ⟨?_, ?_, ?_⟩
      · rw [List.nodup_append]
        refine ⟨h1, by simp, ?_⟩
        rintro a hm b hb rfl
        simp at hb; subst hb; exact hn hm
      · rw [List.length_append, Nat.add_mul]; simp; omega
      · intro y hy
        rcases List.mem_append.1 hy with hy | hy
        · exact h3 y hy
        · simp at hy; subst hy; exact a1
    induction hr with
    | start u => simp
    | two _ ha _ hn ih => exact step ha hn ih
    | three _ ha _ hn ih => exact step ha hn ih
  intro h u ns x l v w hr ha hn
  obtain ⟨k1, k2, k3⟩ := key hr
  obtain ⟨a1, a2, a3⟩ := hA _ _ _ ha
  have : (ns ++ [x]).length ≤ n := nodup_le k1 (by
    intro y hy
    rcases List.mem_append.1 hy with hy | hy
    · exact k3 y hy
    · simp at hy; subst hy; exact a1)
  have := Nat.mul_le_mul_right W this
  rw [List.length_append, Nat.add_mul] at this
  simp at this
  omega

/-- `D` = number of nodes times the largest weight: a simple condition for the absence of overflows -/
theorem SymQuery.of_weights {g : FOGraph} (hg : g.WF) (deg : Nat → Option SymDeg) (improved : Bool) {pf pb : Nat → Option Nat} {s t cap W D P : Nat}
    (hs : s < g.numNodes) (ht : t < g.numNodes) (hD : g.numNodes * W = D) (hW : ∀ u v w, g.Arc u v w → w ≤ W) (hf : ∀ v x, pf v = some x → x ≤ P)
    (hb : ∀ v x, pb v = some x → x ≤ P) (hcons : BiConsistent g.Arc s t (potVal pf) (potVal pb)) (hcap : cap < INFINITY → cap ≤ 4 * D + 2 * P)
    (hsmall : 10 * D + 5 * P < U32) : SymQuery g deg improved pf pb s t cap := by
  have hA : ∀ u v w, g.Arc u v w → u < g.numNodes ∧ v < g.numNodes ∧ w ≤ W := by
    intro u v w ha
    have ha' := ha
    obtain ⟨ls, h1, h2⟩ := ha
    exact ⟨hg.tail_lt h1, hg.mem_heads h1 h2, hW u v w ha'⟩
  have hlt : D + P < INFINITY := by simp only [INFINITY, U32] at *; omega
  refine ⟨hs, ht, fun v x h => by have := hf v x h; omega, fun v x h => by have := hb v x h; omega, hcons, fun _ => ⟨D, D, P, 4 * D + 2 * P, hf, hb, ?_, ?_, ?_, ?_,
    hcap, by omega, hlt, by omega⟩⟩
  · exact hD ▸ chains_le hA deg
  · exact hD ▸ chains_le (fun u v w ha => ⟨(hA v u w ha).2.1, (hA v u w ha).1, (hA v u w ha).2.2⟩) deg
  · intro u d hd _; exact hD ▸ dist_le hA hd
  · intro u d hd _; exact hD ▸ dist_le hA hd

theorem chains_congr {A B : Nat → Nat → Nat → Prop} {deg : Nat → Option SymDeg} {C : Nat} (h : ∀ u v w, B u v w → A u v w) (hA : ChainsWithin A deg C) :
    ChainsWithin B deg C := by
  have hrun : ∀ {b u ns x l}, LowRun B deg b u ns x l → LowRun A deg b u ns x l := by
    intro b u ns x l hr
    induction hr with
    | start u => exact .start u
    | two _ ha hd hn ih => exact .two ih (h _ _ _ ha) hd hn
    | three _ ha hd hn ih => exact .three ih (h _ _ _ ha) hd hn
  intro b u ns x l v w hr ha hn
  exact hA b u ns x l v w (hrun hr) (h _ _ _ ha) hn

theorem sym_ok {g : FOGraph} {deg : Nat → Option SymDeg} {sv : Runner} (h : RunnerOK g deg sv) {improved : Bool} {pf pb : Nat → Option Nat} {s t cap : Nat}
    (hq : SymQuery g deg improved pf pb s t cap) : QueryOK g deg s t cap (sv.query (symmetricBi improved pf pb) minKeyDir s t cap) := by
  obtain ⟨a, ha⟩ := h.fd
  obtain ⟨b, hb⟩ := h.bd
  have hdF : DegOK (staticProb g.numNodes g.linkIter (fun _ => 0)) deg := ⟨h.degF.total, h.degF.two, h.degF.three⟩
  have hdB : DegOK (staticProb g.numNodes sv.backward.linkIter (fun _ => 0)) deg := ⟨h.degB.total, h.degB.two, h.degB.three⟩
  have hctx : ∃ R C P X, Ctx g.numNodes g.linkIter sv.backward.linkIter deg s t (potVal pf) (potVal pb) (improved = true) R C P X cap
      (pruneInternal improved (BiA.opt (potVal pf)) (BiA.opt (potVal pb))) (pruneInternal improved (BiA.opt (potVal pb)) (BiA.opt (potVal pf)))
      (fun M qo => BiA.Irr improved M qo (potVal pf) (potVal pb)) (fun M qo => BiA.Irr improved M qo (potVal pb) (potVal pf)) := by
    have hw : ∃ R C P X, improved = true → ((∀ v x, pf v = some x → x ≤ P) ∧ (∀ v x, pb v = some x → x ≤ P) ∧
        ChainsWithin g.Arc deg C ∧ ChainsWithin (fun u v w => g.Arc v u w) deg C ∧
        (∀ u d, IsDist g.Arc s u d → d < INFINITY → d ≤ R) ∧ (∀ u d, IsDist g.Arc u t d → d < INFINITY → d ≤ R) ∧
        (cap < INFINITY → cap ≤ X) ∧ 2 * (R + P + C) ≤ X ∧ R + P < INFINITY ∧ 2 * (X + C) + P < U32) := by
      cases improved with
      | false => exact ⟨0, 0, 0, 0, by simp⟩
      | true =>
        obtain ⟨R, C, P, X, h1⟩ := hq.small rfl
        exact ⟨R, C, P, X, fun _ => h1⟩
    obtain ⟨R, C, P, X, hw⟩ := hw
    refine ⟨R, C, P, X, h.set, ?_, ?_, hq.cons.target, hq.cons.source, fun hi => (hw hi).2.2.2.2.2.2.1, fun hi => (hw hi).2.2.2.2.2.2.2.1,
      fun hi => (hw hi).2.2.2.2.2.2.2.2.1, fun hi => (hw hi).2.2.2.2.1, ?_⟩
    · exact oneSide h.set.fw hdF hq.cons.fw hq.cons.bw (potVal_le hq.fwLt) (potVal_le hq.bwLt) (fun hi => potVal_P (hw hi).1)
        (fun hi => (hw hi).2.2.1) (fun hi => (hw hi).2.2.2.2.2.2.2.2.2)
    · exact oneSide h.set.bw hdB (fun u v w ha => hq.cons.bw v u w ((h.set.rev v u w).1 ha)) (fun u v w ha => hq.cons.fw v u w ((h.set.rev v u w).1 ha))
        (potVal_le hq.bwLt) (potVal_le hq.fwLt) (fun hi => potVal_P (hw hi).2.1)
        (fun hi => chains_congr (fun u v w ha => (h.set.rev v u w).1 ha) (hw hi).2.2.2.1) (fun hi => (hw hi).2.2.2.2.2.2.2.2.2)
    · intro hi u d hd
      exact (hw hi).2.2.2.2.2.1 u d ((BiA.isDist_rev h.set).1 hd)
  obtain ⟨R, C, P, X, hctx⟩ := hctx
  obtain ⟨r, g1, g2⟩ := query_sym hctx hq.source hq.target sv.meet ha hb
  rw [opt_potVal hq.fwLt, opt_potVal hq.bwLt] at g1
  exact of_fin h g1 g2

/-- A query with its potential: without potentials, or with `SymmetricBiDirPotential`. -/
inductive GoodQuery (g : FOGraph) (deg : Nat → Option SymDeg) : BiPot × Nat × Nat × Nat → Prop
  | zero {s t cap : Nat} : s < g.numNodes → t < g.numNodes → GoodQuery g deg (zeroBi, s, t, cap)
  | sym {improved : Bool} {pf pb : Nat → Option Nat} {s t cap : Nat} : SymQuery g deg improved pf pb s t cap →
      GoodQuery g deg (symmetricBi improved pf pb, s, t, cap)

theorem good_ok {g : FOGraph} {deg : Nat → Option SymDeg} {sv : Runner} (h : RunnerOK g deg sv) {q : BiPot × Nat × Nat × Nat} (hq : GoodQuery g deg q) :
    QueryOK g deg q.2.1 q.2.2.1 q.2.2.2 (sv.query q.1 minKeyDir q.2.1 q.2.2.1 q.2.2.2) := by
  cases hq with
  | zero hs ht => exact zero_ok minKeyDir_ok h hs ht _
  | sym hq => exact sym_ok h hq

theorem queries_ok {g : FOGraph} {deg : Nat → Option SymDeg} {δ : Type} {ch : Chooser δ} (qs : List (BiPot × Nat × Nat × Nat))
    (hq : ∀ q ∈ qs, ∀ sv, RunnerOK g deg sv → QueryOK g deg q.2.1 q.2.2.1 q.2.2.2 (sv.query q.1 ch q.2.1 q.2.2.1 q.2.2.2)) : ∀ sv, RunnerOK g deg sv →
    ∃ rs sv', Runner.queriesWith ch sv qs = some (rs, sv') ∧ RunnerOK g deg sv' ∧ List.Forall₂ (fun q r => CapAnswer g.Arc q.2.1 q.2.2.1 q.2.2.2 r) qs rs := by
  induction qs with
  | nil => intro sv h; exact ⟨[], sv, rfl, h, .nil⟩
  | cons q qs ih =>
    intro sv h
    obtain ⟨r, sv1, h1, h2, h3, _⟩ := hq q (by simp) sv h
    obtain ⟨rs, sv2, h4, h5, h6⟩ := ih (fun q h => hq q (by simp [h])) sv1 h2
    refine ⟨r :: rs, sv2, ?_, h5, .cons h3 h6⟩
    obtain ⟨pot, s, t, cap⟩ := q
    simp only at h1
    simp [Runner.queriesWith, h1, h4]

theorem symLoop_comm : ∀ (fuel : Nat) (fw bw : List Nat) (deg : Nat), symLoop fuel fw bw deg = symLoop fuel bw fw deg := by
  intro fuel
  induction fuel with
  | zero => intro fw bw deg; simp only [symLoop, Bool.and_comm]
  | succ f ih =>
    intro fw bw deg
    match fw, bw with
    | [], [] => rfl
    | x :: fw, [] => simp only [symLoop]; exact ih _ _ _
    | [], y :: bw => simp only [symLoop]; exact ih _ _ _
    | x :: fw, y :: bw =>
      simp only [symLoop]
      by_cases h : x = y
      · subst h; simp only [if_true]; exact ih _ _ _
      · have h' : ¬ y = x := fun h' => h h'.symm
        by_cases h2 : x < y
        · have h3 : ¬ y < x := by omega
          simp only [h, h', h2, h3, if_true, if_false]; exact ih _ _ _
        · have h3 : y < x := by omega
          simp only [h, h', h2, h3, if_true, if_false]; exact ih _ _ _

theorem degree_comm (g r : FOGraph) {v : Nat} {lf lb : List Nat} (h1 : headsOf g v = some lf) (h2 : headsOf r v = some lb) : degree g r v = degree r g v := by
  simp only [degree, h1, h2, Option.bind_eq_bind, Option.bind_some, symmetricDegree]
  rw [symLoop_comm, Nat.add_comm]

/-- sound degrees depend on the links of a node only up to their order -/
theorem SoundDegrees.congr {n : Nat} {f f' : Nat → Option (List Link)} {deg : Nat → Option SymDeg} (h : SoundDegrees n f Link.node deg)
    (hp : ∀ v l', f' v = some l' → ∃ l, f v = some l ∧ l.Perm l') : SoundDegrees n f' Link.node deg where
  total := h.total
  two := by
    intro u lu b lv h1 h2 h3 h4
    obtain ⟨l1, g1, g2⟩ := hp u lu h1
    obtain ⟨l2, g3, g4⟩ := hp _ lv h4
    rw [← (g4.filter _).length_eq]
    exact h.two u l1 b l2 g1 (g2.mem_iff.2 h2) h3 g3
  three := by
    intro u lu b lv h1 h2 h3 h4
    obtain ⟨l1, g1, g2⟩ := hp u lu h1
    obtain ⟨l2, g3, g4⟩ := hp _ lv h4
    rw [← (g4.filter _).length_eq]
    exact h.three u l1 b l2 g1 (g2.mem_iff.2 h2) h3 g3

theorem links_perm {p q : FOGraph} (hp : p.WF) (hq : q.WF) (hn : p.numNodes = q.numNodes)
    (h : ∀ u v w, linkCount p.linkIter u v w = linkCount q.linkIter u v w) (v : Nat) (l' : List Link) (hl : q.linkIter v = some l') :
    ∃ l, p.linkIter v = some l ∧ l.Perm l' := by
  have hv := hq.tail_lt hl
  refine ⟨_, GraphOps.WF_links hp (by omega), ?_⟩
  rw [List.perm_iff_count]
  intro b
  have := h v b.node b.weight
  simp only [linkCount, GraphOps.WF_links hp (by omega : v < p.numNodes), hl, Option.getD_some] at this
  exact this

theorem permutated_linkCount {srt : (Link → Nat) → List Link → List Link} (hs : SortOK srt) {g p : FOGraph} (hg : g.WF) {o : NodeOrder} (ho : o.OK g.numNodes)
    (hp : permutated srt o g.linkIter = some p) {u v w r r' : Nat} (hu : o.rank u = some r) (hv : o.rank v = some r') :
    linkCount p.linkIter r r' w = linkCount g.linkIter u v w := by
  obtain ⟨p', A, h1, h2, h3, h4, h5⟩ := permutatedFiltered_spec hs hg ho (fun _ _ => true)
  have : p = p' := by
    have : permutated srt o g.linkIter = some p' := h1
    rw [hp] at this; injection this
  subst this
  rw [reps_linkCount h4, WF.linkCount hg, List.getD_eq_getElem?_getD, h5 u r hu, Option.getD_some, permutated_count hs hg ho hu hv]
  simp

theorem linkCount_zero {p : FOGraph} (hp : p.WF) {u v : Nat} (w : Nat) (h : ¬ (u < p.numNodes ∧ v < p.numNodes)) : linkCount p.linkIter u v w = 0 := by
  apply Nat.eq_zero_of_not_pos
  rw [← Topo.Arc_count]
  rintro ⟨ls, h1, h2⟩
  exact h ⟨hp.tail_lt h1, hp.mem_heads h1 h2⟩

end BiT

/-! #### The theorems -/

/-- **C59**, degrees: for a graph renumbered with the order of `virtual_topocore`, the recorded degrees are sound in both directions, if there is a node of
degree at most two before the first node outside of the core, and nodes have fewer than 256 arcs. -/
theorem C59_degrees (srtN : (Nat → Nat) → List Nat → List Nat) (srt : (Link → Nat) → List Link → List Link) (hsN : SortOK srtN) (hs : SortOK srt)
    (g : FOGraph) (hg : g.WF) (hn : 0 < g.numNodes) (hfew : g.FewArcs) (t : Topo.VTopo) (ht : Topo.virtualTopocore srtN g = some t)
    (hd : t.deg2 ≤ t.biggest) (p : FOGraph) (hp : permutated srt t.order g.linkIter = some p) : BiT.SoundBoth p t.symDeg := by
  obtain ⟨t', r, h1, h2, h3⟩ := Topo.virtualTopocore_spec hsN hg hn
  rw [ht] at h1; injection h1 with h1; subst h1
  refine ⟨Topo.sound_degrees hs hg h2 hfew h3 hd hp, ?_⟩
  intro pr hpr
  obtain ⟨r', e1, e2, e3, _, e5⟩ := GraphOps.reversed_spec hg
  rw [h2] at e1; injection e1 with e1; subst e1
  obtain ⟨hren, _⟩ := Topo.permutated_links hs hg h3.order hp
  obtain ⟨pr', f1, f2, f3, _, f5⟩ := GraphOps.reversed_spec hren.wf
  rw [hpr] at f1; injection f1 with f1; subst f1
  have hor : t.order.OK r.numNodes := by rw [e3]; exact h3.order
  obtain ⟨q, A, q1, q2, q3, q4, q5⟩ := permutatedFiltered_spec hs e2 hor (fun _ _ => true)
  have hsd := Topo.sound_of_degrees (p := q) (deg := t.symDeg) hs e2 hor q1 (by rw [e3]; exact h3.total) (by
    intro rk v hrk hv
    rw [e3] at hv
    obtain ⟨d, hd1, hd2⟩ := Topo.degree_spec e2 hg e3.symm (fun u v w => (e5 u v w).symm) (by rw [e3]; exact hv)
    rw [← BiT.degree_comm g r (Topo.headsOf_eq (WF_links hg hv)) (Topo.headsOf_eq (WF_links e2 (by omega)))] at hd1
    have := h3.deg hd rk v d hrk hd1
    rw [Nat.mod_eq_of_lt (Topo.degree_lt hg e2 e3 h2 hfew hv hd1)] at this
    exact ⟨d, this, hd2⟩)
  rw [q3, e3, ← hren.nodes] at hsd
  refine BiT.SoundDegrees.congr hsd (BiT.links_perm q2 f2 (by rw [q3, f3, hren.nodes, e3]) ?_)
  intro u v w
  rw [f5 v u w]
  by_cases huv : u < g.numNodes ∧ v < g.numNodes
  · obtain ⟨u', x1, _, x2⟩ := h3.order.node_lt huv.1
    obtain ⟨v', y1, _, y2⟩ := h3.order.node_lt huv.2
    rw [BiT.permutated_linkCount hs e2 hor q1 x2 y2, BiT.permutated_linkCount hs hg h3.order hp y2 x2, e5]
  · rw [BiT.linkCount_zero q2 w (by rw [q3, e3]; exact huv), BiT.linkCount_zero hren.wf w (by rw [hren.nodes]; exact fun h => huv ⟨h.2, h.1⟩)]


/-- **C59**, core server without potentials: with both strategies to choose a direction, every sequence of queries, with caps, is answered without panic,
exactly below the cap. -/
theorem C59_core_zero_partial (g : FOGraph) (hg : g.WF) (hw : g.Bounded) (t : Topo.VTopo) (hd : BiT.SoundBoth g t.symDeg) {δ : Type} (ch : Chooser δ)
    (hch : ch.OK) (qs : List (Nat × Nat × Nat)) (hq : ValidCapQueries g qs) :
    ∃ sv rs sv', BiT.Runner.core g t = some sv ∧ BiT.Runner.queriesWith ch sv (qs.map (fun q => (zeroBi, q))) = some (rs, sv') ∧
      List.Forall₂ (fun q r => CapAnswer g.Arc q.1 q.2.1 q.2.2 r) qs rs := by
  obtain ⟨sv, h1, h2⟩ := BiT.core_ok hg hw t hd
  obtain ⟨rs, sv1, h3, _, h4⟩ := BiT.queries_ok (ch := ch) (qs.map (fun q => (zeroBi, q))) (by
    intro q hq'
    obtain ⟨q0, h0, rfl⟩ := List.mem_map.1 hq'
    intro sv h
    exact BiT.zero_ok hch h (hq q0 h0).1 (hq q0 h0).2 _) sv h2
  exact ⟨sv, rs, sv1, h1, h3, List.forall₂_map_left_iff.1 h4⟩

/-- **C59**, core server with `SymmetricBiDirPotential` (with or without improved pruning) or without potentials, and `ChooseMinKeyDir`: every sequence of
queries is answered without panic, exactly below the cap. -/
theorem C59_core_symmetric_partial (g : FOGraph) (hg : g.WF) (hw : g.Bounded) (t : Topo.VTopo) (hd : BiT.SoundBoth g t.symDeg)
    (qs : List (BiPot × Nat × Nat × Nat)) (hq : ∀ q ∈ qs, BiT.GoodQuery g t.symDeg q) :
    ∃ sv rs sv', BiT.Runner.core g t = some sv ∧ BiT.Runner.queriesWith minKeyDir sv qs = some (rs, sv') ∧
      List.Forall₂ (fun q r => CapAnswer g.Arc q.2.1 q.2.2.1 q.2.2.2 r) qs rs := by
  obtain ⟨sv, h1, h2⟩ := BiT.core_ok hg hw t hd
  obtain ⟨rs, sv1, h3, _, h4⟩ := BiT.queries_ok (ch := minKeyDir) qs (fun q h sv hs => BiT.good_ok hs (hq q h)) sv h2
  exact ⟨sv, rs, sv1, h1, h3, h4⟩

/-- **C59**, one query without cap on a core server used before: the answer is the distance, and the path is a shortest path. -/
theorem C59_core_path_partial (g : FOGraph) (hg : g.WF) (hw : g.Bounded) (tc : Topo.VTopo) (hd : BiT.SoundBoth g tc.symDeg)
    (qs : List (BiPot × Nat × Nat × Nat)) (hqs : ∀ q ∈ qs, BiT.GoodQuery g tc.symDeg q) (sv0 sv : BiT.Runner) (rs : List (Option Nat))
    (h0 : BiT.Runner.core g tc = some sv0) (hrun : BiT.Runner.queriesWith minKeyDir sv0 qs = some (rs, sv))
    (pot : BiPot) (s t : Nat) (hq : BiT.GoodQuery g tc.symDeg (pot, s, t, INFINITY)) :
    ∃ r sv', sv.query pot minKeyDir s t INFINITY = some (r, sv') ∧ Answer g.Arc s t r ∧
      ∀ x, r = some x → ∃ p, sv'.path s t = some p ∧ p.head? = some s ∧ p.getLast? = some t ∧ PathOf g.Arc p x := by
  obtain ⟨sv1, h1, h2⟩ := BiT.core_ok hg hw tc hd
  rw [h0] at h1; simp at h1; subst h1
  obtain ⟨rs', sv2, h3, h4, _⟩ := BiT.queries_ok (ch := minKeyDir) qs (fun q h sv hs => BiT.good_ok hs (hqs q h)) sv0 h2
  rw [hrun] at h3; simp at h3
  obtain ⟨_, rfl⟩ := h3
  obtain ⟨r, sv', g1, _, g2, g3⟩ := BiT.good_ok h4 hq
  have hans := BiD.cap_infinity g2
  refine ⟨r, sv', g1, hans, ?_⟩
  intro x hx
  obtain ⟨p, y, e1, e2, e3, e4, e5⟩ := g3 x hx
  refine ⟨p, e1, e2, e3, ?_⟩
  obtain ⟨s', t', w1, w2, w3⟩ := e4.walk
  rw [e2] at w1; rw [e3] at w2
  simp at w1 w2; subst w1; subst w2
  have hmin := ((hans x).1 hx).1.2 _ w3
  have : y = x := by omega
  rw [← this]; exact e4

namespace BiTopoEx
/-- the complete graph on 0, 1, 2, 3, the path 3 - 4 - 5, and the leaves 6, 7, 8 at 5 -/
def g : FOGraph := ⟨[0, 3, 6, 9, 13, 15, 19, 20, 21, 22], [1, 2, 3, 0, 2, 3, 0, 1, 3, 0, 1, 2, 4, 3, 5, 4, 6, 7, 8, 5, 5, 5],
  [1, 1, 1, 1, 1, 1, 1, 1, 1, 1, 1, 1, 10, 10, 10, 10, 10, 10, 10, 10, 10, 10]⟩
theorem wf : g.WF where
  small := by decide
  first := by decide
  last := by decide
  weights := by decide
  mono := FOGraph.mono_of_check (by decide)
  heads := by decide
theorem bounded : g.Bounded := by unfold FOGraph.Bounded; decide +kernel
def r : FOGraph := (reversed g.numNodes g.numArcs g.linkIter).getD ⟨[0], [], []⟩
theorem reversed : GraphOps.reversed g.numNodes g.numArcs g.linkIter = some r := by decide +kernel
theorem few : g.FewArcs := FOGraph.few_of_check wf reversed (by decide +kernel)
def tc : Topo.VTopo := (Topo.virtualTopocore isort g).getD ⟨⟨[], []⟩, 0, 0, 0, [], [], []⟩
theorem topo : Topo.virtualTopocore isort g = some tc := by
  obtain ⟨t, _, h, _⟩ := Topo.virtualTopocore_spec isort_ok wf (by decide)
  simp [tc, h]
def p : FOGraph := (permutated isort tc.order g.linkIter).getD ⟨[0], [], []⟩
theorem perm : permutated isort tc.order g.linkIter = some p := by
  obtain ⟨t, _, h, _, h'⟩ := Topo.virtualTopocore_spec isort_ok wf (by decide)
  rw [topo] at h; injection h with h; subst h
  obtain ⟨q, _, h1, _⟩ := permutatedFiltered_spec isort_ok wf h'.order (fun _ _ => true)
  have h1' : permutated isort tc.order g.linkIter = some q := h1
  simp [p, h1']
theorem sound : BiT.SoundBoth p tc.symDeg :=
  C59_degrees isort isort isort_ok isort_ok g wf (by decide) few tc topo (by decide +kernel) p perm
theorem pwf : p.WF := by
  obtain ⟨t, _, h, _, h'⟩ := Topo.virtualTopocore_spec isort_ok wf (by decide)
  rw [topo] at h; injection h with h; subst h
  exact (Topo.permutated_links isort_ok wf h'.order perm).1.wf
theorem pbounded : p.Bounded := by unfold FOGraph.Bounded; decide +kernel

/-- distances to 8 and from 1 in `p` -/
def pf (v : Nat) : Option Nat := [30, 31, 31, 31, 20, 10, 20, 20, 0][v]?
def pb (v : Nat) : Option Nat := [1, 0, 1, 1, 11, 21, 31, 31, 31][v]?

theorem arcs {Q : Nat → Nat → Nat → Prop} (h : ∀ u, u < 9 → ∀ l ∈ (p.linkIter u).getD [], Q u l.node l.weight) (u v w : Nat) (ha : p.Arc u v w) : Q u v w := by
  obtain ⟨ls, g1, g2⟩ := ha
  have hn : p.numNodes = 9 := by decide +kernel
  have hu : u < 9 := hn ▸ pwf.tail_lt g1
  exact h u hu ⟨v, w⟩ (by rw [g1]; exact g2)

theorem symQuery (improved : Bool) (cap : Nat) (hcap : cap < INFINITY → cap ≤ 360) : BiT.SymQuery p tc.symDeg improved pf pb 1 8 cap := by
  have hle : ∀ v x, (pf v = some x ∨ pb v = some x) → x ≤ 31 := by
    intro v x h
    have h1 : ∀ x ∈ [30, 31, 31, 31, 20, 10, 20, 20, 0], x ≤ 31 := by decide
    have h2 : ∀ x ∈ [1, 0, 1, 1, 11, 21, 31, 31, 31], x ≤ 31 := by decide
    rcases h with h | h
    · exact h1 x (List.mem_of_getElem? h)
    · exact h2 x (List.mem_of_getElem? h)
  refine BiT.SymQuery.of_weights (W := 10) (D := 90) (P := 31) pwf tc.symDeg improved (by decide +kernel) (by decide +kernel) (by decide +kernel) (arcs (by decide +kernel))
    (fun v x h => hle v x (.inl h)) (fun v x h => hle v x (.inr h)) ⟨arcs (by decide +kernel), arcs (by decide +kernel), by decide, by decide⟩ ?_ (by decide)
  intro h; have := hcap h; omega

/-- the hypotheses of the theorems hold, for queries of all kinds on the same server -/
example : ∃ sv rs sv', BiT.Runner.core p tc = some sv ∧ BiT.Runner.queriesWith minKeyDir sv
      [(zeroBi, 7, 2, INFINITY), (symmetricBi true pf pb, 1, 8, INFINITY), (symmetricBi false pf pb, 1, 8, 32), (symmetricBi true pf pb, 1, 8, 20)] = some (rs, sv') ∧
    rs.length = 4 := by
  obtain ⟨sv, rs, sv', h1, h2, h3⟩ := C59_core_symmetric_partial p pwf pbounded tc sound
    [(zeroBi, 7, 2, INFINITY), (symmetricBi true pf pb, 1, 8, INFINITY), (symmetricBi false pf pb, 1, 8, 32), (symmetricBi true pf pb, 1, 8, 20)] (by
      intro q hq
      simp only [List.mem_cons, List.not_mem_nil, or_false] at hq
      rcases hq with rfl | rfl | rfl | rfl
      · exact .zero (by decide +kernel) (by decide +kernel)
      · exact .sym (symQuery true _ (fun h => absurd h (Nat.lt_irrefl _)))
      · exact .sym (symQuery false _ (by decide))
      · exact .sym (symQuery true _ (by decide)))
  exact ⟨sv, rs, sv', h1, h2, h3.length_eq.symm⟩
example : ((BiT.Runner.core p tc).bind (fun sv => (BiT.Runner.queriesWith minKeyDir sv
      [(zeroBi, 7, 2, INFINITY), (symmetricBi true pf pb, 1, 8, INFINITY), (symmetricBi false pf pb, 1, 8, 32), (symmetricBi true pf pb, 1, 8, 20)]).map Prod.fst)) =
    some [some 31, some 31, some 31, none] := by decide +kernel
example : ((BiT.Runner.core p tc).bind (fun sv => (sv.query (symmetricBi true pf pb) minKeyDir 1 8 INFINITY).bind (fun r => (r.2.path 1 8).map (fun p => (r.1, p))))) =
    some (some 31, [1, 0, 4, 5, 8]) := by decide +kernel
example : ((BiT.Runner.core p tc).bind (fun sv => (BiT.Runner.queriesWith alternatingDirs sv [(zeroBi, 7, 2, INFINITY), (zeroBi, 1, 8, 32)]).map Prod.fst)) =
    some [some 31, some 31] := by decide +kernel

theorem gdist : IsDist g.Arc 0 6 31 := by
  refine isDist_of_potential (π := fun v => [31, 31, 31, 30, 20, 10, 0, 20, 20].getD v 0) wf (by decide +kernel) (by decide) (by decide) ?_
  have a1 : g.Arc 0 3 1 := ⟨_, rfl, by decide⟩
  have a2 : g.Arc 3 4 10 := ⟨_, rfl, by decide⟩
  have a3 : g.Arc 4 5 10 := ⟨_, rfl, by decide⟩
  have a4 : g.Arc 5 6 10 := ⟨_, rfl, by decide⟩
  exact .cons a1 (.cons a2 (.cons a3 (.cons a4 (.nil 6))))
end BiTopoEx

/-- **C59** is false for `BiDirServer`, which removes the arcs from core nodes to other nodes from both graphs: on a connected graph whose degrees are all
recorded correctly, a fresh server without potentials finds no path from a core node to a node outside of the core. -/
theorem C59_server_refuted : ∃ (g : FOGraph) (sv : BiT.Runner) (s t rs rt dist : Nat), g.WF ∧ g.Bounded ∧ g.FewArcs ∧ BiT.Runner.bidir isort isort g = some sv ∧
    sv.topo.deg2 ≤ sv.topo.biggest ∧ s < g.numNodes ∧ t < g.numNodes ∧ sv.topo.order.rank s = some rs ∧ sv.topo.order.rank t = some rt ∧
    IsDist g.Arc s t dist ∧ dist < INFINITY ∧ (sv.query zeroBi minKeyDir rs rt INFINITY).map Prod.fst = some none := by
  have h : ((BiT.Runner.bidir isort isort BiTopoEx.g).map (fun sv => (sv.topo.deg2 ≤ sv.topo.biggest ∧ sv.topo.order.rank 0 = some 1 ∧ sv.topo.order.rank 6 = some 8 ∧
      (sv.query zeroBi minKeyDir 1 8 INFINITY).map Prod.fst = some none : Bool))) = some true := by decide +kernel
  rw [Option.map_eq_some_iff] at h
  obtain ⟨sv, h1, h2⟩ := h
  simp only [decide_eq_true_eq] at h2
  exact ⟨BiTopoEx.g, sv, 0, 6, 1, 8, 31, BiTopoEx.wf, BiTopoEx.bounded, BiTopoEx.few, h1, h2.1, by decide, by decide, h2.2.1, h2.2.2.1, BiTopoEx.gdist, by decide, h2.2.2.2⟩

end Verif
