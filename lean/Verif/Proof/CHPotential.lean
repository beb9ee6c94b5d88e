import Verif.Proof.CCHPotential
import Verif.Props.Dijkstra
import Verif.Proof.Alt
set_option linter.unusedSimpArgs false
set_option linter.unusedVariables false
/- CH potentials, for any pair of upward graphs. -/
namespace Verif
namespace CCH
open Spec GraphOps FOGraph

/-- a graph all arcs of which lead upwards -/
structure UpDir (n : Nat) (g : FOGraph) : Prop where
  wf : g.WF
  nn : g.numNodes = n
  up : ∀ {u v w}, g.Arc u v w → u < v
  bound : ∀ {u v w}, g.Arc u v w → w ≤ INFINITY

theorem DirOK.toUp {n : Nat} {tree : List (Option Nat)} {g : FOGraph} (h : DirOK n tree g) : UpDir n g := ⟨h.wf, h.nn, h.up, h.bound⟩

variable {n : Nat}

theorem UpDir.bounded {g : FOGraph} (h : UpDir n g) : g.Bounded := by
  intro w hw
  obtain ⟨u, ls, l, e1, e2, rfl⟩ := h.wf.weight_link hw
  exact h.bound ⟨ls, e1, e2⟩

theorem UpDir.walk {g : FOGraph} (h : UpDir n g) {s t d : Nat} : Walk g.Arc s t d ↔ UpWalk g.Arc s t d := by
  constructor
  · intro hw
    induction hw with
    | nil => exact .nil _
    | cons ha _ ih => exact .cons ha (h.up ha) ih
  · intro hw
    induction hw with
    | nil => exact .nil _
    | cons ha _ _ ih => exact .cons ha ih

theorem capMin_of_answer {A : Nat → Nat → Nat → Prop} {s t x : Nat} (hx : x ≤ INFINITY) (h : Answer A s t (if x < INFINITY then some x else none)) :
    CapMin (Walk A s t) x := by
  refine ⟨hx, fun hlt => ?_, fun d hd => ?_⟩
  · rw [if_pos hlt] at h
    exact ((h x).1 rfl).1.1
  · apply Classical.byContradiction
    intro hn
    obtain ⟨d', h1, h2⟩ := exists_isDist hd
    have := (h d').2 ⟨h2, by omega⟩
    split at this <;> simp at this
    omega

theorem answer_of_capMin {A : Nat → Nat → Nat → Prop} {s t x : Nat} (h : CapMin (Walk A s t) x) : Answer A s t (if x < INFINITY then some x else none) := by
  intro d
  constructor
  · intro hd
    split at hd
    · simp at hd; subst hd; exact ⟨⟨h.sound ‹_›, fun y hy => h.le y hy⟩, ‹_›⟩
    · simp at hd
  · rintro ⟨⟨h1, h2⟩, h3⟩
    have h4 := h.le d h1
    have h5 := h2 x (h.sound (by omega))
    have : x = d := by omega
    subst this; rw [if_pos h3]

theorem chRelax_spec {pots : TSVec (Option Nat)} {f : Nat → Option Nat} (hp : TRep n none pots f) {P : Nat → Nat → Prop}
    (hval : ∀ x d, f x = some d → CapMin (P x) d) : ∀ (ls : List Link), (∀ l ∈ ls, l.node < n ∧ l.weight ≤ INFINITY) → ∀ (d0 : Nat) (m0 : Bool) (st : List Nat),
      ∃ d m us, ls.foldlM (chRelax pots) (d0, m0, st) = some (d, m, us ++ st) ∧ d ≤ d0 ∧ us.length ≤ ls.length ∧
        (∀ u ∈ us, ∃ l ∈ ls, l.node = u) ∧ (∀ l ∈ ls, (f l.node).isSome ∨ l.node ∈ us) ∧ (m = false → m0 = false ∧ us = []) ∧
        (d = d0 ∨ ∃ l ∈ ls, ∃ p, CapMin (P l.node) p ∧ d = l.weight + p) ∧
        (us = [] → ∀ l ∈ ls, ∃ p, CapMin (P l.node) p ∧ d ≤ l.weight + p) := by
  intro ls
  induction ls with
  | nil => intro _ d0 m0 st; exact ⟨d0, m0, [], rfl, Nat.le_refl _, by simp, by simp, by simp, fun h => ⟨h, rfl⟩, .inl rfl, by simp⟩
  | cons l ls ih =>
    intro hl d0 m0 st
    obtain ⟨h1, h2⟩ := hl l (by simp)
    cases hk : f l.node with
    | some p =>
      have hc := hval _ _ hk
      have h4 : add32 p l.weight = some (p + l.weight) := add32_of_lt (by have := hc.ub; unfold INFINITY at *; unfold U32; omega)
      obtain ⟨d, m, us, e1, e2, e3, e4, e5, e6, e7, e8⟩ := ih (fun l' h' => hl l' (by simp [h'])) (min d0 (p + l.weight)) m0 st
      refine ⟨d, m, us, ?_, by omega, by simp; omega, ?_, ?_, e6, ?_, ?_⟩
      · simp only [List.foldlM_cons, chRelax, hp.get h1, hk, Option.bind_eq_bind, Option.bind_some, h4, Option.pure_def]; exact e1
      · intro u hu; obtain ⟨l', a, b⟩ := e4 u hu; exact ⟨l', by simp [a], b⟩
      · intro l' h'
        rcases List.mem_cons.1 h' with rfl | h'
        · exact .inl (by simp [hk])
        · exact e5 l' h'
      · rcases e7 with e7 | ⟨l', h5, p', h6, h7⟩
        · by_cases hm : d0 ≤ p + l.weight
          · exact .inl (by omega)
          · exact .inr ⟨l, by simp, p, hc, by omega⟩
        · exact .inr ⟨l', by simp [h5], p', h6, h7⟩
      · intro hu l' h'
        rcases List.mem_cons.1 h' with rfl | h'
        · exact ⟨p, hc, by omega⟩
        · exact e8 hu l' h'
    | none =>
      obtain ⟨d, m, us, e1, e2, e3, e4, e5, e6, e7, e8⟩ := ih (fun l' h' => hl l' (by simp [h'])) d0 true (l.node :: st)
      refine ⟨d, m, us ++ [l.node], ?_, e2, by simp; omega, ?_, ?_, ?_, ?_, ?_⟩
      · simp only [List.foldlM_cons, chRelax, hp.get h1, hk, Option.bind_eq_bind, Option.bind_some, Option.pure_def, List.append_assoc, List.singleton_append]; exact e1
      · intro u hu
        rcases List.mem_append.1 hu with hu | hu
        · obtain ⟨l', a, b⟩ := e4 u hu; exact ⟨l', by simp [a], b⟩
        · simp at hu; exact ⟨l, by simp, hu.symm⟩
      · intro l' h'
        rcases List.mem_cons.1 h' with rfl | h'
        · exact .inr (by simp)
        · rcases e5 l' h' with h | h
          · exact .inl h
          · exact .inr (by simp [h])
      · intro hm; have := (e6 hm).1; simp at this
      · rcases e7 with e7 | ⟨l', h5, p', h6, h7⟩
        · exact .inl e7
        · exact .inr ⟨l', by simp [h5], p', h6, h7⟩
      · intro hu; simp at hu

/-- the nodes of the forward graph whose potentials must be known first -/
def nb (fw : FOGraph) (x y : Nat) : Prop := ∃ w, fw.Arc x y w

/-- What the loop does with the nodes `us` on top of the stack, in at most `K` turns. -/
def Clears (n : Nat) (fw : FOGraph) (us : List Nat) (K : Nat) : Prop :=
  ∀ (B : Nat → Nat → Nat → Prop) (t : Nat) (bwd : TSVec Nat) (b : Nat → Nat), TRep n INFINITY bwd b → (∀ x, CapMin (UpWalk B t x) (b x)) →
    ∀ (pots : TSVec (Option Nat)) (f : Nat → Option Nat) (rest : List Nat), TRep n none pots f → Memo (fun x => UpDown fw.Arc B x t) (nb fw) f →
    ∃ k pots' f', k ≤ K ∧ (∀ fuel, chLoop fw bwd (fuel + k) pots (us ++ rest) = chLoop fw bwd fuel pots' rest) ∧ TRep n none pots' f' ∧
      Memo (fun x => UpDown fw.Arc B x t) (nb fw) f' ∧ (∀ x, (f x).isSome → (f' x).isSome) ∧ ∀ x ∈ us, (f' x).isSome

theorem clears_list {fw : FOGraph} {K : Nat} : ∀ (us : List Nat), (∀ u ∈ us, Clears n fw [u] K) → Clears n fw us (us.length * K) := by
  intro us
  induction us with
  | nil => intro _ B t bwd b hb hbc pots f rest hp hm; exact ⟨0, pots, f, by simp, fun fuel => rfl, hp, hm, fun x h => h, by simp⟩
  | cons u us ih =>
    intro h B t bwd b hb hbc pots f rest hp hm
    obtain ⟨k1, p1, f1, a1, a2, a3, a4, a5, a6⟩ := h u (by simp) B t bwd b hb hbc pots f (us ++ rest) hp hm
    obtain ⟨k2, p2, f2, b1, b2, b3, b4, b5, b6⟩ := ih (fun u' h' => h u' (by simp [h'])) B t bwd b hb hbc p1 f1 rest a3 a4
    refine ⟨k2 + k1, p2, f2, by simp [Nat.add_mul]; omega, ?_, b3, b4, fun x h => b5 x (a5 x h), ?_⟩
    · intro fuel
      rw [← Nat.add_assoc]
      have := a2 (fuel + k2)
      simp only [List.cons_append, List.nil_append] at this ⊢
      rw [this, b2]
    · intro x hx
      rcases List.mem_cons.1 hx with rfl | hx
      · exact b5 _ (a6 _ (by simp))
      · exact b6 x hx

theorem links_length {g : FOGraph} (hg : g.WF) {v : Nat} {ls : List Link} (h : g.linkIter v = some ls) : ls.length ≤ g.adj.flatten.length := by
  rw [hg.linkIter] at h
  exact (List.sublist_flatten_of_mem (List.mem_of_getElem? h)).length_le

/-- The loop clears one node. -/
theorem clears_one {fw : FOGraph} (hg : UpDir n fw) : ∀ j, ∃ K, ∀ v, v < n → n ≤ v + j → Clears n fw [v] K := by
  intro j
  induction j with
  | zero => exact ⟨0, fun v h1 h2 => by omega⟩
  | succ j ih =>
    obtain ⟨K, hK⟩ := ih
    refine ⟨2 + fw.adj.flatten.length * K, ?_⟩
    intro v hv hj B t bwd b hb hbc pots f rest hp hm
    cases hk : f v with
    | some d =>
      refine ⟨1, pots, f, by omega, ?_, hp, hm, fun x h => h, by simp [hk]⟩
      intro fuel
      simp [chLoop, chStep, hp.get hv, hk]
    | none =>
      obtain ⟨ls, h1⟩ := hg.wf.total (show v < fw.numNodes by rw [hg.nn]; exact hv)
      have hlen := links_length hg.wf h1
      have harc : ∀ l ∈ ls, fw.Arc v l.node l.weight := fun l hl => ⟨ls, h1, hl⟩
      have hok : ∀ l ∈ ls, l.node < n ∧ l.weight ≤ INFINITY := by
        intro l hl
        have := (FOGraph.WF.arc_lt hg.wf (harc l hl)).2
        exact ⟨by rw [hg.nn] at this; exact this, hg.bound (harc l hl)⟩
      -- a turn in which all heads are known
      have hfin : ∀ (pots : TSVec (Option Nat)) (f : Nat → Option Nat), TRep n none pots f → Memo (fun x => UpDown fw.Arc B x t) (nb fw) f → f v = none →
          (∀ l ∈ ls, (f l.node).isSome) →
          ∃ pots' f', (∀ fuel, chLoop fw bwd (fuel + 1) pots (v :: rest) = chLoop fw bwd fuel pots' rest) ∧ TRep n none pots' f' ∧
            Memo (fun x => UpDown fw.Arc B x t) (nb fw) f' ∧ (∀ x, (f x).isSome → (f' x).isSome) ∧ (f' v).isSome := by
        intro pots f hp hm hk hall
        obtain ⟨d, m, us, e1, e2, _, e4, e5, e6, e7, e8⟩ := chRelax_spec hp hm.val ls hok (b v) false (v :: rest)
        obtain ⟨d', m', us', e1', _⟩ := chRelax_spec hp hm.val ls hok (b v) false (v :: rest)
        -- with all heads known nothing is pushed
        have key : ∀ (ls : List Link), (∀ l ∈ ls, l.node < n ∧ l.weight ≤ INFINITY) → (∀ l ∈ ls, (f l.node).isSome) → ∀ d0 st,
            ∃ d1, ls.foldlM (chRelax pots) (d0, false, st) = some (d1, false, st) := by
          intro ls
          induction ls with
          | nil => intro _ _ d0 st; exact ⟨d0, rfl⟩
          | cons l ls ih =>
            intro h2 h3 d0 st
            obtain ⟨p, hp'⟩ := Option.isSome_iff_exists.1 (h3 l (by simp))
            obtain ⟨h4, h5⟩ := h2 l (by simp)
            have h6 : add32 p l.weight = some (p + l.weight) := add32_of_lt (by have := (hm.val _ _ hp').ub; unfold INFINITY at *; unfold U32; omega)
            obtain ⟨d1, h7⟩ := ih (fun l' h' => h2 l' (by simp [h'])) (fun l' h' => h3 l' (by simp [h'])) (min d0 (p + l.weight)) st
            exact ⟨d1, by simp only [List.foldlM_cons, chRelax, hp.get h4, hp', Option.bind_eq_bind, Option.bind_some, h6, Option.pure_def]; exact h7⟩
        obtain ⟨d1, h7⟩ := key ls hok hall (b v) (v :: rest)
        rw [e1] at h7
        simp only [Option.some.injEq, Prod.mk.injEq] at h7
        obtain ⟨h7a, h7b, h7c⟩ := h7
        have hus := (e6 h7b).2
        subst hus; subst h7b
        have hcap : CapMin (UpDown fw.Arc B v t) d := by
          apply updown_step (hbc v) e2
          · rcases e7 with h | ⟨l, hl, p, h3, h4⟩
            · exact .inl h
            · exact .inr ⟨l.node, l.weight, p, harc l hl, hg.up (harc l hl), h3, h4⟩
          · intro y w ha _
            obtain ⟨ls', h3, h4⟩ := ha
            rw [h1] at h3; simp at h3; subst h3
            exact e8 rfl _ h4
        obtain ⟨pots1, h3, h4⟩ := hp.modify hv (some d)
        have hmono : ∀ y, (f y).isSome → (fupd f v (some d) y).isSome := by
          intro y hy; unfold fupd; split <;> simp_all
        refine ⟨pots1, _, ?_, h4, ⟨?_, ?_⟩, hmono, by simp [fupd]⟩
        · intro fuel
          simp only [List.nil_append] at e1
          simp only [chLoop, chStep, hp.get hv, hk, hb.get hv, h1, e1, Option.bind_eq_bind, Option.bind_some, Bool.false_eq_true, if_false, h3, Option.pure_def]
        · intro y d' hy
          by_cases hyx : y = v
          · subst hyx; simp [fupd] at hy; subst hy; exact hcap
          · rw [fupd_of_ne _ _ hyx] at hy; exact hm.val y d' hy
        · intro y z hy hyz
          by_cases hyx : y = v
          · subst hyx
            obtain ⟨w, ls', h5, h6⟩ := hyz
            rw [h1] at h5; simp at h5; subst h5
            exact hmono _ (hall _ h6)
          · rw [fupd_of_ne _ _ hyx] at hy; exact hmono _ (hm.closed y z hy hyz)
      obtain ⟨d, m, us, e1, e2, e3, e4, e5, e6, e7, e8⟩ := chRelax_spec hp hm.val ls hok (b v) false (v :: rest)
      cases m with
      | false =>
        have hus := (e6 rfl).2
        subst hus
        obtain ⟨p', f', a1, a2, a3, a4, a5⟩ := hfin pots f hp hm hk (fun l hl => by simpa using e5 l hl)
        exact ⟨1, p', f', by omega, a1, a2, a3, a4, by simpa using a5⟩
      | true =>
        obtain ⟨k, p1, f1, b1, b2, b3, b4, b5, b6⟩ := clears_list us (K := K) (fun u hu => by
          obtain ⟨l, hl, rfl⟩ := e4 u hu
          have := hg.up (harc l hl)
          exact hK _ (hok l hl).1 (by omega)) B t bwd b hb hbc pots f (v :: rest) hp hm
        have hall : ∀ l ∈ ls, (f1 l.node).isSome := by
          intro l hl
          rcases e5 l hl with h | h
          · exact b5 _ h
          · exact b6 _ h
        have hkb : k ≤ fw.adj.flatten.length * K := Nat.le_trans b1 (Nat.mul_le_mul_right K (Nat.le_trans e3 hlen))
        have hstep : ∀ fuel, chLoop fw bwd (fuel + 1) pots (v :: rest) = chLoop fw bwd fuel pots (us ++ v :: rest) := by
          intro fuel
          simp only [chLoop, chStep, hp.get hv, hk, hb.get hv, h1, e1, Option.bind_eq_bind, Option.bind_some, if_true, Option.pure_def]
        cases hk1 : f1 v with
        | some d1 =>
          -- a value has already been computed
          refine ⟨1 + k + 1, p1, f1, by omega, ?_, b3, b4, b5, by simp [hk1]⟩
          intro fuel
          have h3 := hstep (fuel + 1 + k)
          rw [b2 (fuel + 1)] at h3
          rw [show fuel + (1 + k + 1) = fuel + 1 + k + 1 by omega]
          simp only [List.cons_append, List.nil_append]
          rw [h3]
          simp [chLoop, chStep, b3.get hv, hk1]
        | none =>
          obtain ⟨p', f', a1, a2, a3, a4, a5⟩ := hfin p1 f1 b3 b4 hk1 hall
          refine ⟨1 + k + 1, p', f', by omega, ?_, a2, a3, fun x h => a4 x (b5 x h), by simpa using a5⟩
          intro fuel
          have h3 := hstep (fuel + 1 + k)
          rw [b2 (fuel + 1), a1] at h3
          rw [show fuel + (1 + k + 1) = fuel + 1 + k + 1 by omega]
          exact h3

/-- a CH potential after `init t` and any number of questions -/
structure ChPotOK (n : Nat) (fw bw : FOGraph) (t : Nat) (s : ChPotState) : Prop where
  pots : ∃ f, TRep n none s.pots f ∧ Memo (fun x => UpDown fw.Arc bw.Arc x t) (nb fw) f
  data : ∃ a, DData.Refines n s.data a
  bw : ∃ b, TRep n INFINITY s.data.dist b ∧ ∀ x, CapMin (UpWalk bw.Arc t x) (b x)

/-- an object that may be initialised -/
structure ChPotReady (n : Nat) (s : ChPotState) : Prop where
  pots : ∃ f, TRep n none s.pots f
  data : ∃ a, DData.Refines n s.data a

theorem ChPotOK.ready {fw bw : FOGraph} {t : Nat} {s : ChPotState} (h : ChPotOK n fw bw t s) : ChPotReady n s := by
  obtain ⟨f, h1, _⟩ := h.pots
  exact ⟨⟨f, h1⟩, h.data⟩

theorem chPotReady_new : ChPotReady n (ChPotState.new n) := ⟨⟨_, TRep.new⟩, ⟨_, DData.refines_new n ()⟩⟩

open DData in
theorem chPotInit_spec {fw bw : FOGraph} (hg : UpDir n bw) {s : ChPotState} (hs : ChPotReady n s) {t : Nat} (ht : t < n) :
    ∃ s', chPotInit bw s t = some s' ∧ ChPotOK n fw bw t s' := by
  obtain ⟨f, h1⟩ := hs.pots
  obtain ⟨a, h2⟩ := hs.data
  have hp := staticProb_ok (hg.wf.linksOK hg.bounded) (zero_feasible _)
  have hnn := hg.nn
  obtain ⟨res, d', c, a', S, e1, e2⟩ := search_spec (t := bw.numNodes) (τ := 0) (c := ()) hp plainCb_ok
    (show Refines bw.numNodes s.data a by rw [hnn]; exact h2) (show t < bw.numNodes by omega) (by simp [INFINITY]) trivial
  simp only [staticProb] at e1
  refine ⟨⟨s.pots.reset, d'⟩, ?_, ⟨_, h1.reset, ⟨fun x d h => by simp at h, fun x y h => by simp at h⟩⟩, ?_, ?_⟩
  · cases h : s.data.init t 0 with
    | none => rw [h] at e1; simp at e1
    | some d1 =>
      rw [h] at e1; simp at e1
      simp [chPotInit, h, e1]
  · have := e2.refines
    exact ⟨a', by rw [← hnn]; exact this⟩
  · have hr := e2.refines
    obtain ⟨dl, g1, g2, g3⟩ := hr.dist
    refine ⟨a'.D, ⟨dl, g1, by rw [g2]; exact hnn, hr.default, g3⟩, ?_⟩
    intro x
    by_cases hx : x < n
    · have := capMin_of_answer (e2.inv.ub x) (one_to_all_answer hg.wf hg.bounded e2 (show x < bw.numNodes by omega))
      exact ⟨this.ub, fun h => hg.walk.1 (this.sound h), fun d hd => this.le d (hg.walk.2 hd)⟩
    · have hn : dl[x]? = none := List.getElem?_eq_none (by rw [g2]; show bw.numNodes ≤ x; omega)
      have hD : a'.D x = INFINITY := by rw [g3, hn]; rfl
      refine ⟨by omega, by omega, ?_⟩
      intro d hd
      exfalso
      rcases upwalk_last hd with ⟨rfl, _⟩ | ⟨y, _, w, _, ha, _⟩
      · exact hx ht
      · have := (FOGraph.WF.arc_lt hg.wf ha).2; omega

theorem chPotGet_spec {fw bw : FOGraph} (hg : UpDir n fw) {K fuel : Nat} (hK : ∀ v, v < n → Clears n fw [v] K) (hf : K ≤ fuel) {s : ChPotState} {t : Nat}
    (hs : ChPotOK n fw bw t s) {v : Nat} (hv : v < n) :
    ∃ s' x, chPotGet fuel fw s v = some (s', if x < INFINITY then some x else none) ∧ ChPotOK n fw bw t s' ∧ CapMin (UpDown fw.Arc bw.Arc v t) x := by
  obtain ⟨f, h1, h2⟩ := hs.pots
  obtain ⟨b, h3, h4⟩ := hs.bw
  cases hk : f v with
  | some d =>
    exact ⟨s, d, by simp [chPotGet, h1.get hv, hk], hs, h2.val v d hk⟩
  | none =>
    obtain ⟨k, p', f', e1, e2, e3, e4, e5, e6⟩ := hK v hv bw.Arc t s.data.dist b h3 h4 s.pots f [] h1 h2
    obtain ⟨x, hx⟩ := Option.isSome_iff_exists.1 (e6 v (by simp))
    have h5 := e2 (fuel - k)
    rw [show fuel - k + k = fuel by omega] at h5
    have h6 : chLoop fw s.data.dist (fuel - k) p' [] = some p' := by
      cases fuel - k <;> rfl
    rw [h6] at h5
    simp only [List.append_nil] at h5
    refine ⟨⟨p', s.data⟩, x, ?_, ⟨⟨f', e3, e4⟩, hs.data, hs.bw⟩, e4.val v x hx⟩
    simp only [chPotGet, h1.get hv, hk, h5, e3.get hv, hx, Option.bind_eq_bind, Option.bind_some, Option.pure_def]

end CCH
end Verif
