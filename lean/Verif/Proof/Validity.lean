import Verif.Model.Validity
import Verif.Spec.Validity
import Verif.Proof.Perfect
set_option linter.unusedSimpArgs false
set_option linter.unusedVariables false
/- Lemmas about perfect customization with validity: it runs in lockstep with plain perfect customization. -/
namespace Verif
namespace CCH
open Spec

variable {n : Nat} {c : Cch}

/-- The bounds of `p`. -/
def VW.bound (c : Cch) (p : VW) : Nat → Nat → Nat → Nat → Prop := StoredBound c.tail c.head p.up p.upFrom p.down p.downFrom

/-- An entry kept with its validity, or improved. -/
def KeptOr (w0 m0 w m : List Nat) : Prop :=
  ∀ e : Nat, (w[e]? = w0[e]? ∧ m[e]? = m0[e]?) ∨ ∃ a b, w[e]? = some a ∧ w0[e]? = some b ∧ a < b

/-- `v` has the weights of `p`; its bounds are sums of those of `v0`. -/
structure VSim (c : Cch) (v0 v : VW) (p : PW) : Prop where
  up : v.up = p.up
  down : v.down = p.down
  ul : v.upFrom.length = v.up.length
  dl : v.downFrom.length = v.down.length
  su : ∀ e x y a t, c.Edge e x y → v.up[e]? = some a → v.upFrom[e]? = some t → AddedUp (VW.bound c v0) x y a t
  sd : ∀ e x y a t, c.Edge e x y → v.down[e]? = some a → v.downFrom[e]? = some t → AddedUp (VW.bound c v0) y x a t
  ku : KeptOr v0.up v0.upFrom v.up v.upFrom
  kd : KeptOr v0.down v0.downFrom v.down v.downFrom

theorem foldlM_sim {α β γ : Type} {R : β → α → Prop} {f : α → γ → Option α} {g : β → γ → Option β} (E : List γ)
    (hstep : ∀ l ∈ E, ∀ p v p', R v p → f p l = some p' → ∃ v', g v l = some v' ∧ R v' p') {p p' : α} {v : β} (h : R v p)
    (hf : E.foldlM f p = some p') : ∃ v', E.foldlM g v = some v' ∧ R v' p' := by
  induction E generalizing p v with
  | nil => simp at hf; subst hf; exact ⟨v, rfl, h⟩
  | cons l E ih =>
    rw [List.foldlM_cons] at hf
    obtain ⟨q, h1, h2⟩ := Option.bind_eq_some_iff.1 hf
    obtain ⟨v', h3, h4⟩ := hstep l (by simp) p v q h h1
    obtain ⟨v'', h5, h6⟩ := ih (fun l hl => hstep l (by simp [hl])) h4 h2
    exact ⟨v'', by rw [List.foldlM_cons, h3]; exact h5, h6⟩

theorem relaxFrom_sim {w m : List Nat} {md : List Bool} {e x t : Nat} {r : List Nat × List Bool} (hl : m.length = w.length)
    (h : relaxMod w md e x = some r) : ∃ m', relaxFrom w m e x t = some (r.1, m') ∧ m'.length = r.1.length ∧
      ((r.1 = w ∧ m' = m) ∨ (∃ old, w[e]? = some old ∧ x < old ∧ r.1 = w.set e x ∧ m' = m.set e t)) := by
  simp only [relaxMod, Option.bind_eq_bind] at h
  obtain ⟨old, h1, h2⟩ := Option.bind_eq_some_iff.1 h
  have he : e < w.length := (List.getElem?_eq_some_iff.1 h1).1
  by_cases hx : x < old
  · rw [if_pos hx] at h2
    obtain ⟨w', h3, h4⟩ := Option.bind_eq_some_iff.1 h2
    obtain ⟨m', h5, h6⟩ := Option.bind_eq_some_iff.1 h4
    simp only [Option.pure_def, Option.some.injEq] at h6
    subst h6
    have h7 := (upd_eq_some.1 h3).2
    refine ⟨m.set e t, ?_, by simp [h7, hl], .inr ⟨old, h1, hx, h7, rfl⟩⟩
    simp only [relaxFrom, h1, Option.bind_eq_bind, Option.bind_some, hx, if_true, h3, upd_of_lt t (show e < m.length by omega), Option.pure_def]
  · rw [if_neg hx] at h2
    simp only [Option.pure_def, Option.some.injEq] at h2
    subst h2
    exact ⟨m, by simp [relaxFrom, h1, hx], hl, .inl ⟨rfl, rfl⟩⟩

theorem KeptOr.relax {w0 m0 w m : List Nat} (h : KeptOr w0 m0 w m) {e x t old : Nat} (ho : w[e]? = some old) (hx : x < old) :
    KeptOr w0 m0 (w.set e x) (m.set e t) := by
  intro i
  have he : e < w.length := (List.getElem?_eq_some_iff.1 ho).1
  by_cases hie : i = e
  · subst hie
    right
    rcases h i with ⟨h1, h2⟩ | ⟨a, b, h1, h2, h3⟩
    · exact ⟨x, old, List.getElem?_set_self he, by rw [← h1]; exact ho, hx⟩
    · rw [ho] at h1; injection h1 with h1
      exact ⟨x, b, List.getElem?_set_self he, h2, by omega⟩
  · rw [List.getElem?_set_ne (by omega), List.getElem?_set_ne (by omega)]
    exact h i

theorem relaxUp_sim {v0 v : VW} {p p' : PW} (hR : VSim c v0 v p) {x y z e a b va vb : Nat} (he : c.Edge e x z)
    (ha : AddedUp (VW.bound c v0) x y a va) (hb : AddedUp (VW.bound c v0) y z b vb) (h : p.relaxUp e a b = some p') :
    ∃ v', v.relaxUp e a b va vb = some v' ∧ VSim c v0 v' p' := by
  simp only [PW.relaxUp, Option.bind_eq_bind] at h
  obtain ⟨s, h1, h2⟩ := Option.bind_eq_some_iff.1 h
  obtain ⟨r, h3, h4⟩ := Option.bind_eq_some_iff.1 h2
  simp only [Option.pure_def, Option.some.injEq] at h4
  subst h4
  rw [← hR.up] at h3
  obtain ⟨m', h5, h6, h7⟩ := relaxFrom_sim (t := max va vb) hR.ul h3
  have hs : s = a + b := by
    simp only [add32] at h1
    split at h1 <;> simp at h1
    exact h1.symm
  refine ⟨{ v with up := r.1, upFrom := m' }, by simp only [VW.relaxUp, h1, h5, Option.bind_eq_bind, Option.bind_some, Option.pure_def], rfl, hR.down, h6, hR.dl, ?_, hR.sd, ?_, hR.kd⟩
  · intro i x' y' a' t' hi hw hm
    rcases h7 with ⟨k1, k2⟩ | ⟨old, k0, kx, k1, k2⟩
    · simp only [k1, k2] at hw hm
      exact hR.su i _ _ _ _ hi hw hm
    · simp only [k1, k2] at hw hm
      have hel : e < v.up.length := (List.getElem?_eq_some_iff.1 k0).1
      by_cases hie : e = i
      · subst hie
        rw [List.getElem?_set_self hel] at hw
        rw [List.getElem?_set_self (by rw [hR.ul]; exact hel)] at hm
        injection hw with hw; injection hm with hm
        subst hw; subst hm
        obtain ⟨rfl, rfl⟩ := Edge.inj he hi
        rw [hs]
        exact .join ha hb
      · rw [List.getElem?_set_ne hie] at hw hm
        exact hR.su i _ _ _ _ hi hw hm
  · rcases h7 with ⟨k1, k2⟩ | ⟨old, k0, kx, k1, k2⟩
    · simp only [k1, k2]; exact hR.ku
    · simp only [k1, k2]; exact hR.ku.relax k0 kx

theorem relaxDown_sim {v0 v : VW} {p p' : PW} (hR : VSim c v0 v p) {x y z e a b va vb : Nat} (he : c.Edge e x z)
    (ha : AddedUp (VW.bound c v0) y x a va) (hb : AddedUp (VW.bound c v0) z y b vb) (h : p.relaxDown e a b = some p') :
    ∃ v', v.relaxDown e a b va vb = some v' ∧ VSim c v0 v' p' := by
  simp only [PW.relaxDown, Option.bind_eq_bind] at h
  obtain ⟨s, h1, h2⟩ := Option.bind_eq_some_iff.1 h
  obtain ⟨r, h3, h4⟩ := Option.bind_eq_some_iff.1 h2
  simp only [Option.pure_def, Option.some.injEq] at h4
  subst h4
  rw [← hR.down] at h3
  obtain ⟨m', h5, h6, h7⟩ := relaxFrom_sim (t := max va vb) hR.dl h3
  have hs : s = b + a := by
    simp only [add32] at h1
    split at h1 <;> simp at h1
    omega
  refine ⟨{ v with down := r.1, downFrom := m' }, by simp only [VW.relaxDown, h1, h5, Option.bind_eq_bind, Option.bind_some, Option.pure_def], hR.up, rfl, hR.ul, h6, hR.su, ?_, hR.ku, ?_⟩
  · intro i x' y' a' t' hi hw hm
    rcases h7 with ⟨k1, k2⟩ | ⟨old, k0, kx, k1, k2⟩
    · simp only [k1, k2] at hw hm
      exact hR.sd i _ _ _ _ hi hw hm
    · simp only [k1, k2] at hw hm
      have hel : e < v.down.length := (List.getElem?_eq_some_iff.1 k0).1
      by_cases hie : e = i
      · subst hie
        rw [List.getElem?_set_self hel] at hw
        rw [List.getElem?_set_self (by rw [hR.dl]; exact hel)] at hm
        injection hw with hw; injection hm with hm
        subst hw; subst hm
        obtain ⟨rfl, rfl⟩ := Edge.inj he hi
        rw [hs, Nat.max_comm]
        exact .join hb ha
      · rw [List.getElem?_set_ne hie] at hw hm
        exact hR.sd i _ _ _ _ hi hw hm
  · rcases h7 with ⟨k1, k2⟩ | ⟨old, k0, kx, k1, k2⟩
    · simp only [k1, k2]; exact hR.kd
    · simp only [k1, k2]; exact hR.kd.relax k0 kx

theorem VSim.fromUp {v0 v : VW} {p : PW} (h : VSim c v0 v p) {e a : Nat} (ha : p.up[e]? = some a) :
    v.up[e]? = some a ∧ ∃ t, v.upFrom[e]? = some t := by
  rw [← h.up] at ha
  have := (List.getElem?_eq_some_iff.1 ha).1
  exact ⟨ha, _, List.getElem?_eq_getElem (by rw [h.ul]; exact this)⟩

theorem VSim.fromDown {v0 v : VW} {p : PW} (h : VSim c v0 v p) {e a : Nat} (ha : p.down[e]? = some a) :
    v.down[e]? = some a ∧ ∃ t, v.downFrom[e]? = some t := by
  rw [← h.down] at ha
  have := (List.getElem?_eq_some_iff.1 ha).1
  exact ⟨ha, _, List.getElem?_eq_getElem (by rw [h.dl]; exact this)⟩

theorem validTriangle_sim {v0 v : VW} {p p' : PW} (hR : VSim c v0 v p) {x y z e s o : Nat} (he : c.Edge e x y) (hs : c.Edge s y z) (ho : c.Edge o x z)
    (h : perfTriangle e s o p = some p') : ∃ v', validTriangle e s o v = some v' ∧ VSim c v0 v' p' := by
  simp only [perfTriangle, Option.bind_eq_bind] at h
  obtain ⟨a1, g1, h⟩ := Option.bind_eq_some_iff.1 h
  obtain ⟨b1, g2, h⟩ := Option.bind_eq_some_iff.1 h
  obtain ⟨p1, g3, h⟩ := Option.bind_eq_some_iff.1 h
  obtain ⟨a2, g4, h⟩ := Option.bind_eq_some_iff.1 h
  obtain ⟨b2, g5, h⟩ := Option.bind_eq_some_iff.1 h
  obtain ⟨p2, g6, h⟩ := Option.bind_eq_some_iff.1 h
  obtain ⟨a3, g7, h⟩ := Option.bind_eq_some_iff.1 h
  obtain ⟨b3, g8, h⟩ := Option.bind_eq_some_iff.1 h
  obtain ⟨p3, g9, h⟩ := Option.bind_eq_some_iff.1 h
  obtain ⟨a4, g10, h⟩ := Option.bind_eq_some_iff.1 h
  obtain ⟨b4, g11, h⟩ := Option.bind_eq_some_iff.1 h
  obtain ⟨k1, t1, l1⟩ := hR.fromUp g1
  obtain ⟨k2, t2, l2⟩ := hR.fromUp g2
  obtain ⟨v1, m1, r1⟩ := relaxUp_sim hR ho (hR.su _ _ _ _ _ he k1 l1) (hR.su _ _ _ _ _ hs k2 l2) g3
  obtain ⟨k3, t3, l3⟩ := r1.fromUp g4
  obtain ⟨k4, t4, l4⟩ := r1.fromDown g5
  obtain ⟨v2, m2, r2⟩ := relaxUp_sim r1 he (r1.su _ _ _ _ _ ho k3 l3) (r1.sd _ _ _ _ _ hs k4 l4) g6
  obtain ⟨k5, t5, l5⟩ := r2.fromDown g7
  obtain ⟨k6, t6, l6⟩ := r2.fromDown g8
  obtain ⟨v3, m3, r3⟩ := relaxDown_sim r2 ho (r2.sd _ _ _ _ _ he k5 l5) (r2.sd _ _ _ _ _ hs k6 l6) g9
  obtain ⟨k7, t7, l7⟩ := r3.fromDown g10
  obtain ⟨k8, t8, l8⟩ := r3.fromUp g11
  obtain ⟨v4, m4, r4⟩ := relaxDown_sim r3 he (r3.sd _ _ _ _ _ ho k7 l7) (r3.su _ _ _ _ _ hs k8 l8) h
  refine ⟨v4, ?_, r4⟩
  simp only [validTriangle, k1, k2, l1, l2, m1, k3, k4, l3, l4, m2, k5, k6, l5, l6, m3, k7, k8, l7, l8, Option.bind_eq_bind, Option.bind_some]
  exact m4

theorem validNode_sim (hg : Base n c) {v0 v : VW} {p p' : PW} (hR : VSim c v0 v p) {x : Nat} (hx : x < n) {ws' : List (Option Nat)}
    (h : perfNode c x (List.replicate n none) p = some (p', ws')) :
    ∃ v', validNode c x (List.replicate n none) v = some (v', ws') ∧ VSim c v0 v' p' := by
  obtain ⟨es, e1, _, e3⟩ := edgesOf_spec hg hx
  obtain ⟨ws, w1, w2, w3⟩ := loadWs_spec hg e3 (ws := List.replicate n none) rfl
  have w4 := clearWs_spec hg e3 w2 w3
  simp only [perfNode, e1, w1, Option.bind_eq_bind, Option.bind_some] at h
  obtain ⟨q, h1, h2⟩ := Option.bind_eq_some_iff.1 h
  simp only [w4, Option.bind_some, Option.pure_def, Option.some.injEq, Prod.mk.injEq] at h2
  obtain ⟨rfl, rfl⟩ := h2
  obtain ⟨v', h3, h4⟩ := foldlM_sim (R := VSim c v0) (g := fun (p : VW) (l : Nat × Nat) => (edgesOf c l.1).bind fun es => es.foldlM (validEdge ws l.2) p) es (by
    rintro ⟨y, e⟩ hl p v p' hR hf
    have he : c.Edge e x y := (e3 y e).1 hl
    obtain ⟨fs, f1, _, f3⟩ := edgesOf_spec hg (hg.up he).2
    simp only [f1, Option.bind_some] at hf ⊢
    refine foldlM_sim (R := VSim c v0) fs ?_ hR hf
    rintro ⟨z, s⟩ hm p v p' hR hf
    have hs : c.Edge s y z := (f3 z s).1 hm
    obtain ⟨o, k1, k2⟩ := w3 z (hg.up hs).2
    cases o with
    | none =>
      simp only [perfEdge, k1, Option.bind_eq_bind, Option.bind_some, Option.pure_def, Option.some.injEq] at hf
      subst hf
      exact ⟨v, by simp [validEdge, k1], hR⟩
    | some o =>
      simp only [perfEdge, k1, Option.bind_eq_bind, Option.bind_some] at hf
      obtain ⟨v', l1, l2⟩ := validTriangle_sim hR he hs ((k2 o).1 rfl) hf
      exact ⟨v', by simp only [validEdge, k1, Option.bind_eq_bind, Option.bind_some]; exact l1, l2⟩) hR h1
  exact ⟨v', by simp only [validNode, e1, w1, Option.bind_eq_bind, Option.bind_some, h3, w4, Option.pure_def], h4⟩

/-- Sizes and bounds of the input. -/
structure VOK (c : Cch) (p : VW) : Prop where
  ul : p.up.length = c.head.length
  dl : p.down.length = c.head.length
  ufl : p.upFrom.length = c.head.length
  dfl : p.downFrom.length = c.head.length
  ub : ∀ (e a : Nat), p.up[e]? = some a → a ≤ INFINITY
  db : ∀ (e a : Nat), p.down[e]? = some a → a ≤ INFINITY

/-- The weights as input of the plain perfect customization. -/
def VW.start (p : VW) : PW := ⟨p.up, p.down, List.replicate p.up.length false, List.replicate p.down.length false⟩

theorem VOK.start {p : VW} (h : VOK c p) : POK c p.start := by
  refine ⟨h.ul, h.dl, by simp [VW.start, h.ul], by simp [VW.start, h.dl], ?_, ?_⟩
  · intro e he
    obtain ⟨a, ha⟩ : ∃ a, p.up[e]? = some a := ⟨_, List.getElem?_eq_getElem (by rw [h.ul]; exact he)⟩
    simp only [PW.u, VW.start, ha, Option.getD_some]; exact h.ub e a ha
  · intro e he
    obtain ⟨a, ha⟩ : ∃ a, p.down[e]? = some a := ⟨_, List.getElem?_eq_getElem (by rw [h.dl]; exact he)⟩
    simp only [PW.d, VW.start, ha, Option.getD_some]; exact h.db e a ha

theorem VSim.init {p : VW} (h : VOK c p) : VSim c p p p.start := by
  refine ⟨rfl, rfl, by rw [h.ufl, h.ul], by rw [h.dfl, h.dl], ?_, ?_, fun e => .inl ⟨rfl, rfl⟩, fun e => .inl ⟨rfl, rfl⟩⟩
  · intro e x y a t he ha ht
    exact .one ⟨e, .inl ⟨he.1, he.2, ha, ht⟩⟩
  · intro e x y a t he ha ht
    exact .one ⟨e, .inr ⟨he.1, he.2, ha, ht⟩⟩

/-- All nodes, in any order. -/
theorem withValidity_spec (hg : Base n c) {p : VW} (hp : VOK c p) {L : List Nat} (hL : ∀ x ∈ L, x < n) :
    ∃ r q : _, withValidity c L p = some r ∧ VSim c p r q ∧ POK c q ∧
      ((L.foldlM (fun (st : PW × List (Option Nat)) v => perfNode c v st.2 st.1) (p.start, List.replicate c.numNodes none)).map Prod.fst = some q) := by
  have hnn : c.numNodes = n := hg.nn
  have key : ∀ (L : List Nat), (∀ x ∈ L, x < n) → ∀ (v : VW) (q : PW), VSim c p v q → POK c q → ∃ v' q', 
      L.foldlM (fun (st : VW × List (Option Nat)) x => validNode c x st.2 st.1) (v, List.replicate n none) = some (v', List.replicate n none) ∧
      L.foldlM (fun (st : PW × List (Option Nat)) x => perfNode c x st.2 st.1) (q, List.replicate n none) = some (q', List.replicate n none) ∧
      VSim c p v' q' ∧ POK c q' := by
    intro L
    induction L with
    | nil => intro _ v q hv hq; exact ⟨v, q, rfl, rfl, hv, hq⟩
    | cons x L ih =>
      intro hL v q hv hq
      obtain ⟨q1, a1, a2, _⟩ := perfNode_spec hg hq (hL x (by simp))
      obtain ⟨v1, b1, b2⟩ := validNode_sim hg hv (hL x (by simp)) a1
      obtain ⟨v2, q2, c1, c2, c3, c4⟩ := ih (fun y hy => hL y (by simp [hy])) v1 q1 b2 a2.ok
      refine ⟨v2, q2, ?_, ?_, c3, c4⟩
      · rw [List.foldlM_cons]; simp only [b1, Option.bind_eq_bind, Option.bind_some]; exact c1
      · rw [List.foldlM_cons]; simp only [a1, Option.bind_eq_bind, Option.bind_some]; exact c2
  obtain ⟨v', q', h1, h2, h3, h4⟩ := key L hL p p.start (VSim.init hp) hp.start
  refine ⟨v', q', ?_, h3, h4, ?_⟩
  · simp only [withValidity, hnn, h1, Option.bind_eq_bind, Option.bind_some, Option.pure_def]
  · rw [hnn, h2]; rfl

/-- Sums of promises are promises. -/
theorem addedUp_takes {trip : Nat → Nat → Nat → Nat → Prop} (ht : Traffic trip) {bound : Nat → Nat → Nat → Nat → Prop} {M : Nat}
    (hb : ∀ x y w v, bound x y w v → w < M → TakesAtMost trip x y w v) {x y w v : Nat} (h : AddedUp bound x y w v) (hw : w < M) :
    TakesAtMost trip x y w v := by
  induction h with
  | one h => exact hb _ _ _ _ h hw
  | @join x y z w w' v v' _ _ ih1 ih2 =>
    intro t hv
    obtain ⟨a, h1, h2⟩ := ih1 (by omega) t (by omega)
    have := ht.forward _ _ _ _ h1
    obtain ⟨b, h3, h4⟩ := ih2 (by omega) a (by omega)
    exact ⟨b, ht.goOn _ _ _ _ _ _ h1 h3, by omega⟩

end CCH
end Verif
