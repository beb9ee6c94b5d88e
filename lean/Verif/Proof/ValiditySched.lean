import Verif.Proof.Validity
set_option linter.unusedSimpArgs false
set_option linter.unusedVariables false
/- The result of perfect customization with validity does not depend on the order of the nodes if upper neighbours come first. -/
namespace Verif
namespace CCH
open Spec

variable {n : Nat} {c : Cch}

/-- The entries for the edge `e` are the same. -/
structure Same4 (v v' : VW) (e : Nat) : Prop where
  up : v.up[e]? = v'.up[e]?
  down : v.down[e]? = v'.down[e]?
  upFrom : v.upFrom[e]? = v'.upFrom[e]?
  downFrom : v.downFrom[e]? = v'.downFrom[e]?

theorem Same4.refl (v : VW) (e : Nat) : Same4 v v e := ⟨rfl, rfl, rfl, rfl⟩
theorem Same4.symm {v v' : VW} {e : Nat} (h : Same4 v v' e) : Same4 v' v e := ⟨h.1.symm, h.2.symm, h.3.symm, h.4.symm⟩
theorem Same4.trans {v v' v'' : VW} {e : Nat} (h : Same4 v v' e) (h' : Same4 v' v'' e) : Same4 v v'' e :=
  ⟨h.1.trans h'.1, h.2.trans h'.2, h.3.trans h'.3, h.4.trans h'.4⟩

/-- `v` and `v'` agree on the edges `P`, and came from `v0` and `v0'` by changes of edges with tail `x`. -/
structure Alike (c : Cch) (P : Nat → Prop) (x : Nat) (v0 v0' v v' : VW) : Prop where
  same : ∀ e, P e → Same4 v v' e
  fr : ∀ e, c.tail[e]? ≠ some x → Same4 v0 v e
  fr' : ∀ e, c.tail[e]? ≠ some x → Same4 v0' v' e

theorem upd_alike {P : Nat → Prop} {l l' r : List Nat} {e a : Nat} (h : ∀ i, P i → l[i]? = l'[i]?) (he : P e) (hu : upd l e a = some r) :
    ∃ r', upd l' e a = some r' ∧ (∀ i, P i → r[i]? = r'[i]?) ∧ (∀ i, i ≠ e → l[i]? = r[i]?) ∧ (∀ i, i ≠ e → l'[i]? = r'[i]?) := by
  obtain ⟨h1, rfl⟩ := upd_eq_some.1 hu
  have h2 : e < l'.length := by
    have := h e he
    rw [List.getElem?_eq_getElem h1] at this
    exact (List.getElem?_eq_some_iff.1 this.symm).1
  refine ⟨l'.set e a, upd_eq_some.2 ⟨h2, rfl⟩, ?_, fun i hi => ?_, fun i hi => ?_⟩
  · intro i hi
    by_cases hie : e = i
    · subst hie; rw [List.getElem?_set_self h1, List.getElem?_set_self h2]
    · rw [List.getElem?_set_ne hie, List.getElem?_set_ne hie]; exact h i hi
  · rw [List.getElem?_set_ne (by omega)]
  · rw [List.getElem?_set_ne (by omega)]

theorem relaxFrom_alike {P : Nat → Prop} {w w' m m' : List Nat} {e x t : Nat} {r : List Nat × List Nat} (hw : ∀ i, P i → w[i]? = w'[i]?)
    (hm : ∀ i, P i → m[i]? = m'[i]?) (he : P e) (h : relaxFrom w m e x t = some r) :
    ∃ r', relaxFrom w' m' e x t = some r' ∧ (∀ i, P i → r.1[i]? = r'.1[i]?) ∧ (∀ i, P i → r.2[i]? = r'.2[i]?) ∧
      (∀ i, i ≠ e → w[i]? = r.1[i]? ∧ m[i]? = r.2[i]? ∧ w'[i]? = r'.1[i]? ∧ m'[i]? = r'.2[i]?) := by
  simp only [relaxFrom, Option.bind_eq_bind] at h
  obtain ⟨old, h1, h2⟩ := Option.bind_eq_some_iff.1 h
  have h1' : w'[e]? = some old := by rw [← hw e he]; exact h1
  by_cases hx : x < old
  · rw [if_pos hx] at h2
    obtain ⟨w1, h3, h4⟩ := Option.bind_eq_some_iff.1 h2
    obtain ⟨m1, h5, h6⟩ := Option.bind_eq_some_iff.1 h4
    simp only [Option.pure_def, Option.some.injEq] at h6
    subst h6
    obtain ⟨w2, a1, a2, a3, a4⟩ := upd_alike hw he h3
    obtain ⟨m2, b1, b2, b3, b4⟩ := upd_alike hm he h5
    refine ⟨(w2, m2), ?_, a2, b2, fun i hi => ⟨a3 i hi, b3 i hi, a4 i hi, b4 i hi⟩⟩
    simp only [relaxFrom, h1', Option.bind_eq_bind, Option.bind_some, hx, if_true, a1, b1, Option.pure_def]
  · rw [if_neg hx] at h2
    simp only [Option.pure_def, Option.some.injEq] at h2
    subst h2
    exact ⟨(w', m'), by simp [relaxFrom, h1', hx], hw, hm, fun i _ => ⟨rfl, rfl, rfl, rfl⟩⟩

theorem relaxUp_alike {P : Nat → Prop} {x : Nat} {v0 v0' v v' r : VW} (h : Alike c P x v0 v0' v v') {e a b va vb : Nat} (he : P e)
    (ht : c.tail[e]? = some x) (hr : v.relaxUp e a b va vb = some r) : ∃ r', v'.relaxUp e a b va vb = some r' ∧ Alike c P x v0 v0' r r' := by
  simp only [VW.relaxUp, Option.bind_eq_bind] at hr
  obtain ⟨s, h1, h2⟩ := Option.bind_eq_some_iff.1 hr
  obtain ⟨q, h3, h4⟩ := Option.bind_eq_some_iff.1 h2
  simp only [Option.pure_def, Option.some.injEq] at h4
  subst h4
  obtain ⟨q', k1, k2, k3, k4⟩ := relaxFrom_alike (fun i hi => (h.same i hi).up) (fun i hi => (h.same i hi).upFrom) he h3
  refine ⟨{ v' with up := q'.1, upFrom := q'.2 }, by simp only [VW.relaxUp, h1, k1, Option.bind_eq_bind, Option.bind_some, Option.pure_def], ?_, ?_, ?_⟩
  · exact fun i hi => ⟨k2 i hi, (h.same i hi).down, k3 i hi, (h.same i hi).downFrom⟩
  · intro i hi
    have hie : i ≠ e := by rintro rfl; exact hi ht
    obtain ⟨l1, l2, l3, l4⟩ := k4 i hie
    exact (h.fr i hi).trans ⟨l1, rfl, l2, rfl⟩
  · intro i hi
    have hie : i ≠ e := by rintro rfl; exact hi ht
    obtain ⟨l1, l2, l3, l4⟩ := k4 i hie
    exact (h.fr' i hi).trans ⟨l3, rfl, l4, rfl⟩

theorem relaxDown_alike {P : Nat → Prop} {x : Nat} {v0 v0' v v' r : VW} (h : Alike c P x v0 v0' v v') {e a b va vb : Nat} (he : P e)
    (ht : c.tail[e]? = some x) (hr : v.relaxDown e a b va vb = some r) : ∃ r', v'.relaxDown e a b va vb = some r' ∧ Alike c P x v0 v0' r r' := by
  simp only [VW.relaxDown, Option.bind_eq_bind] at hr
  obtain ⟨s, h1, h2⟩ := Option.bind_eq_some_iff.1 hr
  obtain ⟨q, h3, h4⟩ := Option.bind_eq_some_iff.1 h2
  simp only [Option.pure_def, Option.some.injEq] at h4
  subst h4
  obtain ⟨q', k1, k2, k3, k4⟩ := relaxFrom_alike (fun i hi => (h.same i hi).down) (fun i hi => (h.same i hi).downFrom) he h3
  refine ⟨{ v' with down := q'.1, downFrom := q'.2 }, by simp only [VW.relaxDown, h1, k1, Option.bind_eq_bind, Option.bind_some, Option.pure_def], ?_, ?_, ?_⟩
  · exact fun i hi => ⟨(h.same i hi).up, k2 i hi, (h.same i hi).upFrom, k3 i hi⟩
  · intro i hi
    have hie : i ≠ e := by rintro rfl; exact hi ht
    obtain ⟨l1, l2, l3, l4⟩ := k4 i hie
    exact (h.fr i hi).trans ⟨rfl, l1, rfl, l2⟩
  · intro i hi
    have hie : i ≠ e := by rintro rfl; exact hi ht
    obtain ⟨l1, l2, l3, l4⟩ := k4 i hie
    exact (h.fr' i hi).trans ⟨rfl, l3, rfl, l4⟩

theorem validTriangle_alike {P : Nat → Prop} {x : Nat} {v0 v0' v v' r : VW} (h : Alike c P x v0 v0' v v') {e s o : Nat} (he : P e) (hs : P s) (ho : P o)
    (te : c.tail[e]? = some x) (to' : c.tail[o]? = some x) (hr : validTriangle e s o v = some r) :
    ∃ r', validTriangle e s o v' = some r' ∧ Alike c P x v0 v0' r r' := by
  simp only [validTriangle, Option.bind_eq_bind] at hr
  obtain ⟨a1, g1, hr⟩ := Option.bind_eq_some_iff.1 hr
  obtain ⟨b1, g2, hr⟩ := Option.bind_eq_some_iff.1 hr
  obtain ⟨a1', g1', hr⟩ := Option.bind_eq_some_iff.1 hr
  obtain ⟨b1', g2', hr⟩ := Option.bind_eq_some_iff.1 hr
  obtain ⟨p1, g3, hr⟩ := Option.bind_eq_some_iff.1 hr
  obtain ⟨a2, g4, hr⟩ := Option.bind_eq_some_iff.1 hr
  obtain ⟨b2, g5, hr⟩ := Option.bind_eq_some_iff.1 hr
  obtain ⟨a2', g4', hr⟩ := Option.bind_eq_some_iff.1 hr
  obtain ⟨b2', g5', hr⟩ := Option.bind_eq_some_iff.1 hr
  obtain ⟨p2, g6, hr⟩ := Option.bind_eq_some_iff.1 hr
  obtain ⟨a3, g7, hr⟩ := Option.bind_eq_some_iff.1 hr
  obtain ⟨b3, g8, hr⟩ := Option.bind_eq_some_iff.1 hr
  obtain ⟨a3', g7', hr⟩ := Option.bind_eq_some_iff.1 hr
  obtain ⟨b3', g8', hr⟩ := Option.bind_eq_some_iff.1 hr
  obtain ⟨p3, g9, hr⟩ := Option.bind_eq_some_iff.1 hr
  obtain ⟨a4, g10, hr⟩ := Option.bind_eq_some_iff.1 hr
  obtain ⟨b4, g11, hr⟩ := Option.bind_eq_some_iff.1 hr
  obtain ⟨a4', g10', hr⟩ := Option.bind_eq_some_iff.1 hr
  obtain ⟨b4', g11', hr⟩ := Option.bind_eq_some_iff.1 hr
  obtain ⟨q1, m1, r1⟩ := relaxUp_alike h ho to' g3
  obtain ⟨q2, m2, r2⟩ := relaxUp_alike r1 he te g6
  obtain ⟨q3, m3, r3⟩ := relaxDown_alike r2 ho to' g9
  obtain ⟨q4, m4, r4⟩ := relaxDown_alike r3 he te hr
  refine ⟨q4, ?_, r4⟩
  simp only [validTriangle, ← (h.same e he).up, ← (h.same s hs).up, ← (h.same e he).upFrom, ← (h.same s hs).upFrom, g1, g2, g1', g2', m1,
    ← (r1.same o ho).up, ← (r1.same s hs).down, ← (r1.same o ho).upFrom, ← (r1.same s hs).downFrom, g4, g5, g4', g5', m2,
    ← (r2.same e he).down, ← (r2.same s hs).down, ← (r2.same e he).downFrom, ← (r2.same s hs).downFrom, g7, g8, g7', g8', m3,
    ← (r3.same o ho).down, ← (r3.same s hs).up, ← (r3.same o ho).downFrom, ← (r3.same s hs).upFrom, g10, g11, g10', g11', Option.bind_eq_bind, Option.bind_some]
  exact m4

/-- The edges that the step for `x` reads. -/
def Reads (c : Cch) (x e : Nat) : Prop := c.tail[e]? = some x ∨ ∃ y e', c.Edge e' x y ∧ c.tail[e]? = some y

theorem validNode_alike (hg : Base n c) {x : Nat} (hx : x < n) {v v' r : VW} (h : ∀ e, Reads c x e → Same4 v v' e) {ws' : List (Option Nat)}
    (hr : validNode c x (List.replicate n none) v = some (r, ws')) :
    ∃ r', validNode c x (List.replicate n none) v' = some (r', ws') ∧ Alike c (Reads c x) x v v' r r' := by
  obtain ⟨es, e1, _, e3⟩ := edgesOf_spec hg hx
  obtain ⟨ws, w1, w2, w3⟩ := loadWs_spec hg e3 (ws := List.replicate n none) rfl
  have w4 := clearWs_spec hg e3 w2 w3
  simp only [validNode, e1, w1, Option.bind_eq_bind, Option.bind_some] at hr
  obtain ⟨q, h1, h2⟩ := Option.bind_eq_some_iff.1 hr
  simp only [w4, Option.bind_some, Option.pure_def, Option.some.injEq, Prod.mk.injEq] at h2
  obtain ⟨rfl, rfl⟩ := h2
  obtain ⟨r', h3, h4⟩ := foldlM_sim (R := fun (b a : VW) => Alike c (Reads c x) x v v' a b)
    (g := fun (p : VW) (l : Nat × Nat) => (edgesOf c l.1).bind fun es => es.foldlM (validEdge ws l.2) p) es (by
    rintro ⟨y, e⟩ hl p q p' hR hf
    have he : c.Edge e x y := (e3 y e).1 hl
    obtain ⟨fs, f1, _, f3⟩ := edgesOf_spec hg (hg.up he).2
    simp only [f1, Option.bind_some] at hf ⊢
    refine foldlM_sim (R := fun (b a : VW) => Alike c (Reads c x) x v v' a b) fs ?_ hR hf
    rintro ⟨z, s⟩ hm p q p' hR hf
    have hs : c.Edge s y z := (f3 z s).1 hm
    obtain ⟨o, k1, k2⟩ := w3 z (hg.up hs).2
    cases o with
    | none =>
      simp only [validEdge, k1, Option.bind_eq_bind, Option.bind_some, Option.pure_def, Option.some.injEq] at hf
      subst hf
      exact ⟨q, by simp [validEdge, k1], hR⟩
    | some o =>
      simp only [validEdge, k1, Option.bind_eq_bind, Option.bind_some] at hf
      have ho := (k2 o).1 rfl
      obtain ⟨r', l1, l2⟩ := validTriangle_alike hR (.inl he.1) (.inr ⟨y, e, he, hs.1⟩) (.inl ho.1) he.1 ho.1 hf
      exact ⟨r', by simp only [validEdge, k1, Option.bind_eq_bind, Option.bind_some]; exact l1, l2⟩)
    (v := v') ⟨h, fun e _ => Same4.refl _ e, fun e _ => Same4.refl _ e⟩ h1
  exact ⟨r', by simp only [validNode, e1, w1, Option.bind_eq_bind, Option.bind_some, h3, w4, Option.pure_def], h4⟩

/-- A run over the nodes `L`. -/
def VRun (c : Cch) (n : Nat) (L : List Nat) (v v' : VW) : Prop :=
  L.foldlM (fun (st : VW × List (Option Nat)) x => validNode c x st.2 st.1) (v, List.replicate n none) = some (v', List.replicate n none)

/-- A state that matches one of plain perfect customization. -/
def VFine (c : Cch) (p v : VW) : Prop := ∃ q, VSim c p v q ∧ POK c q

theorem validNode_fine (hg : Base n c) {p v : VW} (h : VFine c p v) {x : Nat} (hx : x < n) :
    ∃ v', validNode c x (List.replicate n none) v = some (v', List.replicate n none) ∧ VFine c p v' ∧ ∀ e, c.tail[e]? ≠ some x → Same4 v v' e := by
  obtain ⟨q, h1, h2⟩ := h
  obtain ⟨q1, a1, a2, _⟩ := perfNode_spec hg h2 hx
  obtain ⟨v1, b1, b2⟩ := validNode_sim hg h1 hx a1
  obtain ⟨_, _, c2⟩ := validNode_alike hg hx (v' := v) (fun e _ => Same4.refl v e) b1
  exact ⟨v1, b1, ⟨q1, b2, a2.ok⟩, c2.fr⟩

theorem vrun_ex (hg : Base n c) {p : VW} (L : List Nat) : ∀ {v : VW}, VFine c p v → (∀ x ∈ L, x < n) →
    ∃ v', VRun c n L v v' ∧ VFine c p v' ∧ ∀ e, (∀ x ∈ L, c.tail[e]? ≠ some x) → Same4 v v' e := by
  induction L with
  | nil => intro v h _; exact ⟨v, rfl, h, fun e _ => Same4.refl v e⟩
  | cons x L ih =>
    intro v h hL
    obtain ⟨v1, a1, a2, a3⟩ := validNode_fine hg h (hL x (by simp))
    obtain ⟨v2, b1, b2, b3⟩ := ih a2 (fun y hy => hL y (by simp [hy]))
    refine ⟨v2, ?_, b2, fun e he => (a3 e (he x (by simp))).trans (b3 e (fun y hy => he y (by simp [hy])))⟩
    unfold VRun at b1 ⊢
    rw [List.foldlM_cons]
    simp only [a1, Option.bind_eq_bind, Option.bind_some]
    exact b1

/-- What a run from the top does at the node `x`. -/
theorem vrun_at (hg : Base n c) {p r : VW} (hp : VFine c p p) {L : List Nat} (hL : TopDown n c L) (hr : VRun c n L p r) {x : Nat} (hx : x < n) :
    ∃ s t, validNode c x (List.replicate n none) s = some (t, List.replicate n none) ∧
      (∀ e, c.tail[e]? = some x → Same4 p s e ∧ Same4 t r e) ∧
      (∀ y e' e, c.Edge e' x y → c.tail[e]? = some y → Same4 s r e) := by
  obtain ⟨P, Q, hE⟩ := List.append_of_mem ((hL.mem x).2 hx)
  have hlt : ∀ y ∈ P ++ x :: Q, y < n := by rw [← hE]; exact fun y hy => (hL.mem y).1 hy
  obtain ⟨s, a1, a2, a3⟩ := vrun_ex hg P hp (fun y hy => hlt y (by simp [hy]))
  obtain ⟨t, b1, b2, b3⟩ := validNode_fine hg a2 hx
  obtain ⟨r', c1, c2, c3⟩ := vrun_ex hg Q b2 (fun y hy => hlt y (by simp [hy]))
  have hrr : r' = r := by
    have : VRun c n L p r' := by
      unfold VRun at a1 c1 ⊢
      rw [hE, List.foldlM_append]
      simp only [a1, Option.bind_eq_bind, Option.bind_some, List.foldlM_cons, b1]
      exact c1
    unfold VRun at this hr
    rw [this] at hr
    simpa using hr
  subst hrr
  have hnd := hL.nodup
  rw [hE] at hnd
  have hnd' := List.nodup_append.1 hnd
  have hxP : x ∉ P := fun h => hnd'.2.2 x h x (by simp) rfl
  have hxQ : x ∉ Q := (List.nodup_cons.1 hnd'.2.1).1
  refine ⟨s, t, b1, ?_, ?_⟩
  · intro e he
    exact ⟨a3 e (fun y hy h => by rw [he] at h; injection h with h; subst h; exact hxP hy),
      c3 e (fun y hy h => by rw [he] at h; injection h with h; subst h; exact hxQ hy)⟩
  · intro y e' e he' he
    have hyP : y ∈ P := hL.before P x Q hE e' y he'
    have hxy := (hg.up he').1
    refine (b3 e (by rw [he]; simp; omega)).trans (c3 e ?_)
    intro z hz h
    rw [he] at h; injection h with h; subst h
    exact hnd'.2.2 _ hyP y (by simp [hz]) rfl

/-- The order does not matter. -/
theorem vrun_same (hg : Base n c) {p r r' : VW} (hp : VFine c p p) {L L' : List Nat} (hL : TopDown n c L) (hL' : TopDown n c L')
    (hr : VRun c n L p r) (hr' : VRun c n L' p r') : ∀ k x e, n ≤ x + k → c.tail[e]? = some x → x < n → Same4 r r' e := by
  intro k
  induction k with
  | zero => intro x e h1 _ h2; omega
  | succ k ih =>
    intro x e h1 he hx
    obtain ⟨s, t, a1, a2, a3⟩ := vrun_at hg hp hL hr hx
    obtain ⟨s', t', b1, b2, b3⟩ := vrun_at hg hp hL' hr' hx
    obtain ⟨t'', c1, c2⟩ := validNode_alike hg hx (v' := s') (by
      rintro i (hi | ⟨y, e', h3, h4⟩)
      · exact (a2 i hi).1.symm.trans (b2 i hi).1
      · have := hg.up h3
        exact ((a3 y e' i h3 h4).trans (ih y i (by omega) h4 this.2)).trans (b3 y e' i h3 h4).symm) a1
    rw [b1] at c1
    simp only [Option.some.injEq, Prod.mk.injEq, and_true] at c1
    subst c1
    exact ((a2 e he).2.symm.trans (c2.same e (.inl he))).trans (b2 e he).2

theorem withValidity_same (hg : Base n c) (htl : c.tail.length = c.head.length) (hlt : ∀ (e x : Nat), c.tail[e]? = some x → x < n) {p : VW} (hp : VOK c p) {L L' : List Nat} (hL : TopDown n c L) (hL' : TopDown n c L') :
    withValidity c L p = withValidity c L' p := by
  have hf : VFine c p p := ⟨_, VSim.init hp, hp.start⟩
  obtain ⟨r, a1, ⟨q, a2, a3⟩, _⟩ := vrun_ex hg L hf (fun x hx => (hL.mem x).1 hx)
  obtain ⟨r', b1, ⟨q', b2, b3⟩, _⟩ := vrun_ex hg L' hf (fun x hx => (hL'.mem x).1 hx)
  have key := vrun_same hg hf hL hL' a1 b1
  have all : ∀ e, Same4 r r' e := by
    intro e
    by_cases he : e < c.head.length
    · have ht : c.tail[e]? = some (c.tail[e]'(by omega)) := List.getElem?_eq_getElem _
      exact key n _ e (by omega) ht (hlt _ _ ht)
    · have l1 : r.up.length = c.head.length := by rw [a2.up, a3.ul]
      have l2 : r.down.length = c.head.length := by rw [a2.down, a3.dl]
      have l3 : r'.up.length = c.head.length := by rw [b2.up, b3.ul]
      have l4 : r'.down.length = c.head.length := by rw [b2.down, b3.dl]
      have l5 := a2.ul; have l6 := a2.dl; have l7 := b2.ul; have l8 := b2.dl
      refine ⟨?_, ?_, ?_, ?_⟩ <;> rw [List.getElem?_eq_none (by omega), List.getElem?_eq_none (by omega)]
  have hrr : r = r' := by
    have e1 : r.up = r'.up := List.ext_getElem? fun e => (all e).up
    have e2 : r.down = r'.down := List.ext_getElem? fun e => (all e).down
    have e3 : r.upFrom = r'.upFrom := List.ext_getElem? fun e => (all e).upFrom
    have e4 : r.downFrom = r'.downFrom := List.ext_getElem? fun e => (all e).downFrom
    cases r; cases r'; simp_all
  subst hrr
  unfold VRun at a1 b1
  simp only [withValidity, hg.nn, show c.numNodes = n from hg.nn, a1, b1]

end CCH
end Verif
