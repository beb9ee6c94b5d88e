import Verif.Proof.Directed
set_option linter.unusedSimpArgs false
set_option linter.unusedVariables false
/- A CCH with some edges left out: which customized weights it gets, and queries on it. -/
namespace Verif
namespace CCH
open Spec GraphOps FOGraph
variable {n : Nat} {c F B : Cch}

/-- `F` has the upward and `B` the downward edges of `c`, with other ids, without some that are infinite under `w`. The initial weights agree. -/
structure Red (n : Nat) (c F B : Cch) (um dm : Nat → Nat) (w0 w w0' w' : Weights) : Prop where
  base : Base n c
  ok : WOK c w0
  solved : Solved c w0 w (fun x => x < n)
  bF : Base n F
  bB : Base n B
  dok : DWOK F B w'
  dsolved : DSolved F B w0' w' (fun x => x < n)
  fe : ∀ {j x y}, F.Edge j x y → c.Edge (um j) x y
  be : ∀ {j x y}, B.Edge j x y → c.Edge (dm j) x y
  fk : ∀ {e x y}, c.Edge e x y → w.u e < INFINITY → ∃ j, F.Edge j x y ∧ um j = e
  bk : ∀ {e x y}, c.Edge e x y → w.d e < INFINITY → ∃ j, B.Edge j x y ∧ dm j = e
  iu : ∀ {j x y}, F.Edge j x y → w0'.u j = w0.u (um j)
  id : ∀ {j x y}, B.Edge j x y → w0'.d j = w0.d (dm j)

/-- one edge -/
theorem IsBest.red {i : Nat} (hi : i ≤ INFINITY) {T T' : Nat → Nat → Nat → Nat → Prop} {dm um : Nat → Nat} {r r' : Nat × Option Nat × Option Nat}
    (hfun : ∀ z t a b t' a' b', T z t a b → T z t' a' b' → t = t' ∧ a = a' ∧ b = b')
    (h1 : ∀ z t a b, T z t a b → t < INFINITY → ∃ a' b', T' z t a' b')
    (h2 : ∀ z t a b, T' z t a b → T z t (dm a) (um b)) (h : IsBest i T r) (h' : IsBest i T' r') : r = (r'.1, mp dm um r'.2) := by
  refine h.unique hfun ⟨h'.le_init, ?_, ?_⟩
  · intro z t a b ht
    by_cases hlt : t < INFINITY
    · obtain ⟨a', b', ht'⟩ := h1 z t a b ht hlt
      exact h'.le_tri _ _ _ _ ht'
    · have := h'.le_init; simp only; omega
  · rcases h'.wit with he | ⟨z, t, a, b, k1, k2, k3, k4⟩
    · left; rw [he]; rfl
    · refine .inr ⟨z, t, dm a, um b, h2 _ _ _ _ k1, by rw [k2]; rfl, k3, ?_⟩
      intro z' t' a' b' ht' hz'
      by_cases hlt : t' < INFINITY
      · obtain ⟨a'', b'', ht''⟩ := h1 z' t' a' b' ht' hlt
        exact k4 _ _ _ _ ht'' hz'
      · omega

theorem Red.values {um dm : Nat → Nat} {w0 w w0' w' : Weights} (h : Red n c F B um dm w0 w w0' w') : ∀ x j y,
    (F.Edge j x y → w'.u j = w.u (um j) ∧ w.uu (um j) = mp dm um (w'.uu j)) ∧
    (B.Edge j x y → w'.d j = w.d (dm j) ∧ w.du (dm j) = mp dm um (w'.du j)) := by
  intro x
  induction x using Nat.strongRecOn with
  | ind x ih =>
    intro j y
    have hfun : ∀ y y' z t a b t' a' b', Tri c w y y' z t a b → Tri c w y y' z t' a' b' → t = t' ∧ a = a' ∧ b = b' := by
      rintro y y' z t a b t' a' b' ⟨h1, h2, h3⟩ ⟨h4, h5, h6⟩
      have := h.base.unique h1 h4; have := h.base.unique h2 h5
      subst_vars; exact ⟨rfl, rfl, rfl⟩
    have k1 : ∀ y y', (y = x ∨ y' = x) → ∀ z t a b, Tri c w y y' z t a b → t < INFINITY → ∃ a' b', DTri F B w' y y' z t a' b' := by
      rintro y y' hy z t a b ⟨t1, t2, rfl⟩ hlt
      have hz : z < x := by
        rcases hy with rfl | rfl
        · exact (h.base.up t1).1
        · exact (h.base.up t2).1
      obtain ⟨a', a1, rfl⟩ := h.bk t1 (by omega)
      obtain ⟨b', b1, rfl⟩ := h.fk t2 (by omega)
      refine ⟨a', b', a1, b1, ?_⟩
      rw [((ih z hz a' y).2 a1).1, ((ih z hz b' y').1 b1).1]
    have k2 : ∀ y y', (y = x ∨ y' = x) → ∀ z t a b, DTri F B w' y y' z t a b → Tri c w y y' z t (dm a) (um b) := by
      rintro y y' hy z t a b ⟨t1, t2, rfl⟩
      have hz : z < x := by
        rcases hy with rfl | rfl
        · exact (h.bB.up t1).1
        · exact (h.bF.up t2).1
      refine ⟨h.be t1, h.fe t2, ?_⟩
      rw [((ih z hz a y).2 t1).1, ((ih z hz b y').1 t2).1]
    constructor
    · intro he
      have e1 := IsBest.red (h.ok.ub _ (Edge.lt (h.fe he))) (hfun x y) (k1 x y (.inl rfl)) (k2 x y (.inl rfl))
        (h.solved.bestUp x _ y (h.bF.edge_lt he) (h.fe he)) ((h.dsolved.bestUp x j y (h.bF.edge_lt he) he).init_congr (h.iu he))
      simp only [Prod.mk.injEq] at e1; exact ⟨e1.1.symm, e1.2⟩
    · intro he
      have e1 := IsBest.red (h.ok.db _ (Edge.lt (h.be he))) (hfun y x) (k1 y x (.inr rfl)) (k2 y x (.inr rfl))
        (h.solved.bestDown x _ y (h.bB.edge_lt he) (h.be he)) ((h.dsolved.bestDown x j y (h.bB.edge_lt he) he).init_congr (h.id he))
      simp only [Prod.mk.injEq] at e1; exact ⟨e1.1.symm, e1.2⟩

/-! ### Queries -/

theorem arr_E (hg : Base n c) {ws : List Nat} (hl : ws.length = c.head.length) {e x y l : Nat} :
    (FOGraph.mk c.firstOut c.head ws).E e x y l ↔ c.Edge e x y ∧ l = at0 ws e := by
  constructor
  · rintro ⟨a, b, h1, h2, h3, h4, h5, h6⟩
    have he : c.Edge e x y := ⟨(hg.range e x).2 ⟨a, b, h1, h2, h3, h4⟩, h5⟩
    have h6' : ws[e]? = some l := h6
    rw [at0_get (by rw [hl]; exact Edge.lt he)] at h6'
    simp at h6'; exact ⟨he, h6'.symm⟩
  · rintro ⟨he, rfl⟩
    obtain ⟨a, b, h1, h2, h3, h4⟩ := (hg.range e x).1 he.1
    exact ⟨a, b, h1, h2, h3, h4, he.2, at0_get (by rw [hl]; exact Edge.lt he)⟩

theorem arr_wf (hg : Base n c) {ws : List Nat} (hl : ws.length = c.head.length) : (FOGraph.mk c.firstOut c.head ws).WF :=
  ⟨hg.wf.small, hg.wf.first, hg.wf.last, hl, hg.wf.mono, hg.wf.heads⟩

section
variable {um dm : Nat → Nat} {w0 w w0' w' : Weights} {O : Nat → Nat → Nat → Prop}

theorem Red.thinF (h : Red n c F B um dm w0 w w0' w') (hw : WOK c w) :
    Thin INFINITY (fwGraph c w) ⟨F.firstOut, F.head, w'.up⟩ (CArc c w) um := by
  refine ⟨fwGraph_wf h.base hw, arr_wf h.bF h.dok.ul, ?_, ?_, ?_, ?_⟩
  · have h1 : F.topo.numNodes = n := h.bF.nn
    have h2 : c.topo.numNodes = n := h.base.nn
    exact h1.trans h2.symm
  · intro e y x l he
    obtain ⟨k1, rfl⟩ := (arr_E h.bF h.dok.ul).1 he
    exact (fw_E h.base hw).2 ⟨h.fe k1, ((h.values y e x).1 k1).1⟩
  · intro y x l ha hlt _
    obtain ⟨e, he, rfl⟩ := (fwGraph_arc h.base hw).1 ha
    obtain ⟨j, k1, rfl⟩ := h.fk he hlt
    refine (edgeAt_arc (arr_wf h.bF h.dok.ul)).2 ⟨j, (arr_E h.bF h.dok.ul).2 ⟨k1, ((h.values y j x).1 k1).1.symm⟩⟩
  · intro y x l ha
    obtain ⟨e, he, rfl⟩ := (fwGraph_arc h.base hw).1 ha
    exact .inl ⟨e, he, rfl⟩

theorem Red.thinB (h : Red n c F B um dm w0 w w0' w') (hw : WOK c w) :
    Thin INFINITY (bwGraph c w) ⟨B.firstOut, B.head, w'.down⟩ (Rev (CArc c w)) dm := by
  refine ⟨bwGraph_wf h.base hw, arr_wf h.bB h.dok.dl, ?_, ?_, ?_, ?_⟩
  · have h1 : B.topo.numNodes = n := h.bB.nn
    have h2 : c.topo.numNodes = n := h.base.nn
    exact h1.trans h2.symm
  · intro e y x l he
    obtain ⟨k1, rfl⟩ := (arr_E h.bB h.dok.dl).1 he
    exact (bw_E h.base hw).2 ⟨h.be k1, ((h.values y e x).2 k1).1⟩
  · intro y x l ha hlt _
    obtain ⟨e, he, rfl⟩ := (bwGraph_arc h.base hw).1 ha
    obtain ⟨j, k1, rfl⟩ := h.bk he hlt
    refine (edgeAt_arc (arr_wf h.bB h.dok.dl)).2 ⟨j, (arr_E h.bB h.dok.dl).2 ⟨k1, ((h.values y j x).2 k1).1.symm⟩⟩
  · intro y x l ha
    obtain ⟨e, he, rfl⟩ := (bwGraph_arc h.base hw).1 ha
    exact .inr ⟨e, he, rfl⟩

theorem DWOK.uu_get (h : DWOK F B w) {e : Nat} (he : e < F.head.length) : w.upUnpack[e]? = some (w.uu e) := by
  have : e < w.upUnpack.length := by rw [h.uul]; exact he
  simp [Weights.uu, List.getElem?_eq_getElem this]
theorem DWOK.du_get (h : DWOK F B w) {e : Nat} (he : e < B.head.length) : w.downUnpack[e]? = some (w.du e) := by
  have : e < w.downUnpack.length := by rw [h.dul]; exact he
  simp [Weights.du, List.getElem?_eq_getElem this]

/-- `e` leads from `x` to `y` in the directed CCH; `um`, `dm` give its old id. -/
def DHop (F B : Cch) (um dm : Nat → Nat) (x y j e : Nat) : Prop := (F.Edge j x y ∧ um j = e) ∨ (B.Edge j y x ∧ dm j = e)

theorem Red.hop (h : Red n c F B um dm w0 w w0' w') {x y j e : Nat} (hj : DHop F B um dm x y j e) (hw : WOK c w) :
    ∃ u, (hopArr w' x y)[j]? = some u ∧ (hopArr w x y)[e]? = some (mp dm um u) ∧
      (u = (none, none) ∨ ∃ a b z, u = (some a, some b) ∧ B.Edge a z x ∧ F.Edge b z y) := by
  have fin : ∀ {i : Nat} {r : Nat × Option Nat × Option Nat}, IsBest i (DTri F B w' x y) r →
      r.2 = (none, none) ∨ ∃ a b z, r.2 = (some a, some b) ∧ B.Edge a z x ∧ F.Edge b z y := by
    intro i r hr
    rcases hr.wit with rfl | ⟨z, t, a, b, ⟨k1, k2, _⟩, rfl, _⟩
    · exact .inl rfl
    · exact .inr ⟨a, b, z, rfl, k1, k2⟩
  rcases hj with ⟨he, rfl⟩ | ⟨he, rfl⟩
  · have hlt := (h.bF.up he).1
    refine ⟨w'.uu j, ?_, ?_, fin (h.dsolved.bestUp x j y (h.bF.edge_lt he) he)⟩
    · simp only [hopArr, hlt, if_true]; exact h.dok.uu_get (Edge.lt he)
    · simp only [hopArr, hlt, if_true]; rw [hw.uu_get (Edge.lt (h.fe he)), ((h.values x j y).1 he).2]
  · have hlt := (h.bB.up he).1
    have hnl : ¬ x < y := by omega
    refine ⟨w'.du j, ?_, ?_, fin (h.dsolved.bestDown y j x (h.bB.edge_lt he) he)⟩
    · simp only [hopArr, hnl, if_false]; exact h.dok.du_get (Edge.lt he)
    · simp only [hopArr, hnl, if_false]; rw [hw.du_get (Edge.lt (h.be he)), ((h.values y j x).2 he).2]

theorem Red.unp (h : Red n c F B um dm w0 w w0' w') (hw : WOK c w) {x y e : Nat} {L : List Nat} (hu : Unp c.tail w x y e L) :
    ∀ j, DHop F B um dm x y j e → Unp B.tail w' x y j L := by
  induction hu with
  | @leaf x y e h1 =>
    intro j hj
    obtain ⟨u, k1, k2, k3⟩ := h.hop hj hw
    rw [h1] at k2; simp at k2
    rcases k3 with rfl | ⟨a, b, z, rfl, _⟩
    · exact .leaf k1
    · simp [mp] at k2
  | @node x y e a b z L1 L2 h1 h2 h3 h4 _ _ ih1 ih2 =>
    intro j hj
    obtain ⟨u, k1, k2, k3⟩ := h.hop hj hw
    rw [h1] at k2; simp at k2
    rcases k3 with rfl | ⟨a', b', z', rfl, k4, k5⟩
    · simp [mp] at k2
    · simp [mp] at k2
      obtain ⟨rfl, rfl⟩ := k2
      have hz : z' = z := by
        have := (h.be k4).1
        rw [h2] at this; simpa using this.symm
      subst hz
      exact .node k1 k4.1 h3 h4 (ih1 a' (.inr ⟨k4, rfl⟩)) (ih2 b' (.inl ⟨k5, rfl⟩))

/-- Queries on the smaller CCH are exact. -/
theorem Red.serves (h : Red n c F B um dm w0 w w0' w') (hc : Customized n c O w0 w) :
    Serves n O ⟨F.firstOut, F.head, w'.up⟩ ⟨B.firstOut, B.head, w'.down⟩ c.elimTree B.tail w' := by
  refine hc.thin_serves (h.thinF hc.ok) (h.thinB hc.ok) ?_ ?_
  · intro e y x l L he _ hu
    exact h.unp hc.ok hu e (.inl ⟨((arr_E h.bF h.dok.ul).1 he).1, rfl⟩)
  · intro e y x l L he _ hu
    exact h.unp hc.ok hu e (.inr ⟨((arr_E h.bB h.dok.dl).1 he).1, rfl⟩)

end

/-! ### Edges that are infinite under the zero metric are infinite under every metric -/

theorem Solved.zero (hg : Base n c) {w0 w z0 z : Weights} (h : Solved c w0 w (fun x => x < n)) (hz : Solved c z0 z (fun x => x < n))
    (hu : ∀ {e x y}, c.Edge e x y → w0.u e < INFINITY → z0.u e = 0) (hd : ∀ {e x y}, c.Edge e x y → w0.d e < INFINITY → z0.d e = 0) :
    ∀ x e y, c.Edge e x y → (w.u e < INFINITY → z.u e = 0) ∧ (w.d e < INFINITY → z.d e = 0) := by
  intro x
  induction x using Nat.strongRecOn with
  | ind x ih =>
    intro e y he
    have hx := hg.edge_lt he
    have key : ∀ a b (i j : Nat) (r r' : Nat × Option Nat × Option Nat), (a = x ∨ b = x) → (i < INFINITY → j = 0) → IsBest i (Tri c w a b) r → IsBest j (Tri c z a b) r' →
        r.1 < INFINITY → r'.1 = 0 := by
      intro a b i j r r' hab hij h1 h2 hlt
      rcases h1.wit with rfl | ⟨q, t, e1, e2, ⟨t1, t2, rfl⟩, rfl, _⟩
      · have := h2.le_init; have := hij hlt; omega
      · simp only at hlt
        have hq : q < x := by
          rcases hab with rfl | rfl
          · exact (hg.up t1).1
          · exact (hg.up t2).1
        have := h2.le_tri q _ e1 e2 ⟨t1, t2, rfl⟩
        have := (ih q hq e1 a t1).2 (by omega)
        have := (ih q hq e2 b t2).1 (by omega)
        omega
    refine ⟨fun hlt => ?_, fun hlt => ?_⟩
    · exact key x y _ _ _ _ (.inl rfl) (hu he) (h.bestUp x e y hx he) (hz.bestUp x e y hx he) hlt
    · exact key y x _ _ _ _ (.inr rfl) (hd he) (h.bestDown x e y hx he) (hz.bestDown x e y hx he) hlt

end CCH
end Verif
