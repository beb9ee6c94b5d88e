import Verif.Proof.Rebuild
import Verif.Spec.Hierarchy
set_option linter.unusedSimpArgs false
set_option linter.unusedVariables false
/- Queries on the graphs without the edges that perfect customization has improved. -/
namespace Verif
namespace CCH
open Spec
variable {n : Nat} {c : Cch}

/-! ### Graphs with fewer arcs -/

/-- `g'` has some arcs of `g`, with other ids, among them those shorter than `K` that are shortest walks of `A`. -/
structure Thin (K : Nat) (g g' : FOGraph) (A : Nat → Nat → Nat → Prop) (unm : Nat → Nat) : Prop where
  wf : g.WF
  wf' : g'.WF
  nn : g'.numNodes = g.numNodes
  sub : ∀ {e y x w}, g'.E e y x w → g.E (unm e) y x w
  keep : ∀ {y x w}, g.Arc y x w → w < K → (∀ d, Walk A y x d → w ≤ d) → g'.Arc y x w
  arc : ∀ {y x w}, g.Arc y x w → A y x w

section
variable {K : Nat} {g g' : FOGraph} {A : Nat → Nat → Nat → Prop} {unm : Nat → Nat}

theorem Thin.subArc (h : Thin K g g' A unm) {y x w : Nat} (ha : g'.Arc y x w) : g.Arc y x w := by
  obtain ⟨e, he⟩ := (edgeAt_arc h.wf').1 ha
  exact (edgeAt_arc h.wf).2 ⟨_, h.sub he⟩

theorem Thin.walk (h : Thin K g g' A unm) {s x a : Nat} (hu : UpWalk g.Arc s x a) : Walk A s x a := by
  induction hu with
  | nil u => exact .nil u
  | cons h1 _ _ ih => exact .cons (h.arc h1) ih

/-- Shortest upward walks stay. -/
theorem Thin.keepUp (h : Thin K g g' A unm) {s x a : Nat} (hu : UpWalk g.Arc s x a) :
    a < K → (∀ d, Walk A s x d → a ≤ d) → UpWalk g'.Arc s x a := by
  induction hu with
  | nil u => intro _ _; exact .nil u
  | @cons u v t w d h1 h2 h3 ih =>
    intro hK hmin
    refine .cons (h.keep h1 (by omega) ?_) h2 (ih (by omega) ?_)
    · intro d' hd'
      have := hmin _ (hd'.append (h.walk h3)); omega
    · intro d' hd'
      have := hmin _ (.cons (h.arc h1) hd'); omega

theorem Thin.head_lt (h : Thin K g g' A unm) {e y x w : Nat} (he : g'.E e y x w) : x < g.numNodes := by
  rw [← h.nn]
  obtain ⟨_, _, _, _, _, _, hh, _⟩ := he
  exact h.wf'.heads x (List.mem_of_getElem? hh)

theorem Thin.chain (h : Thin K g g' A unm) {s x d : Nat} {P P' : Nat → Nat × Nat}
    (hP : ∀ x, x < g.numNodes → P x = ((P' x).1, unm (P' x).2)) (hch : Chain Strict g' s P' x d) :
    d < K → (∀ d', Walk A s x d' → d ≤ d') → Chain Strict g s P x d ∧ Walk A s x d := by
  induction hch with
  | nil => intro _ _; exact ⟨.nil, .nil s⟩
  | @snoc y x e w d h1 h2 h3 h4 ih =>
    intro hK hmin
    have hE := h.sub h3
    have hA : A y x w := h.arc ((edgeAt_arc h.wf).2 ⟨_, hE⟩)
    obtain ⟨k1, k2⟩ := ih (by omega) (fun d' hd' => by have := hmin _ (hd'.snoc' hA); omega)
    refine ⟨.snoc k1 (by rw [hP x (h.head_lt h3), h2]) hE ?_, k2.snoc' hA⟩
    intro y' w' a' hy' harc hup
    have hle := hmin _ ((h.walk hup).snoc' (h.arc harc))
    simp only [Strict]
    by_contra hc
    have heq : a' + w' = d + w := by omega
    have u1 := h.keepUp hup (by omega) (fun d' hd' => by have := hmin _ (hd'.snoc' (h.arc harc)); omega)
    have u2 := h.keep harc (by omega) (fun d' hd' => by have := hmin _ ((h.walk hup).append hd'); omega)
    have := h4 y' w' a' hy' u2 u1
    simp only [Strict] at this
    omega

/-- The chain of unpacked pointers, with the new ids. -/
theorem chainI_thin (h : Thin K g g' A unm) {R R' : Nat → Nat → Nat → List Nat → Prop}
    (hR : ∀ e y x w I, g'.E e y x w → w < K → R (unm e) y x I → R' e y x I)
    {s x : Nat} {P P' : Nat → Nat × Nat} (hP : ∀ x, x < g.numNodes → P x = ((P' x).1, unm (P' x).2)) {J : List Nat} (hJ : ChainI R P s x J) :
    (∀ v ∈ J, v < x) → ∀ {d}, d < K → Chain Strict g' s P' x d → ChainI R' P' s x J := by
  induction hJ with
  | nil => intros; exact .nil
  | @snoc y x e J I h1 h2 h3 h4 ih =>
    intro hlt d hK hch
    have hsx : s ≠ x := by
      rintro rfl
      have : s ∈ J ++ y :: I := by
        rcases h1.src with ⟨rfl, _⟩ | h
        · simp
        · simp [h]
      have := hlt s this; omega
    cases hch with
    | nil => exact absurd rfl hsx
    | @snoc y1 _ e1 w1 d1 c1 p1 q1 l1 =>
      rw [hP x (h.head_lt q1), p1] at h3
      simp at h3
      obtain ⟨rfl, rfl⟩ := h3
      exact .snoc (ih h2 (by omega) c1) h2 p1 (hR _ _ _ _ _ q1 (by omega) h4)

end

theorem Customized.walk_updown {O : Nat → Nat → Nat → Prop} {w0 w : Weights} (h : Customized n c O w0 w) {s t d : Nat} (hw : Walk (CArc c w) s t d) :
    ∃ d', d' ≤ d ∧ UpDown (fwGraph c w).Arc (bwGraph c w).Arc s t d' := by
  obtain ⟨m, a, b, h1, h2, h3⟩ := UD.of_walk h.tri (fun x y l ho _ => ⟨l, Nat.le_refl _, ho⟩) hw
  refine ⟨a + b, h3, m, a, b, h1.mono ?_, h2.mono ?_, rfl⟩
  · intro u v l huv ha
    rw [fwGraph_arc h.good.toBase h.ok]; exact ha.up h.good.toBase huv
  · intro u v l huv ha
    rw [bwGraph_arc h.good.toBase h.ok]; exact CArc.down h.good.toBase ha huv

theorem DirOK.thin {tree : List (Option Nat)} {K : Nat} {g g' : FOGraph} {A : Nat → Nat → Nat → Prop} {unm : Nat → Nat} (h : Thin K g g' A unm) (hd : DirOK n tree g) :
    DirOK n tree g' :=
  ⟨h.wf', by rw [h.nn, hd.nn], fun ha => hd.up (h.subArc ha), fun ha => hd.anc (h.subArc ha), fun ha => hd.bound (h.subArc ha)⟩

section
variable {O : Nat → Nat → Nat → Prop} {w0 w : Weights} {K : Nat} {fG bG : FOGraph} {uf ub : Nat → Nat}

theorem updown_walk (tF : Thin K (fwGraph c w) fG (CArc c w) uf) (tB : Thin K (bwGraph c w) bG (Rev (CArc c w)) ub) {s t d : Nat}
    (hu : UpDown (fwGraph c w).Arc (bwGraph c w).Arc s t d) : Walk (CArc c w) s t d := by
  obtain ⟨m, a, b, h1, h2, rfl⟩ := hu
  exact (tF.walk h1).append (walk_rev.1 (tB.walk h2))

theorem thin_sub (tF : Thin K (fwGraph c w) fG (CArc c w) uf) (tB : Thin K (bwGraph c w) bG (Rev (CArc c w)) ub) {s t d : Nat}
    (hu : UpDown fG.Arc bG.Arc s t d) : UpDown (fwGraph c w).Arc (bwGraph c w).Arc s t d := by
  obtain ⟨m, a, b, h1, h2, rfl⟩ := hu
  exact ⟨m, a, b, h1.mono (fun _ _ _ _ h => tF.subArc h), h2.mono (fun _ _ _ _ h => tB.subArc h), rfl⟩

/-- Shortest up-down paths remain. -/
theorem Customized.thin_updown (h : Customized n c O w0 w) (tF : Thin K (fwGraph c w) fG (CArc c w) uf) (tB : Thin K (bwGraph c w) bG (Rev (CArc c w)) ub)
    {s t d : Nat} (hw : Walk (CArc c w) s t d) (hd : d < K) :
    ∃ d', d' ≤ d ∧ UpDown fG.Arc bG.Arc s t d' ∧ ∀ d'', Walk (CArc c w) s t d'' → d' ≤ d'' := by
  classical
  have hex : ∃ x, UpDown (fwGraph c w).Arc (bwGraph c w).Arc s t x := by
    obtain ⟨d', _, h2⟩ := h.walk_updown hw; exact ⟨d', h2⟩
  have hmin : ∀ d'', Walk (CArc c w) s t d'' → Nat.find hex ≤ d'' := by
    intro d'' hd''
    obtain ⟨d', h1, h2⟩ := h.walk_updown hd''
    have := Nat.find_min' hex h2; omega
  obtain ⟨m, a, b, h1, h2, h3⟩ := Nat.find_spec hex
  have hle := hmin d hw
  refine ⟨Nat.find hex, hle, ⟨m, a, b, tF.keepUp h1 (by omega) ?_, tB.keepUp h2 (by omega) ?_, h3⟩, hmin⟩
  · intro d' hd'
    have := hmin _ (hd'.append (walk_rev.1 (tB.walk h2))); omega
  · intro d' hd'
    have := hmin _ ((tF.walk h1).append (walk_rev.1 hd')); omega

/-- The array of pointers with the old ids. -/
def unmapPtrs (u : Nat → Nat) (ps : List (Nat × Nat)) : List (Nat × Nat) := ps.map (fun q => (q.1, u q.2))

theorem gp_unmap {u : Nat → Nat} {ps : List (Nat × Nat)} {x : Nat} (hx : x < ps.length) : gp (unmapPtrs u ps) x = ((gp ps x).1, u (gp ps x).2) := by
  simp [gp, unmapPtrs, List.getElem?_eq_getElem hx]

theorem thin_meeting (tF : Thin K (fwGraph c w) fG (CArc c w) uf) (tB : Thin K (bwGraph c w) bG (Rev (CArc c w)) ub) (hn : c.topo.numNodes = n)
    {s t m d : Nat} {fps bps : List (Nat × Nat)} (hf : fps.length = n) (hb : bps.length = n) (hd : d < K)
    (hF : DirOK n c.elimTree fG) (hB : DirOK n c.elimTree bG)
    (hmin : ∀ d', Walk (CArc c w) s t d' → d ≤ d') (hm : Meeting fG bG s t (gp fps) (gp bps) m d) :
    Meeting (fwGraph c w) (bwGraph c w) s t (gp (unmapPtrs uf fps)) (gp (unmapPtrs ub bps)) m d := by
  obtain ⟨a, b, rfl, c1, c2⟩ := hm.ex
  have w1 := tF.walk ((c1.upwalk hF).mono (fun _ _ _ _ h => tF.subArc h))
  have w2 := tB.walk ((c2.upwalk hB).mono (fun _ _ _ _ h => tB.subArc h))
  have hnf : (fwGraph c w).numNodes = n := hn
  have hnb : (bwGraph c w).numNodes = n := hn
  refine ⟨⟨a, b, rfl, (tF.chain (fun x hx => gp_unmap (by omega)) c1 (by omega) ?_).1, (tB.chain (fun x hx => gp_unmap (by omega)) c2 (by omega) ?_).1⟩, ?_⟩
  · intro d' hd'
    have := hmin _ (hd'.append (walk_rev.1 w2)); omega
  · intro d' hd'
    have := hmin _ (w1.append (walk_rev.1 hd')); omega
  · intro x a' b' hx ha hb'
    have hle := hmin _ ((tF.walk ha).append (walk_rev.1 (tB.walk hb')))
    by_contra hc
    have u1 := tF.keepUp ha (by omega) (fun d' hd' => by
      have := hmin _ (hd'.append (walk_rev.1 (tB.walk hb'))); omega)
    have u2 := tB.keepUp hb' (by omega) (fun d' hd' => by
      have := hmin _ ((tF.walk ha).append (walk_rev.1 hd')); omega)
    have := hm.low x a' b' hx u1 u2
    omega

/-- Queries on the smaller graphs. -/
theorem Customized.thin_serves (h : Customized n c O w0 w) (tF : Thin INFINITY (fwGraph c w) fG (CArc c w) uf)
    (tB : Thin INFINITY (bwGraph c w) bG (Rev (CArc c w)) ub) {tl : List Nat} {w' : Weights}
    (hRf : ∀ e y x l L, fG.E e y x l → l < INFINITY → Unp c.tail w y x (uf e) L → Unp tl w' y x e L)
    (hRb : ∀ e y x l L, bG.E e y x l → l < INFINITY → Unp c.tail w x y (ub e) L → Unp tl w' x y e L) :
    Serves n O fG bG c.elimTree tl w' := by
  have hg := h.good
  have hF := DirOK.thin tF (fw_dirOK hg h.ok)
  have hB := DirOK.thin tB (bw_dirOK hg h.ok)
  have hn : c.topo.numNodes = n := hg.nn
  intro s t hs ht
  obtain ⟨u1, u2⟩ := Solved.updown h.good h.ok h.init h.solved h.cover s t
  -- one query
  have one : ∀ srv, Clean n srv → ∃ r srv', queryRanks fG bG c.elimTree srv s t = some (r, srv') ∧ Clean n srv' ∧ Answer O s t r ∧
      ∀ d, r = some d → d < INFINITY ∧ (∀ d', UpDown (fwGraph c w).Arc (bwGraph c w).Arc s t d' → d ≤ d') ∧
        Meeting (fwGraph c w) (bwGraph c w) s t (gp (unmapPtrs uf srv'.fwParents)) (gp (unmapPtrs ub srv'.bwParents)) srv'.meeting d ∧
        ∃ p, PathOf O p d ∧ PState n tl w' srv'.fwParents srv'.bwParents s t srv'.meeting p ∧
          PState n c.tail w (unmapPtrs uf srv'.fwParents) (unmapPtrs ub srv'.bwParents) s t srv'.meeting p := by
    intro srv hc
    obtain ⟨r, srv', h1, h2, h3, h4⟩ := queryRanks_spec hg.treeOK hF hB hc hs ht
    have hshort : ∀ d', UpDown (fwGraph c w).Arc (bwGraph c w).Arc s t d' → d' < INFINITY → ∃ d, r = some d ∧ d ≤ d' := by
      intro d' hu hlt
      obtain ⟨d1, k1, k2, _⟩ := h.thin_updown tF tB (updown_walk tF tB hu) hlt
      cases r with
      | none => have := h3 rfl _ k2; omega
      | some d => exact ⟨d, rfl, by have := (h4 d rfl).2.1 _ k2; omega⟩
    have hmin : ∀ d, r = some d → ∀ d', UpDown (fwGraph c w).Arc (bwGraph c w).Arc s t d' → d ≤ d' := by
      intro d hr d' hd'
      by_cases hlt : d' < INFINITY
      · obtain ⟨d2, k1, k2⟩ := hshort d' hd' hlt
        rw [hr] at k1; simp at k1; omega
      · have := (h4 d hr).1; omega
    refine ⟨r, srv', h1, h2, ?_, ?_⟩
    · intro d
      constructor
      · intro hr
        obtain ⟨k1, k2, k3⟩ := h4 d hr
        obtain ⟨a, b, rfl, c1, c2⟩ := k3.ex
        refine ⟨⟨u2 _ (thin_sub tF tB ⟨_, a, b, c1.upwalk hF, c2.upwalk hB, rfl⟩) k1, ?_⟩, k1⟩
        intro d' hd'
        obtain ⟨d'', k4, k5⟩ := u1 d' hd'
        have := hmin _ hr _ k5
        omega
      · rintro ⟨⟨k1, k2⟩, k3⟩
        obtain ⟨d'', k4, k5⟩ := u1 d k1
        obtain ⟨x, rfl, hx⟩ := hshort d'' k5 (by omega)
        obtain ⟨q1, q2, q3⟩ := h4 x rfl
        obtain ⟨a, b, hab, c1, c2⟩ := q3.ex
        have := k2 _ (u2 x (thin_sub tF tB ⟨_, a, b, c1.upwalk hF, c2.upwalk hB, hab⟩) q1)
        congr 1; omega
    · intro d hr
      obtain ⟨k1, k2, k3⟩ := h4 d hr
      have hwmin : ∀ d', Walk (CArc c w) s t d' → d ≤ d' := by
        intro d' hd'
        obtain ⟨d2, e1, e2⟩ := h.walk_updown hd'
        have := hmin d hr d2 e2; omega
      have hm := thin_meeting tF tB hn h2.fp h2.bp k1 hF hB hwmin k3
      refine ⟨k1, hmin d hr, hm, ?_⟩
      obtain ⟨Jf, Jb, q1, q2, q3, q4, q5, q6⟩ := h.path (by simp [unmapPtrs, h2.fp]) (by simp [unmapPtrs, h2.bp]) hs ht k1 hm
      refine ⟨_, q6, ?_, q5⟩
      obtain ⟨a, b, rfl, c1, c2⟩ := k3.ex
      have hnf : (fwGraph c w).numNodes = n := hn
      have hnb : (bwGraph c w).numNodes = n := hn
      have f1 := chainI_thin tF (R' := fun e y x I => Unp tl w' y x e (I ++ [x])) (fun e y x l I he hl hu => hRf e y x l _ he hl hu)
        (fun x hx => gp_unmap (by rw [h2.fp]; omega)) q1 q2 (by omega) c1
      have b1 := chainI_thin tB (R' := fun e y x I => Unp tl w' x y e (I.reverse ++ [y])) (fun e y x l I he hl hu => hRb e y x l _ he hl hu)
        (fun x hx => gp_unmap (by rw [h2.bp]; omega)) q3 q4 (by omega) c2
      obtain ⟨H, e1, e2⟩ := enc_bw b1
      exact ⟨h2.fp, h2.bp, ⟨Jf, _, H, f1, q2, e1, e2, rfl⟩, q5.nodup, q5.lt⟩
  obtain ⟨r, srv0, h1, h2, h3, h4⟩ := one _ (clean_new n 0)
  cases r with
  | none =>
    refine ⟨none, [], h3, by simp, ?_⟩
    intro srv hcl
    obtain ⟨r', srv', k1, k2, k3, k4⟩ := one srv hcl
    have := h3.unique k3
    subst this
    exact ⟨srv', k1, k2, by simp⟩
  | some d =>
    obtain ⟨hd, hmin, hm, p, p1, p2, p3⟩ := h4 d rfl
    refine ⟨some d, p, h3, by rintro d' hd'; simp at hd'; subst hd'; exact p1, ?_⟩
    intro srv hcl
    obtain ⟨r', srv', k1, k2, k3, k4⟩ := one srv hcl
    have := h3.unique k3
    subst this
    refine ⟨srv', k1, k2, ?_⟩
    intro d' hd'
    simp at hd'; subst hd'
    obtain ⟨_, _, hm', p', r1, r2, r3⟩ := k4 d rfl
    obtain ⟨p'', q1, q2, _⟩ := h.same_path p3.fl p3.bl r3.fl r3.bl hs ht hd hmin hm hm'
    rw [p3.unique q1, ← r3.unique q2]; exact r2

end

/-! ### The rebuilt graphs -/

/-- the old id of an edge -/
def unmap (i : SideIn) (m e : Nat) : Nat := ((((List.range m).filter (kp i))[e]?).getD m)

theorem kept_get (i : SideIn) {m e : Nat} (he : e < m) (hk : kp i e = true) : ((List.range m).filter (kp i))[kcount i e]? = some e := by
  have h1 : List.range m = List.range e ++ e :: List.range' (e + 1) (m - (e + 1)) := by
    have := List.range'_append (s := 0) (m := e) (n := m - e) (step := 1)
    rw [List.range_eq_range', List.range_eq_range', show m = e + (m - e) by omega, ← this]
    congr 1
    rw [show m - e = (m - (e + 1)) + 1 by omega, List.range'_succ]
    simp
    congr 1; omega
  rw [h1, List.filter_append, List.getElem?_append_right (by simp [kcount])]
  simp [kcount, hk]

theorem kept_inv (i : SideIn) {m j e : Nat} (h : ((List.range m).filter (kp i))[j]? = some e) : e < m ∧ kp i e = true ∧ j = kcount i e := by
  have hm := List.mem_of_getElem? h
  rw [List.mem_filter, List.mem_range] at hm
  refine ⟨hm.1, hm.2, ?_⟩
  have h2 := kept_get i hm.1 hm.2
  have hnd : ((List.range m).filter (kp i)).Nodup := List.nodup_range.filter _
  have hj : j < ((List.range m).filter (kp i)).length := by
    by_contra hc; rw [List.getElem?_eq_none (by omega)] at h; simp at h
  exact (List.getElem?_inj hj hnd).1 (by rw [h, h2])

theorem kcount_lt (i : SideIn) {e b : Nat} (hk : kp i e = true) : kcount i e < kcount i b ↔ e < b := by
  constructor
  · intro h; by_contra hc
    have := kcount_mono i (show b ≤ e by omega); omega
  · intro h
    have h1 := kcount_mono i (show e + 1 ≤ b by omega)
    rw [kcount_succ, hk] at h1; simp at h1; omega

theorem kcount_le (i : SideIn) {e a : Nat} (hk : kp i e = true) : kcount i a ≤ kcount i e ↔ a ≤ e := by
  constructor
  · intro h; by_contra hc
    have := (kcount_lt i hk (b := a)).2 (by omega); omega
  · exact kcount_mono i

theorem side_fo (hg : Base n c) (fw bw i : SideIn) {v : Nat} (hv : v ≤ n) : (sideAt c fw bw i n c.head.length).fo[v]? = some (kcount i (first c v)) := by
  simp only [sideAt, List.getElem?_map, List.getElem?_range (show v < n + 1 by omega), Option.map_some]

theorem Base.tail_lt (hg : Base n c) {e x : Nat} (h : c.tail[e]? = some x) : x < n := by
  obtain ⟨a, b, h1, h2, _⟩ := (hg.range e x).1 h
  have h3 : c.firstOut.length - 1 = n := hg.nn
  have h4 : x + 1 < c.firstOut.length := by
    by_contra hc
    rw [List.getElem?_eq_none (by omega)] at h2; simp at h2
  omega

/-- The arcs of the rebuilt graphs. -/
theorem side_E (hg : Base n c) {fw bw i : SideIn} (h : InOK c i) {j x y w : Nat} :
    (sideAt c fw bw i n c.head.length).graph.E j x y w ↔ ∃ e, c.Edge e x y ∧ kp i e = true ∧ j = kcount i e ∧ i.weight[e]? = some w := by
  have hfl : (sideAt c fw bw i n c.head.length).fo.length = n + 1 := by simp [sideAt]
  constructor
  · rintro ⟨a, b, h1, h2, h3, h4, h5, h6⟩
    simp only [Side.graph] at h1 h2 h5 h6
    have hx : x < n := by
      by_contra hc
      rw [List.getElem?_eq_none (by omega)] at h2; simp at h2
    rw [side_fo hg fw bw i (by omega)] at h1 h2
    simp at h1 h2
    simp only [sideAt, List.getElem?_map, Option.map_eq_some_iff] at h5 h6
    obtain ⟨e, he, h5⟩ := h5
    obtain ⟨e', he', h6⟩ := h6
    rw [he] at he'; simp at he'; subst he'
    obtain ⟨k1, k2, rfl⟩ := kept_inv i he
    subst h1; subst h2
    rw [kcount_le i k2] at h3
    rw [kcount_lt i k2] at h4
    obtain ⟨g1, g2, g3, g4, _⟩ := h.gets hg k1
    refine ⟨e, ⟨(hg.tail_iff hx).2 ⟨h3, h4⟩, by rw [g1, h5]⟩, k2, rfl, by rw [g3, h6]⟩
  · rintro ⟨e, ⟨h1, h2⟩, h3, rfl, h4⟩
    have hx := hg.tail_lt h1
    have he : e < c.head.length := by
      by_contra hc; rw [List.getElem?_eq_none (by omega)] at h2; simp at h2
    obtain ⟨k1, k2⟩ := (hg.tail_iff hx).1 h1
    obtain ⟨g1, g2, g3, g4, _⟩ := h.gets hg he
    refine ⟨kcount i (first c x), kcount i (first c (x + 1)), side_fo hg fw bw i (by omega), side_fo hg fw bw i (by omega), (kcount_le i h3).2 k1,
      (kcount_lt i h3).2 k2, ?_, ?_⟩
    · simp only [Side.graph, sideAt, List.getElem?_map, kept_get i he h3, Option.map_some]
      rw [← g1, h2]
    · simp only [Side.graph, sideAt, List.getElem?_map, kept_get i he h3, Option.map_some]
      rw [← g3, h4]

theorem side_wf (hg : Base n c) {fw bw i : SideIn} (h : InOK c i) : (sideAt c fw bw i n c.head.length).graph.WF ∧ (sideAt c fw bw i n c.head.length).graph.numNodes = n := by
  have hfl : (sideAt c fw bw i n c.head.length).fo.length = n + 1 := by simp [sideAt]
  have hnn : (sideAt c fw bw i n c.head.length).graph.numNodes = n := by simp [FOGraph.numNodes, Side.graph, hfl]
  have hl0 : c.firstOut.length = n + 1 := by
    have h1 : 0 < c.firstOut.length := hg.wf.fo_len; have h2 : c.firstOut.length - 1 = n := hg.nn
    omega
  have hhl : (sideAt c fw bw i n c.head.length).head.length = kcount i c.head.length := by simp [sideAt, kcount]
  refine ⟨⟨?_, ?_, ?_, ?_, ?_, ?_⟩, hnn⟩
  · have h1 : c.firstOut.length < U32 - 1 ∧ c.head.length < U32 - 1 := hg.wf.small
    have h2 : kcount i c.head.length ≤ c.head.length := by
      have := List.length_filter_le (kp i) (List.range c.head.length); simpa [kcount] using this
    simp only [Side.graph, hfl, hhl]
    omega
  · rw [List.head?_eq_getElem?]
    simp only [Side.graph]
    rw [side_fo hg fw bw i (by omega), hg.first_zero]; rfl
  · rw [List.getLast?_eq_getElem?]
    simp only [Side.graph, hfl, hhl]
    rw [show n + 1 - 1 = n by omega, side_fo hg fw bw i (by omega), hg.first_last]
  · simp [Side.graph, sideAt]
  · intro v a b h1 h2
    simp only [Side.graph] at h1 h2
    have hv : v + 1 < n + 1 := by
      by_contra hc
      rw [List.getElem?_eq_none (by omega)] at h2; simp at h2
    rw [side_fo hg fw bw i (by omega)] at h1 h2
    simp at h1 h2
    have := kcount_mono i (hg.first_mono (u := v) (v := v + 1) (by omega) (by omega))
    omega
  · intro y hy
    rw [hnn]
    simp only [Side.graph, sideAt, List.mem_map, List.mem_filter, List.mem_range] at hy
    obtain ⟨e, ⟨he, _⟩, rfl⟩ := hy
    obtain ⟨g1, _⟩ := h.gets hg he
    have h1 : c.topo.numNodes = n := hg.nn
    rw [← h1]
    exact hg.wf.heads _ (List.mem_of_getElem? g1)

/-! ### Perfect customization -/

/-- Perfectly customized weights. -/
structure Perf (n : Nat) (c : Cch) (O : Nat → Nat → Nat → Prop) (w0 w : Weights) (p : PW) : Prop where
  cust : Customized n c O w0 w
  run : ∃ L, (∀ x, x < n → x ∈ L) ∧ PRun c w L p

section
variable {O : Nat → Nat → Nat → Prop} {w0 w : Weights} {p : PW}

theorem Perf.pok (h : Perf n c O w0 w p) : POK c p := by obtain ⟨L, _, hr⟩ := h.run; exact hr.ok

/-- The new weights are lengths of walks. -/
theorem Perf.sound (h : Perf n c O w0 w p) {e x y : Nat} (he : c.Edge e x y) :
    (p.u e < INFINITY → Walk (CArc c w) x y (p.u e)) ∧ (p.d e < INFINITY → Walk (CArc c w) y x (p.d e)) := by
  obtain ⟨L, _, hr⟩ := h.run
  refine hr.sound (Walk (CArc c w)) (fun a b d l m h1 h2 => h1.append h2) ?_ e x y he
  intro e a b he
  refine ⟨fun _ => ?_, fun _ => ?_⟩
  · have := Walk.cons (show CArc c w a b (w.u e) from .inl ⟨e, he, rfl⟩) (.nil b); simpa using this
  · have := Walk.cons (show CArc c w b a (w.d e) from .inr ⟨e, he, rfl⟩) (.nil a); simpa using this

/-- They are the lengths of shortest walks. -/
theorem Perf.exact (h : Perf n c O w0 w p) {e x y : Nat} (he : c.Edge e x y) :
    (∀ d, Walk (CArc c w) x y d → p.u e ≤ d) ∧ (∀ d, Walk (CArc c w) y x d → p.d e ≤ d) := by
  obtain ⟨L, hL, hr⟩ := h.run
  obtain ⟨h1, h2⟩ := hr.exact e x y (hL x (h.cust.good.edge_lt he)) he
  refine ⟨fun d hd => ?_, fun d hd => ?_⟩
  · obtain ⟨d', k1, k2⟩ := h.cust.walk_updown hd
    have := h1 d' k2; omega
  · obtain ⟨d', k1, k2⟩ := h.cust.walk_updown hd
    have := h2 d' k2; omega

theorem kp_up {p : PW} {w : Weights} (hp : POK c p) {e : Nat} (he : e < c.head.length) : kp (p.sides w).1 e = !(p.um e) := by
  have : e < p.upMod.length := by rw [hp.uml]; exact he
  simp [kp, PW.sides, PW.um, List.getElem?_eq_getElem this]

theorem kp_down {p : PW} {w : Weights} (hp : POK c p) {e : Nat} (he : e < c.head.length) : kp (p.sides w).2 e = !(p.dm e) := by
  have : e < p.downMod.length := by rw [hp.dml]; exact he
  simp [kp, PW.sides, PW.dm, List.getElem?_eq_getElem this]

/-- An edge is kept if and only if its weight was a shortest distance before. -/
theorem Perf.kept_up (h : Perf n c O w0 w p) {e x y : Nat} (he : c.Edge e x y) :
    (kp (p.sides w).1 e = true ↔ ∀ d, Walk (CArc c w) x y d → w.u e ≤ d) ∧ (kp (p.sides w).1 e = true → p.u e = w.u e) := by
  obtain ⟨L, hL, hr⟩ := h.run
  rw [kp_up h.pok (Edge.lt he)]
  rcases hr.up e with ⟨a1, a2⟩ | ⟨a1, a2⟩
  · simp only [a2, Bool.not_false, true_iff, forall_const]
    refine ⟨?_, a1⟩
    rw [← a1]; exact (h.exact he).1
  · simp only [a2, Bool.not_true, Bool.false_eq_true, false_iff, false_implies, and_true]
    intro hc
    have := hc _ ((h.sound he).1 (by have := h.cust.ok.ub e (Edge.lt he); omega))
    omega

theorem Perf.kept_down (h : Perf n c O w0 w p) {e x y : Nat} (he : c.Edge e x y) :
    (kp (p.sides w).2 e = true ↔ ∀ d, Walk (CArc c w) y x d → w.d e ≤ d) ∧ (kp (p.sides w).2 e = true → p.d e = w.d e) := by
  obtain ⟨L, hL, hr⟩ := h.run
  rw [kp_down h.pok (Edge.lt he)]
  rcases hr.down e with ⟨a1, a2⟩ | ⟨a1, a2⟩
  · simp only [a2, Bool.not_false, true_iff, forall_const]
    refine ⟨?_, a1⟩
    rw [← a1]; exact (h.exact he).2
  · simp only [a2, Bool.not_true, Bool.false_eq_true, false_iff, false_implies, and_true]
    intro hc
    have := hc _ ((h.sound he).2 (by have := h.cust.ok.db e (Edge.lt he); omega))
    omega

theorem low_of (hg : Base n c) {e z x y : Nat} (hz : c.Edge e z y) (hx : x < n) (hzx : z < x) : e < first c x := by
  have h1 := ((hg.tail_iff (hg.edge_lt hz)).1 hz.1).2
  have := hg.first_mono (u := z + 1) (v := x) (by omega) (by omega)
  omega

theorem Perf.inOK (h : Perf n c O w0 w p) : InOK c (p.sides w).1 ∧ InOK c (p.sides w).2 := by
  have hg := h.cust.good
  have hp := h.pok
  have hw := h.cust.ok
  refine ⟨⟨hp.ul, hp.uml, hw.uul, ?_⟩, ⟨hp.dl, hp.dml, hw.dul, ?_⟩⟩
  · intro e x hx u hu
    have hxn := hg.tail_lt hx
    have hel : e < c.head.length := by
      have : e < c.tail.length := by by_contra hc; rw [List.getElem?_eq_none (by omega)] at hx; simp at hx
      rw [← hg.tailLen]; exact this
    have hE : c.Edge e x ((c.head[e]?).getD 0) := ⟨hx, by simp [List.getElem?_eq_getElem hel]⟩
    have hlt := (hg.up hE).1
    have hu' : (p.sides w).1.unpack[e]? = some (w.uu e) := hw.uu_get hel
    rw [hu'] at hu; simp at hu; subst hu
    rcases (h.cust.solved.bestUp x e _ hxn hE).wit with h1 | ⟨z, t, a, b, ⟨ha, hb, rfl⟩, h2, _⟩
    · simp only [Prod.mk.injEq] at h1; rw [h1.2]; simp
    · simp only [Prod.mk.injEq] at h2; rw [h2.2]
      have hz := (hg.up ha).1
      refine ⟨fun a' ha' => ?_, fun b' hb' => ?_⟩
      · simp at ha'; subst ha'; exact low_of hg.toBase ha hxn hz
      · simp at hb'; subst hb'; exact low_of hg.toBase hb hxn hz
  · intro e x hx u hu
    have hxn := hg.tail_lt hx
    have hel : e < c.head.length := by
      have : e < c.tail.length := by by_contra hc; rw [List.getElem?_eq_none (by omega)] at hx; simp at hx
      rw [← hg.tailLen]; exact this
    have hE : c.Edge e x ((c.head[e]?).getD 0) := ⟨hx, by simp [List.getElem?_eq_getElem hel]⟩
    have hlt := (hg.up hE).1
    have hu' : (p.sides w).2.unpack[e]? = some (w.du e) := hw.du_get hel
    rw [hu'] at hu; simp at hu; subst hu
    rcases (h.cust.solved.bestDown x e _ hxn hE).wit with h1 | ⟨z, t, a, b, ⟨ha, hb, rfl⟩, h2, _⟩
    · simp only [Prod.mk.injEq] at h1; rw [h1.2]; simp
    · simp only [Prod.mk.injEq] at h2; rw [h2.2]
      have hz := (hg.up hb).1
      refine ⟨fun a' ha' => ?_, fun b' hb' => ?_⟩
      · simp at ha'; subst ha'; exact low_of hg.toBase ha hxn hz
      · simp at hb'; subst hb'; exact low_of hg.toBase hb hxn hz

/-- the rebuilt sides -/
def perfSides (n : Nat) (c : Cch) (w : Weights) (p : PW) : Side × Side :=
  (sideAt c (p.sides w).1 (p.sides w).2 (p.sides w).1 n c.head.length, sideAt c (p.sides w).1 (p.sides w).2 (p.sides w).2 n c.head.length)

theorem unmap_kcount (i : SideIn) {m e : Nat} (he : e < m) (hk : kp i e = true) : unmap i m (kcount i e) = e := by
  simp [unmap, kept_get i he hk]

theorem Perf.thinF (h : Perf n c O w0 w p) (K : Nat) : Thin K (fwGraph c w) (perfSides n c w p).1.graph (CArc c w) (unmap (p.sides w).1 c.head.length) := by
  have hg := h.cust.good
  have hw := h.cust.ok
  obtain ⟨i1, i2⟩ := h.inOK
  have hwf := side_wf (fw := (p.sides w).1) (bw := (p.sides w).2) hg.toBase i1
  have hpu : ∀ {e}, e < c.head.length → (p.sides w).1.weight[e]? = some (p.u e) := by
    intro e he
    have : e < p.up.length := by rw [h.pok.ul]; exact he
    simp [PW.sides, PW.u, List.getElem?_eq_getElem this]
  refine ⟨fwGraph_wf hg.toBase hw, hwf.1, by rw [show (perfSides n c w p).1.graph.numNodes = n from hwf.2]; exact hg.nn.symm, ?_, ?_, ?_⟩
  · intro j y x l hE
    obtain ⟨e, h1, h2, rfl, h3⟩ := (side_E hg.toBase i1).1 hE
    rw [unmap_kcount _ (Edge.lt h1) h2]
    rw [hpu (Edge.lt h1)] at h3; simp at h3
    exact (fw_E hg.toBase hw).2 ⟨h1, by rw [← h3, (h.kept_up h1).2 h2]⟩
  · intro y x l ha _ hmin
    obtain ⟨e, he, rfl⟩ := (fwGraph_arc hg.toBase hw).1 ha
    have hk := (h.kept_up he).1.2 hmin
    exact (edgeAt_arc hwf.1).2 ⟨_, (side_E hg.toBase i1).2 ⟨e, he, hk, rfl, by rw [hpu (Edge.lt he), (h.kept_up he).2 hk]⟩⟩
  · intro y x l ha
    obtain ⟨e, he, rfl⟩ := (fwGraph_arc hg.toBase hw).1 ha
    exact .inl ⟨e, he, rfl⟩

theorem Perf.thinB (h : Perf n c O w0 w p) (K : Nat) : Thin K (bwGraph c w) (perfSides n c w p).2.graph (Rev (CArc c w)) (unmap (p.sides w).2 c.head.length) := by
  have hg := h.cust.good
  have hw := h.cust.ok
  obtain ⟨i1, i2⟩ := h.inOK
  have hwf := side_wf (fw := (p.sides w).1) (bw := (p.sides w).2) hg.toBase i2
  have hpu : ∀ {e}, e < c.head.length → (p.sides w).2.weight[e]? = some (p.d e) := by
    intro e he
    have : e < p.down.length := by rw [h.pok.dl]; exact he
    simp [PW.sides, PW.d, List.getElem?_eq_getElem this]
  refine ⟨bwGraph_wf hg.toBase hw, hwf.1, by rw [show (perfSides n c w p).2.graph.numNodes = n from hwf.2]; exact hg.nn.symm, ?_, ?_, ?_⟩
  · intro j y x l hE
    obtain ⟨e, h1, h2, rfl, h3⟩ := (side_E hg.toBase i2).1 hE
    rw [unmap_kcount _ (Edge.lt h1) h2]
    rw [hpu (Edge.lt h1)] at h3; simp at h3
    exact (bw_E hg.toBase hw).2 ⟨h1, by rw [← h3, (h.kept_down h1).2 h2]⟩
  · intro y x l ha _ hmin
    obtain ⟨e, he, rfl⟩ := (bwGraph_arc hg.toBase hw).1 ha
    have hk := (h.kept_down he).1.2 (fun d hd => hmin d (walk_rev.2 hd))
    exact (edgeAt_arc hwf.1).2 ⟨_, (side_E hg.toBase i2).2 ⟨e, he, hk, rfl, by rw [hpu (Edge.lt he), (h.kept_down he).2 hk]⟩⟩
  · intro y x l ha
    obtain ⟨e, he, rfl⟩ := (bwGraph_arc hg.toBase hw).1 ha
    exact .inr ⟨e, he, rfl⟩

/-- the direction an edge is used in -/
def hopSide (w : Weights) (p : PW) (x y : Nat) : SideIn := if x < y then (p.sides w).1 else (p.sides w).2

theorem Perf.kept_hop (h : Perf n c O w0 w p) {e x y : Nat} (he : Hop c e x y) :
    kp (hopSide w p x y) e = true ↔ ∀ d, Walk (CArc c w) x y d → hopW w e x y ≤ d := by
  rcases he with he | he
  · have hlt := (h.cust.good.up he).1
    simp only [hopSide, hopW, hlt, if_true]; exact (h.kept_up he).1
  · have hlt := (h.cust.good.up he).1
    simp only [hopSide, hopW, Nat.not_lt.2 (Nat.le_of_lt hlt), if_false]; exact (h.kept_down he).1

theorem Perf.hop_unp (h : Perf n c O w0 w p) {e x y : Nat} (he : Hop c e x y) (hk : kp (hopSide w p x y) e = true) {u : Option Nat × Option Nat}
    (hu : (hopArr w x y)[e]? = some u) :
    (hopArr (perfWeights (perfSides n c w p)) x y)[kcount (hopSide w p x y) e]? =
      some (mp (kmap (p.sides w).2 c.head.length) (kmap (p.sides w).1 c.head.length) u) := by
  have hel : e < c.head.length := by rcases he with he | he <;> exact Edge.lt he
  obtain ⟨i1, i2⟩ := h.inOK
  unfold hopArr hopSide at *
  by_cases hxy : x < y
  · simp only [hxy, if_true] at hk hu ⊢
    obtain ⟨_, _, _, g4, _⟩ := i1.gets h.cust.good.toBase hel
    have : (p.sides w).1.unpack = w.upUnpack := rfl
    rw [this, hu] at g4
    simp at g4
    simp only [perfWeights, perfSides, sideAt, List.getElem?_map, kept_get _ hel hk, Option.map_some]
    rw [g4]
  · simp only [hxy, if_false] at hk hu ⊢
    obtain ⟨_, _, _, g4, _⟩ := i2.gets h.cust.good.toBase hel
    have : (p.sides w).2.unpack = w.downUnpack := rfl
    rw [this, hu] at g4
    simp at g4
    simp only [perfWeights, perfSides, sideAt, List.getElem?_map, kept_get _ hel hk, Option.map_some]
    rw [g4]

/-- Unpacking a kept edge uses kept edges only, and gives the same nodes. -/
theorem Perf.unp (h : Perf n c O w0 w p) {e x y : Nat} {L : List Nat} (hu : Unp c.tail w x y e L) : Hop c e x y → kp (hopSide w p x y) e = true →
    Unp (perfSides n c w p).2.tail (perfWeights (perfSides n c w p)) x y (kcount (hopSide w p x y) e) L := by
  have hg := h.cust.good
  have hw := h.cust.ok
  induction hu with
  | @leaf x y e h1 =>
    intro he hk
    exact .leaf (h.hop_unp he hk h1)
  | @node x y e a b z L1 L2 h1 h2 h3 h4 h5 h6 ih1 ih2 =>
    intro he hk
    have hmin := (h.kept_hop he).1 hk
    have hun := h.hop_unp he hk h1
    rw [hopArr_get hw he] at h1; simp at h1
    rcases (h.cust.solved.hop hg.toBase he).wit with k1 | ⟨z', t, a', b', ⟨ha, hb, rfl⟩, k2, _, _⟩
    · simp only [Prod.mk.injEq] at k1; rw [k1.2] at h1; simp at h1
    · simp only [Prod.mk.injEq] at k2
      rw [k2.2] at h1; simp at h1
      obtain ⟨rfl, rfl⟩ := h1
      have hz : z = z' := by have := ha.1; rw [h2] at this; simpa using this
      subst hz
      have wb : Walk (CArc c w) z y (w.u b') := by
        have := Walk.cons (show CArc c w z y (w.u b') from .inl ⟨b', hb, rfl⟩) (.nil y); simpa using this
      have wa : Walk (CArc c w) x z (w.d a') := by
        have := Walk.cons (show CArc c w x z (w.d a') from .inr ⟨a', ha, rfl⟩) (.nil z); simpa using this
      have ka : kp (hopSide w p x z) a' = true := by
        rw [h.kept_hop (.inr ha)]
        intro d hd
        have := hmin _ (hd.append wb)
        simp only [hopW, Nat.not_lt.2 (Nat.le_of_lt h3), if_false] at this ⊢
        simp only [hopW] at k2
        omega
      have kb : kp (hopSide w p z y) b' = true := by
        rw [h.kept_hop (.inl hb)]
        intro d hd
        have := hmin _ (wa.append hd)
        simp only [hopW, h4, if_true] at this ⊢
        simp only [hopW] at k2
        omega
      have r1 := ih1 (.inr ha) ka
      have r2 := ih2 (.inl hb) kb
      have sa : hopSide w p x z = (p.sides w).2 := by simp [hopSide, Nat.not_lt.2 (Nat.le_of_lt h3)]
      have sb : hopSide w p z y = (p.sides w).1 := by simp [hopSide, h4]
      rw [sa] at ka r1
      rw [sb] at kb r2
      refine .node (a := kcount (p.sides w).2 a') (b := kcount (p.sides w).1 b') (z := z) ?_ ?_ h3 h4 r1 r2
      · rw [hun]; simp [mp, kmap, ka, kb]
      · simp only [perfSides, sideAt, List.getElem?_map, kept_get _ (Edge.lt ha) ka, Option.map_some, recOf, h2, Option.getD_some]

/-- Queries after perfect customization. -/
theorem Perf.serves (h : Perf n c O w0 w p) :
    Serves n O (perfSides n c w p).1.graph (perfSides n c w p).2.graph c.elimTree (perfSides n c w p).2.tail (perfWeights (perfSides n c w p)) := by
  have hg := h.cust.good
  obtain ⟨i1, i2⟩ := h.inOK
  refine h.cust.thin_serves (h.thinF INFINITY) (h.thinB INFINITY) ?_ ?_
  · intro j y x l L hE _ hu
    obtain ⟨e, h1, h2, rfl, h3⟩ := (side_E hg.toBase i1).1 hE
    rw [unmap_kcount _ (Edge.lt h1) h2] at hu
    have hlt := (hg.up h1).1
    have hs : hopSide w p y x = (p.sides w).1 := by simp [hopSide, hlt]
    have := h.unp hu (.inl h1) (by rw [hs]; exact h2)
    rwa [hs] at this
  · intro j y x l L hE _ hu
    obtain ⟨e, h1, h2, rfl, h3⟩ := (side_E hg.toBase i2).1 hE
    rw [unmap_kcount _ (Edge.lt h1) h2] at hu
    have hlt := (hg.up h1).1
    have hs : hopSide w p x y = (p.sides w).2 := by simp [hopSide, Nat.not_lt.2 (Nat.le_of_lt hlt)]
    have := h.unp hu (.inr h1) (by rw [hs]; exact h2)
    rwa [hs] at this

end

end CCH
end Verif
