import Verif.Proof.CatchupQuery
import Verif.Spec.CatchupPath
set_option linter.unusedSimpArgs false
set_option linter.unusedVariables false
/- Parents in the CATCHUp query and the path. -/
namespace Verif.Catchup
open Fl Spec

section
variable {G : Graph} {R : Network} {depth s t : Nat} {dep eps latest : Rat} {bw : Nodes} {bmask : Nat → Bool}

/-- the parent pointers lead back to the source, over arcs that are not slower than the distances -/
inductive Tr (G : Graph) (depth s : Nat) (dist : Nat → Rat) (par : Nat → Nat × Nat) : Nat → Prop where
  | src : Tr G depth s dist par s
  | step {x q id : Nat} {dir : Bool} {a : Arc} {v : Rat} : x ≠ s → par x = (q, id) → (G.arcs dir)[id]? = some a → a.src' dir = q → a.dst dir = x →
      evalArc G depth dir id (dist q) = some v → dist q + v ≤ dist x → Tr G depth s dist par q → Tr G depth s dist par x

theorem eval_nonneg (hG : BoundsOK G R) (hE : EvalOK G R depth) {dir : Bool} {id : Nat} {a : Arc} (ha : (G.arcs dir)[id]? = some a) {τ v : Rat}
    (h : evalArc G depth dir id τ = some v) : 0 ≤ v := by
  obtain ⟨v', h1, h2, _⟩ := hE dir id a ha τ
  rw [h] at h1; injection h1 with h1; subst h1
  exact le_trans (hG.arc dir a (List.mem_of_getElem? ha)).2.2.1 h2

theorem Tr.low (hG : BoundsOK G R) (hE : EvalOK G R depth) {dist : Nat → Rat} {par : Nat → Nat × Nat} {x : Nat} (h : Tr G depth s dist par x) : dist s ≤ dist x := by
  induction h with
  | src => exact le_refl _
  | step _ _ h1 _ _ h2 h3 _ ih => have := eval_nonneg hG hE h1 h2; linarith

/-- a new parent for `y`: chains of nodes that are nearer do not change -/
theorem Tr.near (hG : BoundsOK G R) (hE : EvalOK G R depth) {dist : Nat → Rat} {par : Nat → Nat × Nat} {x y : Nat} {ea : Rat} {p : Nat × Nat} (h : Tr G depth s dist par x) :
    dist x < dist y → Tr G depth s (fupd dist y ea) (fupd par y p) x := by
  induction h with
  | src => intro _; exact .src
  | @step x q id dir a v h0 h1 h2 h3 h4 h5 h6 _ ih =>
    intro hx
    have hv := eval_nonneg hG hE h2 h5
    have hxy : x ≠ y := fun e => by rw [e] at hx; exact absurd hx (lt_irrefl _)
    have hqy : q ≠ y := fun e => by rw [e] at h6; linarith
    refine .step h0 (by rw [fupd_of_ne _ _ hxy]; exact h1) h2 h3 h4 (by rw [fupd_of_ne _ _ hqy]; exact h5) ?_ (ih (by linarith))
    rw [fupd_of_ne _ _ hqy, fupd_of_ne _ _ hxy]; exact h6

theorem Tr.set (hG : BoundsOK G R) (hE : EvalOK G R depth) (hF : ArcsFifo G depth) {dist : Nat → Rat} {par : Nat → Nat × Nat} {y : Nat} {ea : Rat} {p : Nat × Nat}
    (hea : ea < dist y) (hy : Tr G depth s (fupd dist y ea) (fupd par y p) y) {x : Nat} (h : Tr G depth s dist par x) :
    Tr G depth s (fupd dist y ea) (fupd par y p) x := by
  induction h with
  | src => exact .src
  | @step x q id dir a v h0 h1 h2 h3 h4 h5 h6 _ ih =>
    by_cases hxy : x = y
    · rw [hxy]; exact hy
    · obtain ⟨v', h7, _, _⟩ := hE dir id a h2 (fupd dist y ea q)
      refine .step h0 (by rw [fupd_of_ne _ _ hxy]; exact h1) h2 h3 h4 h7 ?_ ih
      rw [fupd_of_ne _ _ hxy]
      have := hF dir id (dist q) _ v v' (fupd_le (le_of_lt hea) q) h5 h7
      linarith

structure PInv (G : Graph) (depth s : Nat) (dep : Rat) (preset : Nat → Rat) (st : Search) : Prop where
  here : st.dist s = dep
  queue : ∀ x k, (x, k) ∈ st.queue → Tr G depth s st.dist st.par x
  tree : ∀ x, st.dist x ≠ preset x → Tr G depth s st.dist st.par x

variable {preset : Nat → Rat}

theorem improve_par (hG : BoundsOK G R) (hE : EvalOK G R depth) (hF : ArcsFifo G depth) {st : Search} (h : PInv G depth s dep preset st) {v : Nat} (hv : Tr G depth s st.dist st.par v)
    {y id : Nat} {dir : Bool} {a : Arc} {x : Rat} (ha : (G.arcs dir)[id]? = some a) (h1 : a.src' dir = v) (h2 : a.dst dir = y) (hx : evalArc G depth dir id (st.dist v) = some x) :
    PInv G depth s dep preset (improve (st.dist v + x) y (v, id) st) ∧
      Tr G depth s (improve (st.dist v + x) y (v, id) st).dist (improve (st.dist v + x) y (v, id) st).par v ∧ (improve (st.dist v + x) y (v, id) st).dist v = st.dist v := by
  have hx0 := eval_nonneg hG hE ha hx
  have hlow := hv.low hG hE
  have hne : v ≠ y := by
    have := (hG.arc dir a (List.mem_of_getElem? ha)).1
    rw [← h1, ← h2]
    cases dir <;> simp only [Arc.src', Arc.dst, if_true, Bool.false_eq_true, if_false] <;> omega
  rcases improve_cases (st.dist v + x) y (v, id) st with ⟨e1, e2⟩ | ⟨_, e2⟩ | ⟨_, e2, k, e3, _⟩
  · rw [e2]
    have hys : y ≠ s := fun e => by rw [e] at e1; linarith
    have hy : Tr G depth s (fupd st.dist y (st.dist v + x)) (fupd st.par y (v, id)) y := by
      refine .step hys (by rw [fupd_same]) ha h1 h2 (by rw [fupd_of_ne _ _ hne]; exact hx) ?_ (hv.near hG hE (by linarith))
      rw [fupd_of_ne _ _ hne, fupd_same]
    have hall := fun z (hz : Tr G depth s st.dist st.par z) => Tr.set hG hE hF e1 hy hz
    refine ⟨⟨?_, ?_, ?_⟩, hall v hv, fupd_of_ne _ _ hne⟩
    · simp only [fupd_of_ne _ _ (Ne.symm hys)]; exact h.here
    · intro z k hk
      rcases mem_qset.1 hk with ⟨e, _⟩ | ⟨e, _⟩
      · subst e; exact hy
      · exact hall z (h.queue z k e)
    · intro z hz
      by_cases e : z = y
      · subst e; exact hy
      · simp only [fupd_of_ne _ _ e] at hz
        exact hall z (h.tree z hz)
  · rw [e2]; exact ⟨h, hv, rfl⟩
  · rw [e2]
    refine ⟨⟨h.here, ?_, h.tree⟩, hv, rfl⟩
    intro z k' hk
    rcases mem_qset.1 hk with ⟨e, _⟩ | ⟨e, _⟩
    · subst e; exact h.queue _ _ e3
    · exact h.queue z k' e

theorem fold_par (hG : BoundsOK G R) (hE : EvalOK G R depth) (hF : ArcsFifo G depth) (hbw : LabelArcs G bw) (he : 0 ≤ eps) {rel : Nat → Bool} {v : Nat} {d : Rat} :
    ∀ (L : List Item) (st : Search), PInv G depth s dep preset st → Tr G depth s st.dist st.par v → st.dist v = d → (∀ i ∈ L, ItemOK G eps depth bw bmask rel v d i) →
    PInv G depth s dep preset (L.foldl (relaxStep eps latest d) st) := by
  intro L
  induction L with
  | nil => intro st h _ _ _; exact h
  | cons i L ih =>
    intro st h hv hd hL
    rw [List.foldl_cons]
    have hstep : PInv G depth s dep preset (relaxStep eps latest d st i) ∧ Tr G depth s (relaxStep eps latest d st i).dist (relaxStep eps latest d st i).par v ∧
        (relaxStep eps latest d st i).dist v = d := by
      rcases relaxStep_cases eps latest d he st i with ⟨_, e⟩ | e
      · rw [e]; exact ⟨h, hv, hd⟩
      · rw [e]
        subst hd
        obtain ⟨dir, id, hr, hx, hp⟩ := (hL i (by simp)).rel
        rw [hp]
        obtain ⟨y, lo, val, pr⟩ := i
        simp only at hr hx hp ⊢
        cases hr with
        | @up _ a h1 h2 h3 => exact improve_par hG hE hF h hv (dir := true) h1 h2 rfl hx
        | @down l a h1 h2 h3 =>
          obtain ⟨a', h9, h10, h11⟩ := hbw v l (mem_kept.1 h2).1
          exact improve_par hG hE hF h hv (dir := false) h9 h11 h10 hx
    obtain ⟨h1, h2, h3⟩ := hstep
    exact ih _ h1 h2 h3 (fun j hj => hL j (by simp [hj]))

theorem search_par (hG : BoundsOK G R) (hE : EvalOK G R depth) (hF : ArcsFifo G depth) (hbw : LabelArcs G bw) (he : 0 ≤ eps) : ∀ (fuel : Nat) (st r : Search),
    PInv G depth s dep preset st → search false eps latest G depth bw bmask t fuel st = some r → PInv G depth s dep preset r := by
  intro fuel
  induction fuel with
  | zero => intro st r _ h; simp [search] at h
  | succ fuel ih =>
    intro st r hP h
    rw [search] at h
    cases hl : least st.queue with
    | none => simp only [hl, Option.some.injEq] at h; subst h; exact hP
    | some p =>
      obtain ⟨v, k⟩ := p
      obtain ⟨l3, l4⟩ := (least_spec st.queue).2 _ hl
      have hP0 : PInv G depth s dep preset { st with queue := qdel st.queue v } := ⟨hP.here, fun x k' h => hP.queue x k' (mem_qdel.1 h).1, hP.tree⟩
      simp only [hl] at h
      split at h
      · injection h with h; subst h; exact hP0
      · obtain ⟨items, p1, p2, p3⟩ := popped_items (eps := eps) (latest := latest) (bmask := bmask) hE hbw v { st with queue := qdel st.queue v } rfl
        simp only [p1, Option.bind_eq_bind, Option.bind_some] at h
        exact ih _ r (fold_par hG hE hF hbw he items _ hP0 (hP.queue v k l3) rfl p2) h

/-- After a query: the distances, and the way back from the target. -/
theorem distance_par (hR : NoOvertaking R) (hG : BoundsOK G R) (hE : EvalOK G R depth) (hF : ArcsFifo G depth) (he : 0 < eps) (hs : s < G.n) (ht : t < G.n) (hd : 0 ≤ dep) (hI : dep < INF)
    {S S' : Server} (hf : LeftOK G S.fo S.fw) (hb : LeftOK G S.bo S.bw) {fuel : Nat} {d : Option Rat} (h : distance false eps G depth fuel S s t dep = some (d, S')) :
    S'.fo = some s ∧ S'.bo = some t ∧ S'.dist s = dep ∧ (∀ x, d = some x → S'.dist t = dep + x) ∧
      ∀ Y, EarliestTrip R s dep t Y → Y + eps < INF → d = some (Y - dep) → Tr G depth s S'.dist S'.par t := by
  have hst : togo G.n (some s) + togo G.n (some t) < 2 * G.n + 1 := by simp only [togo]; omega
  obtain ⟨c, c1, c2, c3, c4⟩ := corridor_spec hG (promise0 (G := G) (s := s) (t := t) hR hd hI) (le_of_lt he) hd (2 * G.n + 1) (start G S s t dep)
    (start_inv hG hf hb hI) (by intro w hw; injection hw with hw; omega) (by intro w hw; injection hw with hw; omega) hst
  unfold distance at h
  simp only [c1, Option.bind_eq_bind, Option.bind_some, Option.bind_eq_some_iff] at h
  obtain ⟨r, h1, h⟩ := h
  injection h with h
  obtain ⟨h2, rfl⟩ := Prod.mk.inj h
  have hP := search_par (s := s) (dep := dep) (preset := c.dist) hG hE hF (labelArcs c2) (le_of_lt he) fuel _ r ⟨c2.dist.here, by
    intro x k hk
    simp only [List.mem_singleton, Prod.mk.injEq] at hk
    rw [hk.1]; exact .src, fun x hx => absurd rfl hx⟩ h1
  have hdt : ∀ x, d = some x → r.dist t = dep + x := by
    intro x hx
    rw [hx] at h2
    split at h2
    · injection h2 with h2; linarith
    · exact (nomatch h2)
  refine ⟨rfl, rfl, hP.here, hdt, ?_⟩
  intro Y hY hYI hdY
  by_cases hts : t = s
  · rw [hts]; exact .src
  refine hP.tree t ?_
  intro e
  have hYe := hdt _ hdY
  rw [e] at hYe
  obtain ⟨c', d1, d2, d3, d4⟩ := corridor_spec hG (promise (G := G) hR hd hY hYI (le_of_lt he)) (le_of_lt he) hd (2 * G.n + 1) (start G S s t dep)
    (start_inv hG hf hb hI) (by intro w hw; injection hw with hw; omega) (by intro w hw; injection hw with hw; omega) hst
  rw [c1] at d1; injection d1 with d1; subst d1
  rcases d2.dist.preset t hts with h | ⟨u, h1, h2⟩
  · linarith
  · have := (promise (G := G) hR hd hY hYI (le_of_lt he)).uw _ h1
    linarith

/-! ## The path -/

theorem rides_itinerary {heads : List Nat} {D Y : Rat} {tail : List (Nat × Rat)} : ∀ (es : List (Nat × Rat)) {u v : Nat} {τ y : Rat}, Rides R heads u τ es v y → y ≤ D →
    (∀ a, a ≤ D → ∃ z, z ≤ Y ∧ Itinerary R v a ((v, a) :: tail) t z) →
    ∃ steps, es.mapM (fun e => (heads[e.1]?).map (fun h => (h, e.2))) = some steps ∧ ∀ a, a ≤ τ → ∃ z, z ≤ Y ∧ Itinerary R u a ((u, a) :: (steps ++ tail)) t z
  | [], u, v, τ, y, ⟨h1, h2⟩, hy, hv => by
    subst h1; subst h2
    exact ⟨[], rfl, fun a ha => hv a (le_trans ha hy)⟩
  | e :: es, u, v, τ, y, ⟨w, h1, h2, h3⟩, hy, hv => by
    obtain ⟨steps, s1, s2⟩ := rides_itinerary es h3 hy hv
    refine ⟨(w, e.2) :: steps, by simp [List.mapM_cons, h1, s1], ?_⟩
    intro a ha
    obtain ⟨z, z1, z2⟩ := s2 e.2 (le_refl _)
    exact ⟨z, z1, .step ha h2 z2⟩

theorem pathLoop_ok (hG : BoundsOK G R) {heads : List Nat} (hU : UnpackOK G R heads depth) {S : Server} {Y : Rat} {x : Nat} (h : Tr G depth s S.dist S.par x) :
    ∀ {tail : List (Nat × Rat)}, (∀ a, a ≤ S.dist x → ∃ z, z ≤ Y ∧ Itinerary R x a ((x, a) :: tail) t z) →
      ∃ k P z, (∀ fuel, k ≤ fuel → pathLoop G depth heads S s fuel ((x, S.dist x) :: tail) = some P) ∧ z ≤ Y ∧ Itinerary R s (S.dist s) P t z := by
  induction h with
  | src =>
    intro tail hJ
    obtain ⟨z, z1, z2⟩ := hJ _ (le_refl _)
    refine ⟨1, _, z, ?_, z1, z2⟩
    intro fuel hf
    obtain ⟨f, rfl⟩ : ∃ f, fuel = f + 1 := ⟨fuel - 1, by omega⟩
    rw [pathLoop, if_pos rfl]
  | @step x q id dir a v h0 h1 h2 h3 h4 h5 h6 _ ih =>
    intro tail hJ
    obtain ⟨es, y, u1, u2, u3⟩ := hU dir id a h2 _ v h5
    rw [h3, h4] at u3
    obtain ⟨steps, s1, s2⟩ := rides_itinerary es u3 (le_trans u2 h6) hJ
    obtain ⟨k, P, z, k1, k2, k3⟩ := ih s2
    have hn := hG.arc_n (dir := dir) (List.mem_of_getElem? h2)
    have hlt := (hG.arc dir a (List.mem_of_getElem? h2)).1
    have hq : q < G.n ∧ x < G.n ∧ (!decide (x < q)) = dir := by
      rw [← h3, ← h4]
      cases dir
      · simp only [Arc.src', Arc.dst, if_true, Bool.false_eq_true, if_false, hlt, decide_true, Bool.not_true, and_true]; omega
      · simp only [Arc.src', Arc.dst, if_true, Bool.not_eq_true', decide_eq_false_iff_not]; omega
    refine ⟨k + 1, P, z, ?_, k2, k3⟩
    intro fuel hf
    obtain ⟨f, rfl⟩ : ∃ f, fuel = f + 1 := ⟨fuel - 1, by omega⟩
    rw [pathLoop, if_neg h0, if_pos hq.2.1]
    simp only [h1, hq.1, if_true, hq.2.2, u1, s1, Option.bind_eq_bind, Option.bind_some]
    exact k1 f (by omega)

/-- One can follow an itinerary. -/
theorem Itinerary.trip (hR : NoOvertaking R) {u v : Nat} {a y : Rat} {l : List (Nat × Rat)} (h : Itinerary R u a l v y) : ∃ z, z ≤ y ∧ Trip R u a v z := by
  induction h with
  | last => exact ⟨_, le_refl _, .here _ _⟩
  | step h1 h2 _ ih =>
    obtain ⟨z, z1, z2⟩ := ih
    obtain ⟨z', e1, e2⟩ := (Trip.there h2 z2).earlier hR _ h1
    exact ⟨z', le_trans e1 z1, e2⟩

end
end Verif.Catchup
