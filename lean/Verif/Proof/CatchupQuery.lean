import Verif.Proof.CatchupAStar
set_option linter.unusedSimpArgs false
set_option linter.unusedVariables false
/- The whole CATCHUp query: clean up, corridor, masks, search. -/
namespace Verif.Catchup
open Fl Spec

section
variable {G : Graph} {R : Network} {depth s t : Nat} {dep eps : Rat}

theorem cleanUp_all {par : Nat → Option Nat} {n : Nat} (hp : ∀ v w, par v = some w → v < w ∧ w < n) : ∀ (fuel v : Nat) (d : Nodes), v < n → n - v ≤ fuel →
    (∀ x, ¬ AncS par v x → d x = .none) → ∀ x, cleanUp par fuel (some v) d x = .none := by
  intro fuel
  induction fuel with
  | zero => intro v d h1 h2; omega
  | succ fuel ih =>
    intro v d h1 h2 h3 x
    rw [cleanUp]
    cases hw : par v with
    | none =>
      have : fupd d v NData.none x = .none := by
        unfold fupd; split
        · rfl
        · next e =>
          apply h3
          intro h
          rcases h.head with h4 | ⟨p, h4, _⟩
          · exact e h4
          · rw [hw] at h4; simp at h4
      cases fuel <;> simpa [cleanUp] using this
    | some w =>
      have := hp v w hw
      refine ih w _ this.2 (by omega) ?_ x
      intro z hz
      unfold fupd; split
      · rfl
      · next e =>
        apply h3
        intro h
        rcases h.head with h4 | ⟨p, h4, h5⟩
        · exact e h4
        · rw [hw] at h4; injection h4 with h4; subst h4; exact hz h5

/-- what is left of earlier queries in a direction -/
def LeftOK (G : Graph) (o : Option Nat) (d : Nodes) : Prop := (∀ v, o = some v → v < G.n) ∧ ∀ x, (∀ v, o = some v → ¬ AncS G.parent v x) → d x = .none

theorem initQuery_eq (hG : BoundsOK G R) {o : Option Nat} {d : Nodes} (h : LeftOK G o d) (v : Nat) : initQuery G o d v = fupd (fun _ => .none) v ⟨[], 0, 0⟩ := by
  have hc : cleanUp G.parent G.n o d = fun _ => .none := by
    funext x
    cases o with
    | none =>
      have := h.2 x (by simp)
      cases G.n <;> simpa [cleanUp] using this
    | some w =>
      exact cleanUp_all hG.par_lt G.n w d (h.1 w rfl) (by omega) (fun x hx => h.2 x (fun v hv => by injection hv with hv; subst hv; exact hx)) x
  unfold initQuery
  rw [hc]
  rfl

theorem inf_pos : (0 : Rat) ≤ INF := by unfold INF; norm_num

theorem DInv.init {as : List Arc} {U ok : Nat → Rat → Prop} (hT : TreeOK G.parent as) (hU : U v 0) (hU2 : ∀ x, U x INF) :
    DInv G.parent as U ok v (some v) [] (fupd (fun _ => NData.none) v ⟨[], 0, 0⟩) := by
  have hlab : ∀ x, (fupd (fun _ => NData.none) v ⟨[], 0, 0⟩ x).labels = [] := by
    intro x; unfold fupd; split <;> rfl
  have hge : ∀ x w, Opt as ok v x w → v ≤ x := by
    intro x w h
    induction h with
    | base => exact Nat.le_refl _
    | step _ h1 h2 _ _ ih => have := hT.arc_lt _ (List.mem_of_getElem? h1); omega
  refine ⟨?_, ?_, ?_, List.Pairwise.nil, by simp, by simp, ?_, ?_, ?_, ?_⟩
  · intro x; unfold fupd; split
    · next e => subst e; exact hU
    · exact hU2 x
  · intro x; unfold fupd; split
    · exact ⟨le_refl _, le_refl _⟩
    · exact ⟨inf_pos, inf_pos⟩
  · intro x l hl; rw [hlab] at hl; simp at hl
  · intro x w h hb
    have := hb v rfl
    have := hge x w h; omega
  · intro x w id a w' h _ _ _ _ hb
    have := hb v rfl
    have := hge x w h; omega
  · intro x hx
    exact fupd_of_ne _ _ (fun e => hx (e ▸ .refl))
  · intro w hw; injection hw with hw; subst hw; exact .refl

theorem start_inv (hG : BoundsOK G R) {S : Server} (hf : LeftOK G S.fo S.fw) (hb : LeftOK G S.bo S.bw) (hd : dep < INF) {okf okb : Nat → Rat → Prop} {V : Rat} :
    CInv G R okf okb s t dep eps V (start G S s t dep) := by
  unfold start
  rw [initQuery_eq hG hf, initQuery_eq hG hb]
  refine ⟨?_, ?_, .inl (le_refl _), ?_, ⟨by simp, ?_, ?_⟩⟩
  · exact DInv.init (hG.tree true) (.inr ⟨dep, by simp, .here _ _⟩) (fun x => .inl (le_refl _))
  · exact DInv.init (hG.tree false) (.inr fun τ => ⟨τ, by simp, .here _ _⟩) (fun x => .inl (le_refl _))
  · intro m v w h1 _ _ hbl
    exfalso
    have hge : ∀ x w, Opt G.outgoing okf s x w → s ≤ x := by
      intro x w h
      induction h with
      | base => exact Nat.le_refl _
      | step _ h1 h2 _ _ ih => have := (hG.tree true).arc_lt _ (List.mem_of_getElem? h1); omega
    have := hge m v h1
    have := hbl s rfl
    omega
  · intro x hx; left; simp only [fupd_of_ne _ _ hx]; exact le_refl _
  · intro x hx
    simp only [fupd] at hx ⊢
    split at hx
    · next e => subst e; simp only [if_true]; exact ⟨dep, le_refl _, .here _ _⟩
    · exact absurd hx (lt_irrefl _)

/-- The trivial promise. -/
theorem promise0 (hR : NoOvertaking R) (hd : 0 ≤ dep) (hI : dep < INF) : Promise G R (fun _ _ => False) (fun _ _ => False) s t dep 0 := by
  refine ⟨fun _ _ _ h => h.elim, fun _ _ _ h => h.elim, ?_, ?_, ?_⟩
  · intro x v h
    cases h with
    | base => exact le_refl _
    | step _ _ _ _ h => exact h.elim
  · intro x v h
    cases h with
    | base => exact le_refl _
    | step _ _ _ _ h => exact h.elim
  · intro u h
    rcases h with h | ⟨y, h1, h2⟩
    · exact le_trans inf_pos h
    · have := h2.forward hR; linarith

theorem lbt_pos (hG : BoundsOK G R) {okf okb : Nat → Rat → Prop} {V : Rat} {c : Corr} (h : CInv G R okf okb s t dep eps V c) : ∀ x, 0 ≤ (masks eps c).2.lbt x := by
  have hT := hG.tree true
  have hTb := hG.tree false
  have B := backMasks_spec (eps := eps) (fun x l hl => (h.bw.label hTb hl).1) (fun x => (h.bw.pos x).1) c.bpath
    (setAll c.bmask (meetings eps c), fun _ => INF) h.bw.sorted
  have F := foreMasks_spec (eps := eps) (fun x l hl => h.fw.label hT hl) c.fpath
    ⟨setAll c.fmask (meetings eps c), (backMasks eps c.bw c.bpath (setAll c.bmask (meetings eps c), fun _ => INF)).2, fun _ => false⟩ h.fw.sorted
  apply F.pos
  simp only
  apply B.pos
  intro x; exact inf_pos

theorem labelArcs {okf okb : Nat → Rat → Prop} {V : Rat} {c : Corr} (h : CInv G R okf okb s t dep eps V c) : LabelArcs G c.bw := by
  intro x l hl
  obtain ⟨a, h1, h2, h3, _⟩ := h.bw.lab x l hl
  exact ⟨a, h1, h2, h3⟩

theorem leftOK {as : List Arc} {U ok : Nat → Rat → Prop} {o : Nat} {f : Option Nat} {path : List Nat} {d : Nodes} (h : DInv G.parent as U ok o f path d) (ho : o < G.n) :
    LeftOK G (some o) d :=
  ⟨fun v hv => by injection hv with hv; subst hv; exact ho, fun x hx => h.clean x (hx o rfl)⟩

theorem tinv {par : Nat → Nat × Nat} (hG : BoundsOK G R) (hs : s < G.n) {okf okb : Nat → Rat → Prop} {V : Rat} {c : Corr} (h : CInv G R okf okb s t dep eps V c) :
    TInv G R depth s dep ⟨c.dist, (masks eps c).2.lbt, (masks eps c).2.rel, [(s, dep + c.tl)], par⟩ := by
  refine ⟨h.dist.sound, ?_, ?_, lbt_pos hG h, ?_⟩
  · intro x k k' h1 h2
    simp only [List.mem_singleton, Prod.mk.injEq] at h1 h2
    rw [h1.2, h2.2]
  · intro x k h1 h2
    simp only [List.mem_singleton, Prod.mk.injEq] at h1
    exact absurd h1.1 h2
  · intro x k h1
    simp only [List.mem_singleton, Prod.mk.injEq] at h1
    obtain ⟨rfl, _⟩ := h1
    refine ⟨[x], by simp, by simp, ?_, ?_⟩
    · intro z hz
      simp only [List.mem_singleton] at hz
      subst hz
      exact ⟨hs, le_refl _⟩
    · simp [vals, h.dist.here]

theorem work_start (st : Search) (hq : st.queue.length = 1) : work G depth s dep st < enough G := by
  unfold work enough
  have := List.countP_le_length (l := vals G depth s dep G.n) (p := fun p => decide (p.2 < st.dist p.1))
  rw [vals_length] at this
  omega

/-- Everything about one query. -/
theorem distance_spec (hR : NoOvertaking R) (hG : BoundsOK G R) (hE : EvalOK G R depth) (he : 0 < eps) (hs : s < G.n) (ht : t < G.n) (hd : 0 ≤ dep) (hI : dep < INF)
    {S : Server} (hf : LeftOK G S.fo S.fw) (hb : LeftOK G S.bo S.bw) {fuel : Nat} (hfu : enough G ≤ fuel) :
    ∃ d S', distance false eps G depth fuel S s t dep = some (d, S') ∧ (∀ x, d = some x → ∃ y, y ≤ dep + x ∧ Trip R s dep t y) ∧
      ∀ Y, Serves (G.net depth true) (G.net depth false) R INF → EarliestTrip R s dep t Y → Y + eps < INF → d = some (Y - dep) := by
  have hst : togo G.n (some s) + togo G.n (some t) < 2 * G.n + 1 := by simp only [togo]; omega
  obtain ⟨c, c1, c2, c3, c4⟩ := corridor_spec hG (promise0 (G := G) (s := s) (t := t) hR hd hI) (le_of_lt he) hd (2 * G.n + 1) (start G S s t dep)
    (start_inv hG hf hb hI) (by intro w hw; injection hw with hw; omega) (by intro w hw; injection hw with hw; omega) hst
  obtain ⟨r, r1, r2, r3⟩ := search_spec (latest := dep + c.tu) (bmask := (masks eps c).1) (t := t) (eps := eps) hR hG hE (labelArcs c2) (le_of_lt he) (masks eps c).2.lbt fuel _ (tinv (par := S.par) hG hs c2) rfl rfl
    (lt_of_lt_of_le (work_start _ rfl) hfu)
  refine ⟨if r.dist t < INF then some (r.dist t - dep) else none, ⟨c.fw, c.bw, some s, some t, (masks eps c).2.mask, (masks eps c).1, r.dist, r.par⟩, ?_, ?_, ?_⟩
  · unfold distance
    simp only [c1, Option.bind_eq_bind, Option.bind_some]
    rw [r1]; rfl
  · intro x hx
    split at hx
    · next h =>
      injection hx with hx; subst hx
      obtain ⟨a, h1, h2⟩ := r2 t h
      exact ⟨a, by linarith, h2⟩
    · simp at hx
  · intro Y hS hY hYI
    obtain ⟨c', d1, d2, d3, d4⟩ := corridor_spec hG (promise (G := G) hR hd hY hYI (le_of_lt he)) (le_of_lt he) hd (2 * G.n + 1) (start G S s t dep)
      (start_inv hG hf hb hI) (by intro w hw; injection hw with hw; omega) (by intro w hw; injection hw with hw; omega) hst
    rw [c1] at d1; injection d1 with d1; subst d1
    have hP := path_ok (depth := depth) hR hG hE hd hY hYI (le_of_lt he) d2 d3 d4
    have hU := rest_exists hR (hS s dep t Y hd (by linarith) hY)
    have huw := (promise (G := G) hR hd hY hYI (le_of_lt he)).uw _ d2.tu
    have hle := hU.le hG hE
    have htl : c.tl ≤ Y - dep := by
      have : ∀ x a, UpRest (G.net depth true) (G.net depth false) R s dep t Y x a → c.tl ≤ Y - dep := by
        intro x a h
        induction h with
        | top h1 h2 =>
          have := (d2.meet _ _ _ (UpTight.opt (Y := Y) hG hE h1 (h2.le hG hE)) (DnRest.opt hE h2) (by linarith) (fun w hw => by rw [d3] at hw; simp at hw)).1
          linarith
        | step _ _ _ _ ih => exact ih
      exact this _ _ hU
    have hK : KInv G eps depth c.bw (masks eps c).1 (masks eps c).2.rel (dep + c.tu) s dep Y ⟨c.dist, (masks eps c).2.lbt, (masks eps c).2.rel, [(s, dep + c.tl)], S.par⟩ := by
      refine ⟨le_of_eq d2.dist.here, ?_⟩
      intro x hx
      simp only at hx
      by_cases e : x = s
      · subst e
        exact .inl ⟨dep + c.tl, List.mem_singleton.2 rfl, .inr (by linarith)⟩
      · exfalso
        rcases d2.dist.preset x e with h | ⟨u, h1, h2⟩
        · linarith
        · have := (promise (G := G) hR hd hY hYI (le_of_lt he)).uw _ h1
          linarith
    have hfin := r3 Y c (masks eps c).2 (by linarith) (by linarith) rfl rfl rfl hP hU hK
    have hlt : r.dist t < INF := by linarith
    obtain ⟨a, h1, h2⟩ := r2 t hlt
    have := hY.2 a h2
    rw [if_pos hlt]
    congr 1
    linarith

/-- What a query leaves behind, lazy or not. -/
theorem distance_left (hR : NoOvertaking R) (hG : BoundsOK G R) (he : 0 ≤ eps) (hs : s < G.n) (ht : t < G.n) (hd : 0 ≤ dep) (hI : dep < INF)
    {S S' : Server} (hf : LeftOK G S.fo S.fw) (hb : LeftOK G S.bo S.bw) {lzy : Bool} {fuel : Nat} {d : Option Rat} (h : distance lzy eps G depth fuel S s t dep = some (d, S')) :
    LeftOK G S'.fo S'.fw ∧ LeftOK G S'.bo S'.bw := by
  have hst : togo G.n (some s) + togo G.n (some t) < 2 * G.n + 1 := by simp only [togo]; omega
  obtain ⟨c, c1, c2, c3, c4⟩ := corridor_spec hG (promise0 (G := G) (s := s) (t := t) hR hd hI) he hd (2 * G.n + 1) (start G S s t dep)
    (start_inv hG hf hb hI) (by intro w hw; injection hw with hw; omega) (by intro w hw; injection hw with hw; omega) hst
  unfold distance at h
  simp only [c1, Option.bind_eq_bind, Option.bind_some, Option.bind_eq_some_iff] at h
  obtain ⟨r, _, h⟩ := h
  injection h with h
  obtain ⟨rfl, rfl⟩ := Prod.mk.inj h
  exact ⟨leftOK c2.fw hs, leftOK c2.bw ht⟩

theorem used_left (hR : NoOvertaking R) (hG : BoundsOK G R) (he : 0 ≤ eps) {S : Server} (h : Used G eps S) : LeftOK G S.fo S.fw ∧ LeftOK G S.bo S.bw := by
  induction h with
  | new => exact ⟨⟨by simp [Server.new], fun _ _ => rfl⟩, ⟨by simp [Server.new], fun _ _ => rfl⟩⟩
  | query _ hs ht hd hI h ih => exact distance_left hR hG he hs ht hd hI ih.1 ih.2 h

end
end Verif.Catchup
