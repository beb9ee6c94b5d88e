import Verif.Proof.CatchupTree
set_option linter.unusedSimpArgs false
set_option linter.unusedVariables false
/- The corridor query of CATCHUp: both directions, tentative distance, meeting nodes. -/
namespace Verif.Catchup
open Fl Spec

theorem _root_.Verif.Spec.Trip.append {R : Network} {u v w : Nat} {τ y z : Rat} (h : Trip R u τ v y) (h2 : Trip R v y w z) : Trip R u τ w z := by
  induction h with
  | here => exact h2
  | there h _ ih => exact .there h (ih h2)

theorem _root_.Verif.Spec.Trip.forward {R : Network} (hR : NoOvertaking R) {u v : Nat} {τ y : Rat} (h : Trip R u τ v y) : τ ≤ y := by
  induction h with
  | here => exact le_refl _
  | there h _ ih => exact le_trans (hR.forward _ _ _ _ h) ih

theorem _root_.Verif.Spec.Trip.earlier {R : Network} (hR : NoOvertaking R) {u v : Nat} {τ y : Rat} (h : Trip R u τ v y) : ∀ τ', τ' ≤ τ → ∃ y', y' ≤ y ∧ Trip R u τ' v y' := by
  induction h with
  | here => intro τ' h; exact ⟨τ', h, .here _ _⟩
  | there h _ ih =>
    intro τ' hl
    obtain ⟨y', h1, h2⟩ := hR.fifo _ _ _ _ _ h hl
    obtain ⟨z', h3, h4⟩ := ih y' h1
    exact ⟨z', h3, .there h2 h4⟩

theorem BoundsOK.tree {G : Graph} {R : Network} (h : BoundsOK G R) (dir : Bool) : TreeOK G.parent (G.arcs dir) :=
  ⟨fun v w hv => (h.par_lt v w hv).1, fun a ha => (h.arc dir a ha).1, fun a ha => (h.arc dir a ha).2.1, fun a ha => (h.arc dir a ha).2.2.1,
    fun a ha => (h.arc dir a ha).2.2.2.1⟩

/-- valid upper bounds for travel times from the source, to the target, and from source to target -/
def UF (R : Network) (s : Nat) (dep : Rat) (x : Nat) (u : Rat) : Prop := INF ≤ u ∨ ∃ a, a ≤ dep + u ∧ Trip R s dep x a
def UB (R : Network) (t : Nat) (x : Nat) (u : Rat) : Prop := INF ≤ u ∨ ∀ τ, ∃ y, y ≤ τ + u ∧ Trip R x τ t y
def UW (R : Network) (s : Nat) (dep : Rat) (t : Nat) (u : Rat) : Prop := INF ≤ u ∨ ∃ y, y ≤ dep + u ∧ Trip R s dep t y

section
variable {G : Graph} {R : Network} {s t : Nat} {dep : Rat}

theorem UF.ok (h : BoundsOK G R) {ok : Nat → Rat → Prop} (hle : ∀ x u v, ok x v → UF R s dep x u → v ≤ u) : UOK G.outgoing (UF R s dep) ok := by
  refine ⟨?_, ?_, hle⟩
  · intro x u u' h1 h2
    rcases h1 with h1 | ⟨a, h1, h3⟩
    · exact .inl (le_trans h1 h2)
    · exact .inr ⟨a, by linarith, h3⟩
  · intro a ha u hu h1
    obtain ⟨_, _, _, h5, h6⟩ := h.arc true a ha
    rcases h1 with h1 | ⟨y, h1, h3⟩
    · exact .inl (by linarith)
    · by_cases hI : INF ≤ a.up
      · exact .inl (by linarith)
      obtain ⟨z, h7, h8⟩ := h6 (not_le.1 hI) y
      exact .inr ⟨z, by linarith, h3.append h8⟩

theorem UB.ok (h : BoundsOK G R) {ok : Nat → Rat → Prop} (hle : ∀ x u v, ok x v → UB R t x u → v ≤ u) : UOK G.incoming (UB R t) ok := by
  refine ⟨?_, ?_, hle⟩
  · intro x u u' h1 h2
    rcases h1 with h1 | h1
    · exact .inl (le_trans h1 h2)
    · exact .inr (fun τ => by obtain ⟨y, h3, h4⟩ := h1 τ; exact ⟨y, by linarith, h4⟩)
  · intro a ha u hu h1
    obtain ⟨_, _, _, h5, h6⟩ := h.arc false a ha
    rcases h1 with h1 | h1
    · exact .inl (by linarith)
    · by_cases hI : INF ≤ a.up
      · exact .inl (by linarith)
      refine .inr (fun τ => ?_)
      obtain ⟨y, h7, h8⟩ := h6 (not_le.1 hI) τ
      obtain ⟨z, h9, h10⟩ := h1 y
      exact ⟨z, by linarith, h8.append h10⟩

theorem UW.of {x : Nat} {u u' : Rat} (hu : 0 ≤ u) (hu' : 0 ≤ u') (h : UF R s dep x u) (h2 : UB R t x u') : UW R s dep t (u + u') := by
  rcases h with h | ⟨a, h3, h4⟩
  · exact .inl (by linarith)
  · rcases h2 with h2 | h2
    · exact .inl (by linarith)
    · obtain ⟨y, h5, h6⟩ := h2 a
      exact .inr ⟨y, by linarith, h4.append h6⟩

theorem UW.min {u u' : Rat} (h : UW R s dep t u) (h2 : UW R s dep t u') : UW R s dep t (min u u') := by
  rcases le_total u u' with h3 | h3
  · rw [min_eq_left h3]; exact h
  · rw [min_eq_right h3]; exact h2

/-- what is known of the distances before the search -/
structure DistOK (R : Network) (s t : Nat) (dep eps : Rat) (dist : Nat → Rat) : Prop where
  here : dist s = dep
  preset : ∀ x, x ≠ s → INF ≤ dist x ∨ ∃ u, UW R s dep t u ∧ dep + u + eps ≤ dist x
  sound : ∀ x, dist x < INF → ∃ a, a ≤ dist x ∧ Trip R s dep x a

/-- the invariant of the corridor query; `V` is a lower bound for all travel times from source to target -/
structure CInv (G : Graph) (R : Network) (okf okb : Nat → Rat → Prop) (s t : Nat) (dep eps V : Rat) (c : Corr) : Prop where
  fw : DInv G.parent G.outgoing (UF R s dep) okf s c.nf c.fpath c.fw
  bw : DInv G.parent G.incoming (UB R t) okb t c.nb c.bpath c.bw
  tu : UW R s dep t c.tu
  meet : ∀ m v w, Opt G.outgoing okf s m v → Opt G.incoming okb t m w → v + w ≤ V → Below c.nf m → c.tl ≤ v + w ∧ ∃ l, l ≤ v + w ∧ (m, l) ∈ c.meet
  dist : DistOK R s t dep eps c.dist

/-- what the promising paths promise -/
structure Promise (G : Graph) (R : Network) (okf okb : Nat → Rat → Prop) (s t : Nat) (dep V : Rat) : Prop where
  uf : ∀ x u v, okf x v → UF R s dep x u → v ≤ u
  ub : ∀ x u v, okb x v → UB R t x u → v ≤ u
  lef : ∀ x v, Opt G.outgoing okf s x v → v ≤ V
  leb : ∀ x v, Opt G.incoming okb t x v → v ≤ V
  uw : ∀ u, UW R s dep t u → V ≤ u

variable {okf okb : Nat → Rat → Prop} {eps V : Rat}

theorem meetAt_inv (hG : BoundsOK G R) (hP : Promise G R okf okb s t dep V) {v : Nat} {c : Corr} (he : 0 ≤ eps)
    (h : CInv G R okf okb s t dep eps V { c with nf := c.nf })
    : CInv G R okf okb s t dep eps V (meetAt eps v c) := by
  unfold meetAt
  simp only
  split
  · exact h
  · refine ⟨h.fw, h.bw, ?_, ?_, h.dist⟩
    · exact UW.min h.tu (UW.of (h.fw.pos v).2 (h.bw.pos v).2 (h.fw.upper v) (h.bw.upper v))
    · intro m a b ha hb hl hbl
      obtain ⟨h1, l, h2, h3⟩ := h.meet m a b ha hb hl hbl
      exact ⟨le_trans (min_le_left _ _) h1, l, h2, by simp [h3]⟩

theorem stepForward_inv (hG : BoundsOK G R) (hP : Promise G R okf okb s t dep V) (he : 0 ≤ eps) (hd : 0 ≤ dep) {c : Corr} {w : Nat} (hw : c.nf = some w)
    (hb : ∀ b, c.nb = some b → w ≤ b) (h : CInv G R okf okb s t dep eps V c) : CInv G R okf okb s t dep eps V (stepForward eps dep G w c) := by
  have hT := hG.tree true
  have hTb := hG.tree false
  have hV := hP.uw _ h.tu
  have hf := h.fw
  rw [hw] at hf
  have hlt : ∀ m v, Opt G.outgoing okf s m v → Below (G.parent w) m → Below (some w) m ∨ m = w := by
    intro m v hm hbl
    rcases below_next hT.par_lt (hf.front w rfl) (hm.anc hT) hbl with h1 | h1
    · exact .inl (fun _ e => by injection e with e; omega)
    · exact .inr h1
  unfold stepForward
  simp only
  split
  · next hsk =>
    have hd' := hf.skip hT (fun x v hx => le_trans (hP.lef x v hx) hV) hsk
    refine ⟨hd', h.bw, h.tu, ?_, h.dist⟩
    intro m v v' hm hm' hl hbl
    rcases hlt m v hm hbl with h1 | rfl
    · exact h.meet m v v' hm hm' hl (hw ▸ h1)
    · have h1 := hf.low hT hm (fun _ e => by injection e with e; omega)
      have h2 := hP.lef m v hm
      linarith
  · next hsk =>
    obtain ⟨hd', hle⟩ := hf.settle (eps := eps) hT (UF.ok hG hP.uf) he
    have hww := hle w (Nat.le_refl _)
    have hdist : DistOK R s t dep eps (fupd c.dist w (min (c.dist w) (dep + ((c.fw w).upper + (c.bw w).upper) + eps))) := by
      have hu1 := (h.fw.pos w).2
      have hu2 := (h.bw.pos w).2
      refine ⟨?_, ?_, ?_⟩
      · unfold fupd; split
        · next e => subst e; rw [h.dist.here]; exact min_eq_left (by linarith)
        · exact h.dist.here
      · intro x hx
        unfold fupd; split
        · next e =>
          subst e
          rcases le_total (c.dist x) (dep + ((c.fw x).upper + (c.bw x).upper) + eps) with h1 | h1
          · rw [min_eq_left h1]; exact h.dist.preset x hx
          · rw [min_eq_right h1]
            exact .inr ⟨_, UW.of hu1 hu2 (h.fw.upper x) (h.bw.upper x), le_refl _⟩
        · exact h.dist.preset x hx
      · intro x hx
        unfold fupd at hx ⊢; split at hx
        · next e =>
          subst e
          simp only [if_true]
          rcases le_total (c.dist x) (dep + ((c.fw x).upper + (c.bw x).upper) + eps) with h1 | h1
          · rw [min_eq_left h1] at hx ⊢; exact h.dist.sound x hx
          · rw [min_eq_right h1] at hx ⊢
            rcases h.fw.upper x with h2 | ⟨a, h2, h3⟩
            · linarith
            · exact ⟨a, by linarith, h3⟩
        · next e =>
          simp only [e, if_false]
          exact h.dist.sound x hx
    -- the state before the tentative distance is changed, without `w` itself
    unfold meetAt
    simp only [hww]
    have hmeet0 : ∀ m v v', Opt G.outgoing okf s m v → Opt G.incoming okb t m v' → v + v' ≤ V → Below (some w) m →
        c.tl ≤ v + v' ∧ ∃ l, l ≤ v + v' ∧ (m, l) ∈ c.meet := fun m v v' h1 h2 h3 h4 => h.meet m v v' h1 h2 h3 (hw ▸ h4)
    have hsum : ∀ v v', Opt G.outgoing okf s w v → Opt G.incoming okb t w v' → (c.fw w).lower + (c.bw w).lower ≤ v + v' := by
      intro v v' h1 h2
      have h3 := hf.low hT h1 (fun _ e => by injection e with e; omega)
      have h4 := h.bw.low hTb h2 (fun b e => hb b e)
      linarith
    split
    · next hc =>
      rw [flt_iff] at hc
      refine ⟨hd', h.bw, h.tu, ?_, hdist⟩
      intro m v v' hm hm' hl hbl
      rcases hlt m v hm hbl with h1 | rfl
      · exact hmeet0 m v v' hm hm' hl h1
      · have := hsum v v' hm hm'; linarith
    · next hc =>
      refine ⟨hd', h.bw, UW.min h.tu (UW.of (h.fw.pos w).2 (h.bw.pos w).2 (h.fw.upper w) (h.bw.upper w)), ?_, hdist⟩
      intro m v v' hm hm' hl hbl
      rcases hlt m v hm hbl with h1 | rfl
      · obtain ⟨h2, l, h3, h4⟩ := hmeet0 m v v' hm hm' hl h1
        exact ⟨le_trans (min_le_left _ _) h2, l, h3, by simp [h4]⟩
      · have := hsum v v' hm hm'
        exact ⟨le_trans (min_le_right _ _) this, _, this, by simp⟩

theorem stepBackward_inv (hG : BoundsOK G R) (hP : Promise G R okf okb s t dep V) (he : 0 ≤ eps) {c : Corr} {w : Nat} (hw : c.nb = some w)
    (h : CInv G R okf okb s t dep eps V c) : CInv G R okf okb s t dep eps V (stepBackward eps G w c) := by
  have hT := hG.tree false
  have hV := hP.uw _ h.tu
  have hf := h.bw
  rw [hw] at hf
  unfold stepBackward
  simp only
  split
  · next hsk => exact ⟨h.fw, hf.skip hT (fun x v hx => le_trans (hP.leb x v hx) hV) hsk, h.tu, h.meet, h.dist⟩
  · next hsk =>
    obtain ⟨hd', hle⟩ := hf.settle (eps := eps) hT (UB.ok hG hP.ub) he
    refine meetAt_inv hG hP he ⟨h.fw, hd', h.tu, h.meet, h.dist⟩

/-- steps that remain -/
def togo (n : Nat) : Option Nat → Nat
  | none => 0
  | some v => n - v

theorem stepForward_next {c : Corr} {w : Nat} : (stepForward eps dep G w c).nf = G.parent w ∧ (stepForward eps dep G w c).nb = c.nb := by
  unfold stepForward; simp only; split
  · exact ⟨rfl, rfl⟩
  · unfold meetAt; simp only; split <;> exact ⟨rfl, rfl⟩

theorem stepBackward_next {c : Corr} {w : Nat} : (stepBackward eps G w c).nf = c.nf ∧ (stepBackward eps G w c).nb = G.parent w := by
  unfold stepBackward; simp only; split
  · exact ⟨rfl, rfl⟩
  · unfold meetAt; simp only; split <;> exact ⟨rfl, rfl⟩

theorem togo_lt (hG : BoundsOK G R) {w : Nat} (hw : w < G.n) : togo G.n (G.parent w) < togo G.n (some w) ∧ ∀ p, G.parent w = some p → p < G.n := by
  cases hp : G.parent w with
  | none => exact ⟨by simp only [togo]; omega, fun p e => by simp at e⟩
  | some p => have := hG.par_lt _ _ hp; exact ⟨by simp only [togo]; omega, fun q e => by injection e with e; omega⟩

theorem corridor_spec (hG : BoundsOK G R) (hP : Promise G R okf okb s t dep V) (he : 0 ≤ eps) (hd : 0 ≤ dep) : ∀ (fuel : Nat) (c : Corr),
    CInv G R okf okb s t dep eps V c → (∀ w, c.nf = some w → w < G.n) → (∀ w, c.nb = some w → w < G.n) → togo G.n c.nf + togo G.n c.nb < fuel →
    ∃ c', corridor eps dep G fuel c = some c' ∧ CInv G R okf okb s t dep eps V c' ∧ c'.nf = none ∧ c'.nb = none := by
  intro fuel
  induction fuel with
  | zero => intro c _ _ _ h; omega
  | succ fuel ih =>
    intro c h hf hb hfu
    have F : ∀ w, c.nf = some w → (∀ b, c.nb = some b → w ≤ b) →
        ∃ c', corridor eps dep G fuel (stepForward eps dep G w c) = some c' ∧ CInv G R okf okb s t dep eps V c' ∧ c'.nf = none ∧ c'.nb = none := by
      intro w hw hwb
      obtain ⟨h1, h2⟩ := togo_lt hG (hf w hw)
      obtain ⟨h3, h4⟩ := stepForward_next (eps := eps) (dep := dep) (G := G) (c := c) (w := w)
      apply ih _ (stepForward_inv hG hP he hd hw hwb h)
      · rw [h3]; exact h2
      · rw [h4]; exact hb
      · rw [h3, h4]; rw [hw] at hfu; omega
    have B : ∀ w, c.nb = some w → ∃ c', corridor eps dep G fuel (stepBackward eps G w c) = some c' ∧ CInv G R okf okb s t dep eps V c' ∧ c'.nf = none ∧ c'.nb = none := by
      intro w hw
      obtain ⟨h1, h2⟩ := togo_lt hG (hb w hw)
      obtain ⟨h3, h4⟩ := stepBackward_next (eps := eps) (G := G) (c := c) (w := w)
      apply ih _ (stepBackward_inv hG hP he hw h)
      · rw [h3]; exact hf
      · rw [h4]; exact h2
      · rw [h3, h4]; rw [hw] at hfu; omega
    rw [corridor]
    cases hnf : c.nf with
    | none =>
      cases hnb : c.nb with
      | none => exact ⟨c, rfl, h, hnf, hnb⟩
      | some b => exact B b hnb
    | some f =>
      cases hnb : c.nb with
      | none => exact F f hnf (fun b e => by rw [hnb] at e; simp at e)
      | some b =>
        simp only
        split
        · next hl => exact F f hnf (fun b' e => by rw [hnb] at e; injection e with e; omega)
        · exact B b hnb

end
end Verif.Catchup
