import Verif.Proof.CatchupCorridor
import Verif.Proof.CatchupMasks
import Verif.Spec.UpDown
import Mathlib.Tactic.Ring
set_option linter.unusedSimpArgs false
set_option linter.unusedVariables false
/- The corridor of CATCHUp contains an optimal path. -/
namespace Verif.Catchup
open Fl Spec

inductive DnRest (down R : Network) (s : Nat) (dep : Rat) (t : Nat) (Y : Rat) : Nat → Rat → Prop where
  | last : EarliestTrip R s dep t Y → DnRest down R s dep t Y t Y
  | step {y z : Nat} {b c : Rat} : DnRest down R s dep t Y z c → down y z b c → EarliestTrip R s dep y b → DnRest down R s dep t Y y b

inductive UpRest (up down R : Network) (s : Nat) (dep : Rat) (t : Nat) (Y : Rat) : Nat → Rat → Prop where
  | top {m : Nat} {a : Rat} : UpTight up R s dep m a → DnRest down R s dep t Y m a → UpRest up down R s dep t Y m a
  | step {x y : Nat} {a b : Rat} : UpTight up R s dep x a → up x y a b → EarliestTrip R s dep y b → UpRest up down R s dep t Y y b →
      UpRest up down R s dep t Y x a

section
variable {up down R : Network} {s t : Nat} {dep Y : Rat}

theorem EarliestTrip.refl (hR : NoOvertaking R) : EarliestTrip R s dep s dep := ⟨.here _ _, fun _ h => h.forward hR⟩

theorem UpTight.earliest (hR : NoOvertaking R) {x : Nat} {a : Rat} (h : UpTight up R s dep x a) : EarliestTrip R s dep x a := by
  cases h with
  | start => exact EarliestTrip.refl hR
  | step _ _ h => exact h

theorem UpDownTight.earliest (hR : NoOvertaking R) {x : Nat} {a : Rat} (h : UpDownTight up down R s dep x a) : EarliestTrip R s dep x a := by
  cases h with
  | top h => exact UpTight.earliest hR h
  | down _ _ h => exact h

theorem rest_of_down (hR : NoOvertaking R) {x : Nat} {b : Rat} (h : UpDownTight up down R s dep x b) : DnRest down R s dep t Y x b →
    ∃ m a, UpTight up R s dep m a ∧ DnRest down R s dep t Y m a := by
  induction h with
  | top h => intro hd; exact ⟨_, _, h, hd⟩
  | down h hs he ih => intro hd; exact ih (.step hd hs (UpDownTight.earliest hR h))

theorem rest_of_up {x : Nat} {a : Rat} (h : UpTight up R s dep x a) : UpRest up down R s dep t Y x a → UpRest up down R s dep t Y s dep := by
  induction h with
  | start => exact fun h => h
  | step h hs he ih => intro hr; exact ih (.step h hs he hr)

theorem rest_exists (hR : NoOvertaking R) (h : UpDownTight up down R s dep t Y) : UpRest up down R s dep t Y s dep := by
  obtain ⟨m, a, h1, h2⟩ := rest_of_down hR h (.last (UpDownTight.earliest hR h))
  exact rest_of_up h1 (.top h1 h2)

theorem DnRest.earliest {x : Nat} {b : Rat} (h : DnRest down R s dep t Y x b) : EarliestTrip R s dep x b := by
  cases h with
  | last h => exact h
  | step _ _ h => exact h

theorem UpRest.earliest (hR : NoOvertaking R) {x : Nat} {b : Rat} (h : UpRest up down R s dep t Y x b) : EarliestTrip R s dep x b := by
  cases h with
  | top h _ => exact UpTight.earliest hR h
  | step h _ _ _ => exact UpTight.earliest hR h

theorem UpRest.tight {x : Nat} {b : Rat} (h : UpRest up down R s dep t Y x b) : UpTight up R s dep x b := by
  cases h with
  | top h _ => exact h
  | step h _ _ _ => exact h
end

section
variable {G : Graph} {R : Network} {s t depth : Nat} {dep Y eps : Rat}

def okF (R : Network) (s : Nat) (dep Y : Rat) (x : Nat) (v : Rat) : Prop := EarliestTrip R s dep x (dep + v) ∧ dep + v ≤ Y
def okB (R : Network) (s : Nat) (dep Y : Rat) (x : Nat) (v : Rat) : Prop := EarliestTrip R s dep x (Y - v)

theorem promise (hR : NoOvertaking R) (hd : 0 ≤ dep) (hY : EarliestTrip R s dep t Y) (hI : Y + eps < INF) (he : 0 ≤ eps) :
    Promise G R (okF R s dep Y) (okB R s dep Y) s t dep (Y - dep) := by
  have hYd := hY.1.forward hR
  refine ⟨?_, ?_, ?_, ?_, ?_⟩
  · rintro x u v ⟨h1, h2⟩ (h3 | ⟨a, h3, h4⟩)
    · linarith
    · have := h1.2 _ h4; linarith
  · rintro x u v h1 (h3 | h3)
    · have := h1.1.forward hR; linarith
    · obtain ⟨y, h4, h5⟩ := h3 (Y - v)
      have := hY.2 _ (h1.1.append h5); linarith
  · intro x v h
    cases h with
    | base => linarith
    | step _ _ _ _ h => have := h.2; linarith
  · intro x v h
    cases h with
    | base => linarith
    | step _ _ _ _ h => have := h.1.forward hR; linarith
  · rintro u (h | ⟨y, h1, h2⟩)
    · linarith
    · have := hY.2 _ h2; linarith

theorem net_lo (hE : EvalOK G R depth) {dir : Bool} {u v : Nat} {τ y : Rat} (h : G.net depth dir u v τ y) :
    ∃ (id : Nat) (a : Arc), (G.arcs dir)[id]? = some a ∧ a.src' dir = u ∧ a.dst dir = v ∧ evalArc G depth dir id τ = some (y - τ) ∧ τ + a.lo ≤ y := by
  obtain ⟨id, a, h1, h2, h3, x, h4, rfl⟩ := h
  obtain ⟨v', h5, h6, _⟩ := hE dir id a h1 τ
  rw [h4] at h5; injection h5 with h5; subst h5
  refine ⟨id, a, h1, h2, h3, ?_, by linarith⟩
  rw [h4]; congr 1; ring

theorem UpTight.opt (hG : BoundsOK G R) (hE : EvalOK G R depth) {x : Nat} {a : Rat} (h : UpTight (G.net depth true) R s dep x a) : a ≤ Y →
    Opt G.outgoing (okF R s dep Y) s x (a - dep) := by
  induction h with
  | start => intro _; rw [sub_self]; exact .base
  | @step x y a b h hs he ih =>
    intro hY
    obtain ⟨id, arc, h1, h2, h3, h4, h5⟩ := net_lo hE hs
    have h6 := (hG.arc true arc (List.mem_of_getElem? h1)).2.2.1
    have := ih (by linarith)
    have h7 : y = arc.head := h3.symm
    rw [h7] at he ⊢
    refine .step this h1 h2 (by linarith) ⟨?_, by linarith⟩
    rw [show dep + (b - dep) = b by ring]; exact he

theorem DnRest.opt (hE : EvalOK G R depth) {x : Nat} {b : Rat} (h : DnRest (G.net depth false) R s dep t Y x b) :
    Opt G.incoming (okB R s dep Y) t x (Y - b) := by
  induction h with
  | last _ => rw [sub_self]; exact .base
  | @step y z b c h hs he ih =>
    obtain ⟨id, arc, h1, h2, h3, h4, h5⟩ := net_lo hE hs
    have h7 : y = arc.head := h2.symm
    rw [h7] at he ⊢
    refine .step ih h1 h3 (by linarith) ?_
    unfold okB
    rw [show Y - (Y - b) = b by ring]; exact he

theorem DnRest.le (hG : BoundsOK G R) (hE : EvalOK G R depth) {x : Nat} {b : Rat} (h : DnRest (G.net depth false) R s dep t Y x b) : b ≤ Y := by
  induction h with
  | last _ => exact le_refl _
  | step h hs he ih =>
    obtain ⟨id, arc, h1, h2, h3, h4, h5⟩ := net_lo hE hs
    have h6 := (hG.arc false arc (List.mem_of_getElem? h1)).2.2.1
    linarith

/-- What the search knows: potentials, masks and relevant arcs contain an optimal path. -/
structure PathOK (G : Graph) (R : Network) (s t depth : Nat) (dep Y eps : Rat) (c : Corr) (bmask : Nat → Bool) (f : FMasks) : Prop where
  pos : ∀ x, 0 ≤ f.lbt x
  down : ∀ x b, DnRest (G.net depth false) R s dep t Y x b → bmask x = true → f.lbt x ≤ Y - b ∧ (x = t ∨
    ∃ l ∈ kept eps (c.bw x), ∃ v, evalArc G depth false l.id b = some v ∧ bmask l.parent = true ∧ DnRest (G.net depth false) R s dep t Y l.parent (b + v))
  up : ∀ x a, UpRest (G.net depth true) (G.net depth false) R s dep t Y x a → f.lbt x ≤ Y - a ∧
    ((bmask x = true ∧ DnRest (G.net depth false) R s dep t Y x a) ∨ ∃ (id : Nat) (arc : Arc) (v : Rat), G.outgoing[id]? = some arc ∧ arc.tail = x ∧ f.rel id = true ∧
      evalArc G depth true id a = some v ∧ UpRest (G.net depth true) (G.net depth false) R s dep t Y arc.head (a + v))

theorem DInv.label {par : Nat → Option Nat} {as : List Arc} {U ok : Nat → Rat → Prop} {o : Nat} {path : List Nat} {d : Nodes} {f : Option Nat}
    (h : DInv par as U ok o f path d) (ht : TreeOK par as) {x : Nat} {l : Label} (hl : l ∈ (d x).labels) : l.parent < x ∧ (d l.parent).lower ≤ l.lower := by
  obtain ⟨a, h1, h2, h3, h4, _⟩ := h.lab x l hl
  have := ht.arc_lt _ (List.mem_of_getElem? h1)
  have := ht.lo _ (List.mem_of_getElem? h1)
  refine ⟨by omega, by linarith⟩

theorem path_ok (hR : NoOvertaking R) (hG : BoundsOK G R) (hE : EvalOK G R depth) (hd : 0 ≤ dep) (hY : EarliestTrip R s dep t Y) (hI : Y + eps < INF) (he : 0 ≤ eps)
    {c : Corr} (h : CInv G R (okF R s dep Y) (okB R s dep Y) s t dep eps (Y - dep) c) (hf : c.nf = none) (hb : c.nb = none) :
    PathOK G R s t depth dep Y eps c (masks eps c).1 (masks eps c).2 := by
  have hP := promise (G := G) hR hd hY hI he
  have hT := hG.tree true
  have hTb := hG.tree false
  have hV := hP.uw _ h.tu
  have hbl : ∀ (o : Option Nat) (x : Nat), o = none → Below o x := fun o x e w hw => by rw [e] at hw; simp at hw
  have B := backMasks_spec (eps := eps) (fun x l hl => (h.bw.label hTb hl).1) (fun x => (h.bw.pos x).1) c.bpath
    (setAll c.bmask (meetings eps c), fun _ => INF) h.bw.sorted
  have F := foreMasks_spec (eps := eps) (fun x l hl => h.fw.label hT hl) c.fpath
    ⟨setAll c.fmask (meetings eps c), (backMasks eps c.bw c.bpath (setAll c.bmask (meetings eps c), fun _ => INF)).2, fun _ => false⟩ h.fw.sorted
  have e1 : (masks eps c).1 = (backMasks eps c.bw c.bpath (setAll c.bmask (meetings eps c), fun _ => INF)).1 := rfl
  have e2 : (masks eps c).2 = foreMasks eps c.fw c.fpath
    ⟨setAll c.fmask (meetings eps c), (backMasks eps c.bw c.bpath (setAll c.bmask (meetings eps c), fun _ => INF)).2, fun _ => false⟩ := rfl
  rw [← e2] at F
  rw [← e1] at *
  -- down
  have hdown : ∀ x b, DnRest (G.net depth false) R s dep t Y x b → (masks eps c).1 x = true → (masks eps c).2.lbt x ≤ Y - b ∧ (x = t ∨
      ∃ l ∈ kept eps (c.bw x), ∃ v, evalArc G depth false l.id b = some v ∧ (masks eps c).1 l.parent = true ∧ DnRest (G.net depth false) R s dep t Y l.parent (b + v)) := by
    intro x b hx hm
    have hopt := DnRest.opt hE hx
    have hmem := h.bw.opt x _ hopt (hbl _ _ hb)
    have hlow := h.bw.low hTb hopt (fun w hw => by rw [hb] at hw; simp at hw)
    obtain ⟨h1, h2⟩ := B.hit x hmem hm
    refine ⟨?_, ?_⟩
    · have := F.pot x
      simp only at this
      linarith
    · cases hx with
      | last _ => exact .inl rfl
      | @step _ z _ cc hz hs hea =>
        right
        have hoz := DnRest.opt hE hz
        obtain ⟨id, arc, h3, h4, h5, h6, h7⟩ := net_lo hE hs
        have h4' : arc.head = x := h4
        have h5' : arc.tail = z := h5
        have hok : okB R s dep Y arc.head (Y - b) := by
          unfold okB; rw [show Y - (Y - b) = b by ring, h4']; exact hea
        obtain ⟨⟨l, h8, h9, h10⟩, _⟩ := h.bw.step z _ id arc (Y - b) hoz h3 h5' (by linarith) hok (hbl _ _ hb)
        rw [h4'] at h8 hok
        have hlz := h.bw.low hTb hoz (fun w hw => by rw [hb] at hw; simp at hw)
        have hup := hP.ub x _ _ hok (h.bw.upper x)
        obtain ⟨a', h11, h12, h13, h14, _⟩ := h.bw.lab x l h8
        rw [h9] at h11
        have h11' : some arc = some a' := h3.symm.trans h11
        injection h11' with h11'; subst h11'
        rw [h10] at h14
        have hk : l ∈ kept eps (c.bw x) := mem_kept.2 ⟨h8, by linarith⟩
        refine ⟨l, hk, cc - b, by rw [h9]; exact h6, h2 l hk, ?_⟩
        rw [h10, show b + (cc - b) = cc by ring]; exact hz
  refine ⟨?_, hdown, ?_⟩
  · apply F.pos
    simp only
    apply B.pos
    intro x; simp only; unfold INF; norm_num
  · -- up
    have H : ∀ x a, UpRest (G.net depth true) (G.net depth false) R s dep t Y x a → (masks eps c).2.mask x = true ∧ (masks eps c).2.lbt x ≤ Y - a ∧
        (((masks eps c).1 x = true ∧ DnRest (G.net depth false) R s dep t Y x a) ∨ ∃ (id : Nat) (arc : Arc) (v : Rat), G.outgoing[id]? = some arc ∧ arc.tail = x ∧
          (masks eps c).2.rel id = true ∧ evalArc G depth true id a = some v ∧ UpRest (G.net depth true) (G.net depth false) R s dep t Y arc.head (a + v)) ∧ a ≤ Y := by
      intro x a hx
      induction hx with
      | @top m a hu hdn =>
        have haY := DnRest.le hG hE hdn
        have hoB := DnRest.opt hE hdn
        have hoF := UpTight.opt (Y := Y) hG hE hu haY
        obtain ⟨_, l, h1, h2⟩ := h.meet m _ _ hoF hoB (by linarith) (hbl _ _ hf)
        have hmt : m ∈ meetings eps c := by
          unfold meetings
          refine List.mem_map.2 ⟨(m, l), List.mem_filter.2 ⟨h2, ?_⟩, rfl⟩
          simp only [Bool.and_eq_true, Bool.not_eq_true', flt_false, flt_iff]
          constructor <;> linarith
        have hmb : (masks eps c).1 m = true := B.mono m ((setAll_iff _ _ _).2 (.inr hmt))
        exact ⟨F.mono m ((setAll_iff _ _ _).2 (.inr hmt)), (hdown m a hdn hmb).1, .inl ⟨hmb, hdn⟩, haY⟩
      | @step x y a b hu hs hea hr ih =>
        obtain ⟨i1, i2, _, i4⟩ := ih
        obtain ⟨id, arc, h3, h4, h5, h6, h7⟩ := net_lo hE hs
        have h4' : arc.tail = x := h4
        have h5' : arc.head = y := h5
        have hlo := (hG.arc true arc (List.mem_of_getElem? h3)).2.2.1
        have hoF := UpTight.opt (Y := Y) hG hE hu (by linarith)
        have hoy := UpTight.opt (Y := Y) hG hE hr.tight i4
        have hok : okF R s dep Y arc.head (b - dep) := by
          unfold okF; rw [show dep + (b - dep) = b by ring, h5']; exact ⟨hea, i4⟩
        obtain ⟨⟨l, h8, h9, h10⟩, _⟩ := h.fw.step x _ id arc (b - dep) hoF h3 h4' (by linarith) hok (hbl _ _ hf)
        rw [h5'] at h8 hok
        have hmem := h.fw.opt y _ hoy (hbl _ _ hf)
        have hlx := h.fw.low hT hoF (fun w hw => by rw [hf] at hw; simp at hw)
        have hup := hP.uf y _ _ hok (h.fw.upper y)
        obtain ⟨a', h11, h12, h13, h14, _⟩ := h.fw.lab y l h8
        rw [h9] at h11
        have h11' : some arc = some a' := h3.symm.trans h11
        injection h11' with h11'; subst h11'
        have hk : l ∈ kept eps (c.fw y) := mem_kept.2 ⟨h8, by rw [h10] at h14; linarith⟩
        obtain ⟨j1, j2, j3⟩ := F.hit y hmem i1 l hk
        rw [h9] at j2
        rw [h10] at j1 j3 h14
        refine ⟨j1, by linarith, .inr ⟨id, arc, b - a, h3, h4', j2, h6, ?_⟩, by linarith⟩
        rw [h5', show a + (b - a) = b by ring]; exact hr
    intro x a hx
    obtain ⟨_, h1, h2, _⟩ := H x a hx
    exact ⟨h1, h2⟩

end
end Verif.Catchup
