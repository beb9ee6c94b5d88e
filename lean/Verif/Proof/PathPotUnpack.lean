import Verif.Proof.PathPot
import Verif.Proof.SubPaths
import Mathlib.Data.Nat.Find
set_option linter.unusedSimpArgs false
set_option linter.unusedVariables false
/- Unpacking of shortest paths, for any hierarchy with unpacking information and positive weights. -/
namespace Verif
namespace CCH
open Spec GraphOps FOGraph Bits UBS

variable {n : Nat} {P : PathPot} {A : Nat → Nat → Nat → Prop}

/-- The edge `e` leads from `x` to `y`, upward in the one or downward in the other graph. -/
def PathPot.H (P : PathPot) (e x y w : Nat) : Prop := (P.fw.E e x y w ∧ x < y) ∨ (P.bw.E e y x w ∧ y < x)

/-- a correct hierarchy for the arcs `A` -/
structure HOK (n : Nat) (P : PathPot) (A : Nat → Nat → Nat → Prop) : Prop where
  tree : TreeOK n P.tree
  fw : DirOK n P.tree P.fw
  bw : DirOK n P.tree P.bw
  pos : ∀ u v w, A u v w → 0 < w
  sound : ∀ s t d, UpDown P.fw.Arc P.bw.Arc s t d → d < INFINITY → Walk A s t d
  covers : ∀ s t d, s < n → t < n → Walk A s t d → ∃ d', d' ≤ d ∧ UpDown P.fw.Arc P.bw.Arc s t d'
  hop : ∀ e x y w, P.H e x y w → w < INFINITY → ∃ down up, P.hop x y e = some (down, up) ∧
    ((down = none ∧ A x y w) ∨ ∃ a b m wa wb, down = some a ∧ up = some b ∧ P.fwTail[b]? = some m ∧ m < x ∧ m < y ∧
      P.H a x m wa ∧ P.H b m y wb ∧ w = wa + wb)

theorem HOK.lt (h : HOK n P A) {e x y w : Nat} (he : P.H e x y w) : x < n ∧ y < n ∧ x ≠ y := by
  rcases he with ⟨h1, h2⟩ | ⟨h1, h2⟩
  · have := h.fw.head_lt h1; omega
  · have := h.bw.head_lt h1; omega

theorem HOK.walk (h : HOK n P A) {e x y w : Nat} (he : P.H e x y w) (hw : w < INFINITY) : Walk A x y w := by
  apply h.sound _ _ _ _ hw
  rcases he with ⟨h1, h2⟩ | ⟨h1, h2⟩
  · exact ⟨y, w, 0, by have := UpWalk.cons (h.fw.arc h1) h2 (.nil y); simpa using this, .nil y, by omega⟩
  · exact ⟨x, 0, w, .nil x, by have := UpWalk.cons (h.bw.arc h1) h2 (.nil x); simpa using this, by omega⟩

theorem HOK.hop_pos (h : HOK n P A) : ∀ (k e x y w : Nat), min x y ≤ k → P.H e x y w → w < INFINITY → 0 < w := by
  intro k
  induction k with
  | zero =>
    intro e x y w hk he hw
    obtain ⟨down, up, _, ⟨_, h2⟩ | ⟨a, b, m, wa, wb, _, _, _, h5, h6, _⟩⟩ := h.hop e x y w he hw
    · exact h.pos _ _ _ h2
    · omega
  | succ k ih =>
    intro e x y w hk he hw
    obtain ⟨down, up, _, ⟨_, h2⟩ | ⟨a, b, m, wa, wb, _, _, _, h5, h6, h7, _, rfl⟩⟩ := h.hop e x y w he hw
    · exact h.pos _ _ _ h2
    · have := ih a x m wa (by omega) h7 (by omega)
      omega

theorem HOK.dist (h : HOK n P A) {v t d : Nat} (hc : CapMin (UpDown P.fw.Arc P.bw.Arc v t) d) (hd : d < INFINITY) (hv : v < n) (ht : t < n) : IsDist A v t d := by
  refine ⟨h.sound _ _ _ (hc.sound hd) hd, ?_⟩
  intro d' hw
  obtain ⟨d2, h1, h2⟩ := h.covers v t d' hv ht hw
  exact Nat.le_trans (hc.le d2 h2) h1

theorem HOK.cap (h : HOK n P A) {v t d x : Nat} (hc : CapMin (UpDown P.fw.Arc P.bw.Arc v t) x) (hd : IsDist A v t d) (hd' : d < INFINITY) (hv : v < n) (ht : t < n) : x = d := by
  obtain ⟨d2, h1, h2⟩ := h.covers v t d hv ht hd.1
  have := hc.le d2 h2
  exact (h.dist hc (by omega) hv ht).unique hd

/-! ### how many nodes are nearer to the root -/

noncomputable def dl (A : Nat → Nat → Nat → Prop) (t v : Nat) : Nat := by
  classical exact if h : ∃ d, IsDist A v t d then h.choose else INFINITY

theorem dl_eq {t v d : Nat} (h : IsDist A v t d) : dl A t v = d := by
  have hex : ∃ d, IsDist A v t d := ⟨d, h⟩
  unfold dl
  rw [dif_pos hex]
  exact hex.choose_spec.unique h

noncomputable def nearer (A : Nat → Nat → Nat → Prop) (n t v : Nat) : Nat := (List.range n).countP (fun u => decide (dl A t u < dl A t v))

theorem countP_lt {l : List Nat} {p q : Nat → Bool} (h : ∀ x ∈ l, p x = true → q x = true) {x : Nat} (hx : x ∈ l) (hq : q x = true) (hp : p x = false) :
    l.countP p < l.countP q := by
  induction l with
  | nil => simp at hx
  | cons y l ih =>
    have hle : l.countP p ≤ l.countP q := List.countP_mono_left (fun z hz => h z (by simp [hz]))
    simp only [List.countP_cons]
    rcases List.mem_cons.1 hx with rfl | hx'
    · simp [hp, hq]; omega
    · have := ih (fun z hz => h z (by simp [hz])) hx'
      have := h y (by simp)
      by_cases hpy : p y = true
      · simp [hpy, this hpy]; omega
      · simp [hpy]; omega

theorem nearer_lt {t u v d d' : Nat} (hu : IsDist A u t d) (hv : IsDist A v t d') (h : d < d') (hn : u < n) : nearer A n t u < nearer A n t v := by
  apply countP_lt (x := u)
  · intro x _ hx
    rw [decide_eq_true_iff] at hx ⊢
    rw [dl_eq hu] at hx; rw [dl_eq hv]; omega
  · simpa using hn
  · rw [decide_eq_true_iff, dl_eq hu, dl_eq hv]; exact h
  · simp

theorem nearer_lt_n {t v : Nat} (hn : v < n) : nearer A n t v < n := by
  have : nearer A n t v < (List.range n).countP (fun _ => true) := by
    apply countP_lt (x := v)
    · intros; rfl
    · simpa using hn
    · rfl
    · simp
  simpa using this

/-! ### the state -/

/-- the bit vector as a function on `0..n` -/
structure FRep (n : Nat) (b : FastClear) (u : Nat → Bool) : Prop where
  ok : b.OK
  len : b.data.length = (n + 63) / 64
  val : ∀ x, bit b.data x = u x

theorem FRep.get {b : FastClear} {u : Nat → Bool} (h : FRep n b u) {x : Nat} (hx : x < n) : b.get x = some (u x) := by
  rw [h.ok.get, if_pos (by rw [h.len]; omega), h.val]

theorem FRep.set {b : FastClear} {u : Nat → Bool} (h : FRep n b u) {x : Nat} (hx : x < n) : ∃ b', b.set x = some b' ∧ FRep n b' (fun y => y == x || u y) := by
  obtain ⟨b', h1, h2, h3, h4⟩ := h.ok.set (i := x) (by rw [h.len]; omega)
  exact ⟨b', h1, h2, by rw [h3, h.len], fun y => by rw [h4, h.val]⟩

theorem FRep.clear {b : FastClear} {u : Nat → Bool} (h : FRep n b u) : ∃ b', b.clear = some b' ∧ FRep n b' (fun _ => false) := by
  obtain ⟨b', h1, h2, h3, h4⟩ := h.ok.clear
  exact ⟨b', h1, h2, by rw [h3, h.len], h4⟩

theorem FRep.new : FRep n (FastClear.new n) (fun _ => false) := by
  refine ⟨FastClear.new_ok n, by simp [FastClear.new], ?_⟩
  intro x
  simp only [FastClear.new, bit, List.getD_eq_getElem?_getD, List.getElem?_replicate]; split <;> simp

/-- The state after `init t`: `f` are the known potentials, `b` the distances in the backward graph, `u` the unpacked nodes. -/
structure PInv (n : Nat) (P : PathPot) (A : Nat → Nat → Nat → Prop) (t : Nat) (b : Nat → Nat) (s : PathState) (f : Nat → Option Nat) (u : Nat → Bool) : Prop where
  tn : t < n
  stack : s.stack = []
  pots : TRep n none s.pots f
  memo : Memo (fun x => UpDown P.fw.Arc P.bw.Arc x t) (fun x y => par P.tree x = some y) f
  bwd : TRep n INFINITY s.bwDist b
  cap : ∀ x, CapMin (UpWalk P.bw.Arc t x) (b x)
  unp : FRep n s.unpacked u
  len : s.parents.length = n
  root : s.parents[t]? = some (t, 0)
  back : ∀ x, f x = none → b x < INFINITY → x ≠ t → ∃ y e w, s.parents[x]? = some (y, e) ∧ P.bw.E e y x w ∧ b x = b y + w
  ptr : ∀ x d, x < n → f x = some d → d < INFINITY → x ≠ t → ∃ y e w dy, s.parents[x]? = some (y, e) ∧ P.H e x y w ∧ IsDist A y t dy ∧ d = w + dy
  good : ∀ x, x < n → u x = true → ∃ d, f x = some d ∧ d < INFINITY ∧ (x ≠ t → ∃ y e w dy, y < n ∧ s.parents[x]? = some (y, e) ∧ A x y w ∧ u y = true ∧
    f y = some dy ∧ d = w + dy)

theorem HOK.updown_bw (h : HOK n P A) {t y d : Nat} (hu : UpWalk P.bw.Arc t y d) (hd : d < INFINITY) : Walk A y t d :=
  h.sound _ _ _ ⟨y, 0, d, .nil y, hu, by omega⟩ hd

/-- `init` -/
theorem init_spec (h : HOK n P A) {s : PathState} (hst : s.stack = []) (hp : ∃ f, TRep n none s.pots f) (hb : ∃ b, TRep n INFINITY s.bwDist b)
    (hu : ∃ u, FRep n s.unpacked u) (hl : s.parents.length = n) {t : Nat} (ht : t < n) :
    ∃ s' b, P.init s t = some s' ∧ PInv n P A t b s' (fun _ => none) (fun _ => false) := by
  obtain ⟨f, hp⟩ := hp
  obtain ⟨b, hb⟩ := hb
  obtain ⟨u, hu⟩ := hu
  obtain ⟨v', b', P', K, h1, h2, h3, h4⟩ := tsQueryP_spec h.tree h.bw ht hb hl
  obtain ⟨u', e1, e2⟩ := hu.clear
  refine ⟨⟨s.stack, s.pots.reset, v', P', u'⟩, b', by simp [PathPot.init, h1, e1], ht, hst, hp.reset, ⟨by simp, by simp⟩, h2, h3, e2, h4.len, h4.root, ?_, by simp, by simp⟩
  intro x _ hx hxt
  obtain ⟨y, e, w, k1, k2, k3, _⟩ := h4.ptr x hx hxt
  exact ⟨y, e, w, k1, k2, k3⟩

/-- what calls change: known values and unpacked nodes stay, and so do the pointers of nodes that are known and at least `D` away from the root -/
structure Frame (A : Nat → Nat → Nat → Prop) (t D v : Nat) (s s' : PathState) (f f' : Nat → Option Nat) (u u' : Nat → Bool) : Prop where
  keep : ∀ x d, f x = some d → f' x = some d
  unp : ∀ x, u x = true → u' x = true ∧ s'.parents[x]? = s.parents[x]?
  far : ∀ x d, f x = some d → D ≤ d → x ≠ v → s'.parents[x]? = s.parents[x]?
  farU : ∀ x d, IsDist A x t d → D ≤ d → x ≠ v → u' x = true → u x = true

/-- two frames of which the second concerns a node that is nearer or the same -/
theorem Frame.trans {t D D' D2 v v' v2 : Nat} {s s' s2 : PathState} {f f' f2 : Nat → Option Nat} {u u' u2 : Nat → Bool} (h : Frame A t D v s s' f f' u u')
    (h' : Frame A t D' v' s' s2 f' f2 u' u2) (hD : D ≤ D2) (hD' : D' ≤ D2)
    (hv : ∀ x d, f x = some d ∨ IsDist A x t d → D2 ≤ d → x ≠ v2 → x ≠ v)
    (hv' : ∀ x d, f x = some d ∨ IsDist A x t d → D2 ≤ d → x ≠ v2 → x ≠ v') : Frame A t D2 v2 s s2 f f2 u u2 := by
  refine ⟨fun x d hx => h'.keep x d (h.keep x d hx), ?_, ?_, ?_⟩
  · intro x hx
    obtain ⟨h1, h2⟩ := h.unp x hx
    obtain ⟨h3, h4⟩ := h'.unp x h1
    exact ⟨h3, by rw [h4, h2]⟩
  · intro x d hx hd hxv
    rw [h'.far x d (h.keep x d hx) (by omega) (hv' x d (.inl hx) hd hxv), h.far x d hx (by omega) (hv x d (.inl hx) hd hxv)]
  · intro x d hx hd hxv hu
    exact h.farU x d hx (by omega) (hv x d (.inr hx) hd hxv) (h'.farU x d hx (by omega) (hv' x d (.inr hx) hd hxv) hu)

/-- `potential` -/
theorem get_spec (h : HOK n P A) {t : Nat} {b : Nat → Nat} {s : PathState} {f : Nat → Option Nat} {u : Nat → Bool} (hi : PInv n P A t b s f u) {v : Nat} (hv : v < n) :
    ∃ s' f' x, P.get s v = some (s', if x < INFINITY then some x else none) ∧ PInv n P A t b s' f' u ∧ f' v = some x ∧ CapMin (UpDown P.fw.Arc P.bw.Arc v t) x ∧
      Frame A t 0 v s s' f f' u u ∧
      (∀ x d, f x = some d → s'.parents[x]? = s.parents[x]?) := by
  obtain ⟨st, h5, h6, _, h7⟩ := climb_spec h.tree hi.pots (P.tree.length + 1) s.stack v hv (by rw [h.tree.len]; omega) (by rw [hi.stack]; trivial)
  obtain ⟨k1, k2⟩ := climb_desc h.tree hi.pots (P.tree.length + 1) s.stack st v hv (by rw [hi.stack]; exact .nil) (by rw [hi.stack]; simp) h5
  obtain ⟨pots', f', P', e1, e2, e3, e4, e5⟩ := popAllP_spec h.tree h.fw hi.bwd hi.cap st s.pots f s.parents hi.pots hi.memo h6 hi.len k1 k2
  have hk : (f' v).isSome := by
    rcases h7 with h | h
    · obtain ⟨d, hd⟩ := Option.isSome_iff_exists.1 h
      rw [e4.keep v d hd]; rfl
    · exact e5 v h
  obtain ⟨x, hx⟩ := Option.isSome_iff_exists.1 hk
  have hsame : ∀ x d, f x = some d → P'[x]? = s.parents[x]? := fun x d hx => e4.same x (by rw [hx]; rfl)
  refine ⟨⟨[], pots', s.bwDist, P', s.unpacked⟩, f', x, ?_, ?_, hx, e3.val v x hx, ⟨e4.keep, ?_, fun x d hx _ _ => hsame x d hx, fun _ _ _ _ _ h => h⟩, hsame⟩
  · simp only [PathPot.get, h5, e1, e2.get hv, hx, Option.bind_eq_bind, Option.bind_some, Option.pure_def]
  · have hbt : b t = 0 := by have := (hi.cap t).le 0 (.nil t); omega
    have hinf : (0 : Nat) < INFINITY := by decide
    refine ⟨hi.tn, rfl, e2, e3, hi.bwd, hi.cap, hi.unp, by rw [e4.len]; exact hi.len, ?_, ?_, ?_, ?_⟩
    · show P'[t]? = some (t, 0)
      cases hft : f t with
      | some d => rw [hsame t d hft]; exact hi.root
      | none =>
        cases hft' : f' t with
        | none => rw [e4.stay t hft']; exact hi.root
        | some d =>
          rcases e4.new t d hft hft' with ⟨_, k⟩ | ⟨y, e, w, p, _, k2, k3, k4, k5⟩
          · rw [k]; exact hi.root
          · exfalso
            rw [hbt] at k5
            have hE := k2
            have := h.hop_pos _ e t y w (Nat.le_refl _) (.inl ⟨hE, h.fw.up (h.fw.arc hE)⟩) (by omega)
            omega
    · intro x hx hb hxt
      have hx0 : f x = none := by
        cases hfx : f x with
        | none => rfl
        | some d => rw [e4.keep x d hfx] at hx; simp at hx
      obtain ⟨y, e, w, k⟩ := hi.back x hx0 hb hxt
      exact ⟨y, e, w, by show P'[x]? = _; rw [e4.stay x hx]; exact k.1, k.2⟩
    · intro x d hxn hx hd hxt
      cases hfx : f x with
      | some d0 =>
        have := e4.keep x d0 hfx; rw [hx] at this; simp at this; subst this
        show ∃ y e w dy, P'[x]? = some (y, e) ∧ _
        rw [hsame x d hfx]; exact hi.ptr x d hxn hfx hd hxt
      | none =>
        have hdist := h.dist (e3.val x d hx) hd hxn hi.tn
        rcases e4.new x d hfx hx with ⟨k0, k⟩ | ⟨y, e, w, p, k1, k2, k3, k4, k5⟩
        · obtain ⟨y, e, w, g1, g2, g3⟩ := hi.back x hfx (by omega) hxt
          have hup := h.bw.up (h.bw.arc g2)
          have hH : P.H e x y w := .inr ⟨g2, hup⟩
          refine ⟨y, e, w, b y, by show P'[x]? = _; rw [k]; exact g1, hH, ?_, by omega⟩
          have hw := h.walk hH (by omega)
          refine ⟨h.updown_bw ((hi.cap y).sound (by omega)) (by omega), ?_⟩
          intro d' hd'
          have := hdist.2 _ (hw.append hd')
          omega
        · have hlt := h.fw.up (h.fw.arc k2)
          exact ⟨y, e, w, p, k1, .inl ⟨k2, hlt⟩, h.dist (e3.val y p k3) (by omega) (h.fw.head_lt k2) hi.tn, k4⟩
    · intro x hxn hux
      obtain ⟨d, g1, g2, g3⟩ := hi.good x hxn hux
      refine ⟨d, e4.keep x d g1, g2, fun hxt => ?_⟩
      obtain ⟨y, e, w, dy, q1, q2, q3, q4, q5, q6⟩ := g3 hxt
      exact ⟨y, e, w, dy, q1, by show P'[x]? = _; rw [hsame x d g1]; exact q2, q3, q4, e4.keep y dy q5, q6⟩
  · intro x hx
    refine ⟨hx, ?_⟩
    by_cases hxn : x < n
    · obtain ⟨d, g1, _⟩ := hi.good x hxn hx
      exact hsame x d g1
    · show P'[x]? = s.parents[x]?
      rw [List.getElem?_eq_none (by rw [e4.len, hi.len]; omega), List.getElem?_eq_none (by rw [hi.len]; omega)]

/-- `potential` of a node with a finite distance -/
theorem get_dist (h : HOK n P A) {t : Nat} {b : Nat → Nat} {s : PathState} {f : Nat → Option Nat} {u : Nat → Bool} (hi : PInv n P A t b s f u) {v d : Nat} (hv : v < n)
    (hd : IsDist A v t d) (hd' : d < INFINITY) :
    ∃ s' f', P.get s v = some (s', some d) ∧ PInv n P A t b s' f' u ∧ f' v = some d ∧ Frame A t 0 v s s' f f' u u ∧
      (∀ x d, f x = some d → s'.parents[x]? = s.parents[x]?) := by
  obtain ⟨s', f', x, h1, h2, h3, h4, h5, h6⟩ := get_spec h hi hv
  have := h.cap h4 hd hd' hv hi.tn
  subst this
  rw [if_pos hd'] at h1
  exact ⟨s', f', h1, h2, h3, h5, h6⟩

/-- another pointer for a node that is not unpacked -/
theorem PInv.redirect {t : Nat} {b : Nat → Nat} {s : PathState} {f : Nat → Option Nat} {u : Nat → Bool} (hi : PInv n P A t b s f u) {v d y e w dy : Nat} (hv : v < n)
    (hf : f v = some d) (hvt : v ≠ t) (hu : u v = false) (hH : P.H e v y w) (hy : IsDist A y t dy) (hd : d = w + dy) :
    PInv n P A t b { s with parents := s.parents.set v (y, e) } f u := by
  have hvl : v < s.parents.length := by rw [hi.len]; exact hv
  refine ⟨hi.tn, hi.stack, hi.pots, hi.memo, hi.bwd, hi.cap, hi.unp, by simp [hi.len], ?_, ?_, ?_, ?_⟩
  · show (s.parents.set v (y, e))[t]? = _
    rw [List.getElem?_set_ne hvt]; exact hi.root
  · intro x hx hb hxt
    have hxv : v ≠ x := by rintro rfl; rw [hf] at hx; simp at hx
    obtain ⟨y', e', w', k⟩ := hi.back x hx hb hxt
    exact ⟨y', e', w', by show (s.parents.set v (y, e))[x]? = _; rw [List.getElem?_set_ne hxv]; exact k.1, k.2⟩
  · intro x dx hxn hx hdx hxt
    by_cases hxv : v = x
    · subst hxv
      rw [hf] at hx; simp at hx; subst hx
      exact ⟨y, e, w, dy, by simp [hvl], hH, hy, hd⟩
    · obtain ⟨y', e', w', dy', k⟩ := hi.ptr x dx hxn hx hdx hxt
      exact ⟨y', e', w', dy', by show (s.parents.set v (y, e))[x]? = _; rw [List.getElem?_set_ne hxv]; exact k.1, k.2⟩
  · intro x hxn hux
    have hxv : v ≠ x := by rintro rfl; rw [hu] at hux; simp at hux
    obtain ⟨dx, k1, k2, k3⟩ := hi.good x hxn hux
    refine ⟨dx, k1, k2, fun hxt => ?_⟩
    obtain ⟨y', e', w', dy', q1, q2, q3⟩ := k3 hxt
    exact ⟨y', e', w', dy', q1, by show (s.parents.set v (y, e))[x]? = _; rw [List.getElem?_set_ne hxv]; exact q2, q3⟩

theorem frame_redirect {t : Nat} {s : PathState} {f : Nat → Option Nat} {u : Nat → Bool} {v y e : Nat} (hu : u v = false) :
    Frame A t 0 v s { s with parents := s.parents.set v (y, e) } f f u u := by
  refine ⟨fun x d h => h, ?_, ?_, fun _ _ _ _ _ h => h⟩
  · intro x hx
    have hxv : v ≠ x := by rintro rfl; rw [hu] at hx; simp at hx
    exact ⟨hx, by show (s.parents.set v (y, e))[x]? = _; rw [List.getElem?_set_ne hxv]⟩
  · intro x d _ _ hxv
    show (s.parents.set v (y, e))[x]? = _
    rw [List.getElem?_set_ne (fun h => hxv h.symm)]

theorem setUnpacked_spec {t : Nat} {b : Nat → Nat} {s : PathState} {f : Nat → Option Nat} {u : Nat → Bool} (hi : PInv n P A t b s f u) {v d : Nat} (hv : v < n)
    (hf : f v = some d) (hd : d < INFINITY) (hg : u v = true ∨ v = t ∨ ∃ y e w dy, y < n ∧ s.parents[v]? = some (y, e) ∧ A v y w ∧ u y = true ∧ f y = some dy ∧ d = w + dy) :
    ∃ s', setUnpacked s v = some s' ∧ PInv n P A t b s' f (fun x => x == v || u x) ∧ Frame A t 0 v s s' f f u (fun x => x == v || u x) := by
  obtain ⟨b', h1, h2⟩ := hi.unp.set hv
  refine ⟨{ s with unpacked := b' }, by simp [setUnpacked, h1], ⟨hi.tn, hi.stack, hi.pots, hi.memo, hi.bwd, hi.cap, h2, hi.len, hi.root, hi.back, hi.ptr, ?_⟩, ⟨fun x d h => h, fun x hx => ⟨by simp [hx], rfl⟩, fun _ _ _ _ _ => rfl, fun x _ _ _ hxv hx => by simpa [hxv] using hx⟩⟩
  have hold : ∀ x, x < n → u x = true → ∃ d, f x = some d ∧ d < INFINITY ∧ (x ≠ t → ∃ y e w dy, y < n ∧ s.parents[x]? = some (y, e) ∧ A x y w ∧
      (y == v || u y) = true ∧ f y = some dy ∧ d = w + dy) := by
    intro x hxn hux
    obtain ⟨dx, k1, k2, k3⟩ := hi.good x hxn hux
    refine ⟨dx, k1, k2, fun hxt => ?_⟩
    obtain ⟨y', e', w', dy', q1, q2, q3, q4, q5⟩ := k3 hxt
    exact ⟨y', e', w', dy', q1, q2, q3, by simp [q4], q5⟩
  intro x hxn hux
  by_cases hxv : x = v
  · subst hxv
    rcases hg with hg | hg | ⟨y, e, w, dy, q1, q2, q3, q4, q5⟩
    · exact hold x hxn hg
    · exact ⟨d, hf, hd, fun h => absurd hg h⟩
    · exact ⟨d, hf, hd, fun _ => ⟨y, e, w, dy, q1, q2, q3, by simp [q4], q5⟩⟩
  · exact hold x hxn (by simpa [hxv] using hux)

/-- `unpack_path` -/
theorem unpack_spec (h : HOK n P A) (dbg : Bool) {t : Nat} {b : Nat → Nat} : ∀ (fuel : Nat) (s : PathState) (f : Nat → Option Nat) (u : Nat → Bool) (v d L : Nat),
    PInv n P A t b s f u → v < n → IsDist A v t d → d < INFINITY →
    (n ≤ L ∨ ∃ y e, f v = some d ∧ s.parents[v]? = some (y, e) ∧ min v y ≤ L) → nearer A n t v * (n + 1) + L < fuel →
    ∃ s' f' u', P.unpack dbg fuel s v = some s' ∧ PInv n P A t b s' f' u' ∧ u' v = true ∧ f' v = some d ∧ Frame A t d v s s' f f' u u' := by
  intro fuel
  induction fuel with
  | zero => intro _ _ _ _ _ _ _ _ _ _ _ hf; omega
  | succ fuel ih =>
    intro s f u v d L hi hv hd hd' hL hfuel
    rw [PathPot.unpack, hi.unp.get hv]
    simp only [Option.bind_eq_bind, Option.bind_some, Option.pure_def]
    cases huv : u v with
    | true =>
      obtain ⟨d0, k1, k2, k3⟩ := hi.good v hv huv
      have : d0 = d := (h.dist (hi.memo.val v d0 k1) k2 hv hi.tn).unique hd
      subst this
      exact ⟨s, f, u, rfl, hi, huv, k1, fun _ _ h => h, fun _ h => ⟨h, rfl⟩, fun _ _ _ _ _ => rfl, fun _ _ _ _ _ h => h⟩
    | false =>
      simp only [Bool.false_eq_true, if_false]
      obtain ⟨s1, f1, a1, i1, fv1, F1, same1⟩ := get_dist h hi hv hd hd'
      simp only [a1, Option.bind_some]
      by_cases hvt : v = t
      · subst hvt
        rw [i1.root]
        simp only [Option.bind_some, if_true]
        obtain ⟨s', e1, e2, e3⟩ := setUnpacked_spec i1 hv fv1 hd' (.inr (.inl rfl))
        exact ⟨s', f1, _, e1, e2, by simp, fv1, F1.trans e3 (by omega) (by omega) (fun _ _ _ _ h => h) (fun _ _ _ _ h => h)⟩
      · obtain ⟨p, e, w, dp, q1, q2, q3, q4⟩ := i1.ptr v d hv fv1 hd' hvt
        obtain ⟨_, hp, hne⟩ := h.lt q2
        have hw := h.hop_pos _ e v p w (Nat.le_refl _) q2 (by omega)
        have hcp := nearer_lt (n := n) q3 hd (by omega) hp
        have hcp' : (nearer A n t p + 1) * (n + 1) ≤ nearer A n t v * (n + 1) := Nat.mul_le_mul_right _ hcp
        rw [Nat.add_mul] at hcp'
        have hLp : n ≤ L ∨ min v p ≤ L := by
          rcases hL with hL | ⟨y, e', g1, g2, g3⟩
          · exact .inl hL
          · have := same1 v d g1
            rw [q1, g2] at this; simp at this; rw [this.1]; exact .inr g3
        rw [q1]
        simp only [Option.bind_some]
        rw [if_neg (fun h => hne h.symm)]
        obtain ⟨s2, f2, a2, i2, fp2, F2, _⟩ := get_dist h i1 hp q3 (by omega)
        simp only [a2, Option.bind_some]
        obtain ⟨s3, f3, u3, a3, i3, up3, fp3, F3⟩ := ih s2 f2 u p dp n i2 hp q3 (by omega) (.inl (Nat.le_refl _)) (by omega)
        have hchk : check dbg (decide (dp ≤ d)) = some () := by simp [check]; omega
        simp only [a3, Option.bind_some, hchk]
        have fv2 := F2.keep v d fv1
        have fv3 := F3.keep v d fv2
        have hu3 : u3 v = false := by
          cases hc : u3 v with
          | false => rfl
          | true => have := F3.farU v d hd (by omega) hne hc; rw [huv] at this; simp at this
        have q1' : s3.parents[v]? = some (p, e) := by
          rw [F3.far v d fv2 (by omega) hne, F2.far v d fv1 (by omega) hne, q1]
        have hnear : ∀ x z, f x = some z ∨ IsDist A x t z → d ≤ z → x ≠ v → x ≠ p := by
          rintro x z hxz hz _ rfl
          rcases hxz with hxz | hxz
          · have := F1.keep x z hxz
            have := F2.keep x z this
            rw [fp2] at this; simp at this; omega
          · have := hxz.unique q3; omega
        have F03 : Frame A t d v s s3 f f3 u u3 := by
          have := (F1.trans F2 (D2 := d) (v2 := v) (by omega) (by omega) (fun _ _ _ _ h => h) hnear)
          exact this.trans F3 (by omega) (by omega) (fun _ _ _ _ h => h) hnear
        obtain ⟨down, up, a4, hcase⟩ := h.hop e v p w q2 (by omega)
        simp only [a4, Option.bind_some]
        rcases hcase with ⟨rfl, hA⟩ | ⟨ea, eb, m, wa, wb, rfl, rfl, hm, hmv, hmp, ha, hb, rfl⟩
        · obtain ⟨s', e1, e2, e3⟩ := setUnpacked_spec i3 hv fv3 hd' (.inr (.inr ⟨p, e, w, dp, hp, q1', hA, up3, fp3, q4⟩))
          exact ⟨s', f3, _, e1, e2, by simp, fv3, F03.trans e3 (by omega) (by omega) (fun _ _ _ _ h => h) (fun _ _ _ _ h => h)⟩
        · have hmn : m < n := by omega
          have hvm : v ≠ m := by omega
          have hwb := h.hop_pos _ eb m p wb (Nat.le_refl _) hb (by omega)
          have hwa := h.hop_pos _ ea v m wa (Nat.le_refl _) ha (by omega)
          have hdm : IsDist A m t (wb + dp) := by
            refine ⟨(h.walk hb (by omega)).append q3.1, fun z hz => ?_⟩
            have := hd.2 _ ((h.walk ha (by omega)).append hz)
            omega
          have hmt : m ≠ t := by
            rintro rfl
            have := hdm.2 0 (.nil m)
            omega
          have hcm := nearer_lt (n := n) hdm hd (by omega) hmn
          have hcm' : (nearer A n t m + 1) * (n + 1) ≤ nearer A n t v * (n + 1) := Nat.mul_le_mul_right _ hcm
          rw [Nat.add_mul] at hcm'
          have hupd : upd s3.parents v (m, ea) = some (s3.parents.set v (m, ea)) := upd_of_lt _ (by rw [i3.len]; exact hv)
          have i4 := i3.redirect hv fv3 hvt hu3 ha hdm (by omega)
          have F4 : Frame A t d v s _ f f3 u u3 := F03.trans (frame_redirect (y := m) (e := ea) hu3) (by omega) (by omega) (fun _ _ _ _ h => h) (fun _ _ _ _ h => h)
          have q5 : (s3.parents.set v (m, ea))[v]? = some (m, ea) := by simp [i3.len, hv]
          have hnm : ∀ x z, f x = some z ∨ IsDist A x t z → d ≤ z → x ≠ v → x ≠ m := by
            rintro x z hxz hz _ rfl
            rcases hxz with hxz | hxz
            · have := F03.keep x z hxz
              have := h.cap (i3.memo.val x z this) hdm (by omega) hmn hi.tn
              omega
            · have := hxz.unique hdm; omega
          simp only [Option.bind_some, hm, hupd]
          generalize hs4 : ({ s3 with parents := s3.parents.set v (m, ea) } : PathState) = s4 at *
          have q5 : s4.parents[v]? = some (m, ea) := by rw [← hs4]; exact q5
          rw [i3.unp.get hmn]
          simp only [Option.bind_some]
          -- the middle node
          have hmid : ∃ s5 f5 u5, (if u3 m = true then some s4 else (P.enter s4 m p eb).bind fun s => P.unpack dbg fuel s m) = some s5 ∧
              PInv n P A t b s5 f5 u5 ∧ Frame A t d v s s5 f f5 u u5 ∧ u5 v = false ∧ s5.parents[v]? = some (m, ea) ∧ f5 v = some d := by
            cases hum : u3 m with
            | true => exact ⟨s4, f3, u3, by simp, i4, F4, hu3, q5, fv3⟩
            | false =>
              obtain ⟨s5, f5, a5, i5, fm5, F5, _⟩ := get_dist h i4 hmn hdm (by omega)
              have hupd : upd s5.parents m (p, eb) = some (s5.parents.set m (p, eb)) := upd_of_lt _ (by rw [i5.len]; exact hmn)
              have i6 := i5.redirect hmn fm5 hmt hum hb q3 rfl
              have fv5 := F5.keep v d fv3
              obtain ⟨s7, f7, u7, a7, i7, um7, fm7, F7⟩ := ih _ f5 u3 m (wb + dp) n i6 hmn hdm (by omega) (.inl (Nat.le_refl _)) (by omega)
              refine ⟨s7, f7, u7, by simp [PathPot.enter, a5, hupd, a7], i7, ?_, ?_, ?_, F7.keep v d fv5⟩
              · have F6 := (F4.trans F5 (D2 := d) (v2 := v) (by omega) (by omega) (fun _ _ _ _ h => h) hnm).trans
                  (frame_redirect (y := p) (e := eb) hum) (D2 := d) (v2 := v) (by omega) (by omega) (fun _ _ _ _ h => h) hnm
                exact F6.trans F7 (by omega) (by omega) (fun _ _ _ _ h => h) hnm
              · cases hc : u7 v with
                | false => rfl
                | true => have := F7.farU v d hd (by omega) hvm hc; rw [hu3] at this; simp at this
              · rw [F7.far v d fv5 (by omega) hvm]
                show (s5.parents.set m (p, eb))[v]? = _
                rw [List.getElem?_set_ne (fun h => hvm h.symm), F5.far v d fv3 (by omega) hvm, q5]
          obtain ⟨s5, f5, u5, a5, i5, F5, hu5, q6, fv5⟩ := hmid
          have hchk : ∃ s6 f6, P.checkMiddle dbg s5 m dp eb = some s6 ∧ PInv n P A t b s6 f6 u5 ∧ Frame A t d v s s6 f f6 u u5 ∧
              s6.parents[v]? = some (m, ea) ∧ f6 v = some d := by
            cases dbg with
            | false => exact ⟨s5, f5, rfl, i5, F5, q6, fv5⟩
            | true =>
              obtain ⟨s6, f6, a6, i6, fm6, F6, _⟩ := get_dist h i5 hmn hdm (by omega)
              have hwt : P.fw.weight[eb]? = some wb := by
                rcases hb with ⟨hb, _⟩ | ⟨_, hb⟩
                · obtain ⟨_, _, _, _, _, _, _, hb⟩ := hb; exact hb
                · omega
              have hadd : add32 dp wb = some (dp + wb) := add32_of_lt (by simp only [INFINITY, U32] at *; omega)
              refine ⟨s6, f6, by simp [PathPot.checkMiddle, a6, hwt, hadd, check, Nat.add_comm], i6, ?_, ?_, F6.keep v d fv5⟩
              · exact F5.trans F6 (by omega) (by omega) (fun _ _ _ _ h => h) hnm
              · rw [F6.far v d fv5 (by omega) hvm, q6]
          obtain ⟨s6, f6, a6, i6, F6, q7, fv6⟩ := hchk
          obtain ⟨s7, f7, u7, a7, i7, uv7, fv7, F7⟩ := ih s6 f6 u5 v d (min v m) i6 hv hd hd' (.inr ⟨m, ea, fv6, q7, Nat.le_refl _⟩) (by omega)
          obtain ⟨s', e1, e2, e3⟩ := setUnpacked_spec i7 hv fv7 hd' (.inl uv7)
          refine ⟨s', f7, _, ?_, e2, by simp, fv7, ?_⟩
          · cases hum : u3 m with
            | true =>
              rw [hum] at a5; simp at a5; subst a5
              simp [a6, a7, e1]
            | false =>
              rw [hum] at a5; simp only [Bool.false_eq_true, if_false] at a5 ⊢
              obtain ⟨sx, x1, x2⟩ := Option.bind_eq_some_iff.1 a5
              simp [x1, x2, a6, a7, e1]
          exact (F6.trans F7 (D2 := d) (v2 := v) (by omega) (by omega) (fun _ _ _ _ h => h) (fun _ _ _ _ h => h)).trans e3 (by omega) (by omega)
            (fun _ _ _ _ h => h) (fun _ _ _ _ h => h)

end CCH
end Verif
