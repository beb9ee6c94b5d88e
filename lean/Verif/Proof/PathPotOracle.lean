import Verif.Proof.PathPotUnpack
import Verif.Proof.PerfectQuery
set_option linter.unusedSimpArgs false
set_option linter.unusedVariables false
/- The path unpacking potential is a source of shortest path trees. -/
namespace Verif
namespace CCH
open Spec GraphOps FOGraph Bits UBS

variable {n : Nat} {P : PathPot} {A : Nat → Nat → Nat → Prop}

/-- between calls -/
structure PReady (n : Nat) (s : PathState) : Prop where
  stack : s.stack = []
  pots : ∃ f, TRep n none s.pots f
  bwd : ∃ b, TRep n INFINITY s.bwDist b
  unp : ∃ u, FRep n s.unpacked u
  len : s.parents.length = n

theorem PReady.new (n m : Nat) : PReady n (PathState.new n m) :=
  ⟨rfl, ⟨_, TRep.new⟩, ⟨_, TRep.new⟩, ⟨_, FRep.new⟩, by simp [PathState.new]⟩

theorem PInv.ready {t : Nat} {b : Nat → Nat} {s : PathState} {f : Nat → Option Nat} {u : Nat → Bool} (h : PInv n P A t b s f u) : PReady n s :=
  ⟨h.stack, ⟨_, h.pots⟩, ⟨_, h.bwd⟩, ⟨_, h.unp⟩, h.len⟩

def POn (n : Nat) (P : PathPot) (A : Nat → Nat → Nat → Prop) (root : Nat) (path : List Nat) (s : PathState) : Prop :=
  (∃ b f u, PInv n P A root b s f u) ∧ ∀ v ∈ path, v < n ∧ ∃ d, d < INFINITY ∧ IsDist A v root d

def PGood (n : Nat) (root : Nat) (s : PathState) (v : Nat) : Prop := v < n ∧ s.unpacked.get v = some true

theorem PInv.keeps {t : Nat} {b b' : Nat → Nat} {s s' : PathState} {f f' : Nat → Option Nat} {u u' : Nat → Bool} {D v : Nat} {dbg : Bool}
    (h : PInv n P A t b s f u) (h' : PInv n P A t b' s' f' u') (hF : Frame A t D v s s' f f' u u') : Keeps (P.oracle dbg n) (PGood n) t s s' := by
  rintro x ⟨hx, hg⟩
  rw [h.unp.get hx] at hg
  obtain ⟨h1, h2⟩ := hF.unp x (by simpa using hg)
  exact ⟨⟨hx, by rw [h'.unp.get hx, h1]⟩, fun _ => by simp [PathPot.oracle, h2]⟩

theorem PInv.up {t : Nat} {b : Nat → Nat} {s : PathState} {f : Nat → Option Nat} {u : Nat → Bool} (h : HOK n P A) (hi : PInv n P A t b s f u) :
    ∀ (N v : Nat), nearer A n t v ≤ N → v < n → u v = true →
      ∃ d k, k ≤ nearer A n t v ∧ Up (fun v => (s.parents[v]?).map Prod.fst) A t v d k ∧ IsDist A v t d := by
  intro N
  induction N with
  | zero =>
    intro v hN hv hu
    obtain ⟨d, k1, k2, k3⟩ := hi.good v hv hu
    have hd := h.dist (hi.memo.val v d k1) k2 hv hi.tn
    by_cases hvt : v = t
    · subst hvt
      exact ⟨0, 0, by omega, .nil, .nil v, by intro d' _; omega⟩
    · obtain ⟨y, e, w, dy, q1, q2, q3, q4, q5, q6⟩ := k3 hvt
      have hp := h.pos _ _ _ q3
      have := nearer_lt (n := n) (h.dist (hi.memo.val y dy q5) (by omega) q1 hi.tn) hd (by omega) q1
      omega
  | succ N ih =>
    intro v hN hv hu
    obtain ⟨d, k1, k2, k3⟩ := hi.good v hv hu
    have hd := h.dist (hi.memo.val v d k1) k2 hv hi.tn
    by_cases hvt : v = t
    · subst hvt
      exact ⟨0, 0, by omega, .nil, .nil v, by intro d' _; omega⟩
    · obtain ⟨y, e, w, dy, q1, q2, q3, q4, q5, q6⟩ := k3 hvt
      have hp := h.pos _ _ _ q3
      have hdy := h.dist (hi.memo.val y dy q5) (by omega) q1 hi.tn
      have := nearer_lt (n := n) hdy hd (by omega) q1
      obtain ⟨d', k, r1, r2, r3⟩ := ih y (by omega) q1 q4
      have := r3.unique hdy
      subst this
      exact ⟨w + d', k + 1, by omega, .cons hvt (by simp [q2]) q3 r2, by rw [← q6]; exact hd⟩

theorem pathOracle_ok (h : HOK n P A) (dbg : Bool) : OracleOK (P.oracle dbg n) n A (PReady n) (POn n P A) (PGood n) where
  init := by
    intro t ranks root path ht hreq
    obtain ⟨s', b, h1, h2⟩ := init_spec h ht.stack ht.pots ht.bwd ht.unp ht.len (hreq.lt root hreq.rmem)
    exact ⟨s', h1, ⟨b, _, _, h2⟩, fun v hv => ⟨hreq.lt v hv, hreq.fin v hv⟩⟩
  ready := by rintro t root path ⟨⟨b, f, u, h⟩, _⟩; exact h.ready
  dist := by
    rintro t root path v d ⟨⟨b, f, u, hi⟩, hp⟩ hv hd
    obtain ⟨hvn, d', h1, h2⟩ := hp v hv
    have := h2.unique hd
    subst this
    obtain ⟨s', f', e1, e2, e3, e4, _⟩ := get_dist h hi hvn hd h1
    exact ⟨s', by simp [PathPot.oracle, e1], ⟨⟨b, f', u, e2⟩, hp⟩, hi.keeps e2 e4⟩
  unpack := by
    rintro t root path v ⟨⟨b, f, u, hi⟩, hp⟩ hv
    obtain ⟨hvn, d, h1, h2⟩ := hp v hv
    have hc := nearer_lt_n (A := A) (t := root) hvn
    have hm : (nearer A n root v + 1) * (n + 1) ≤ n * (n + 1) := Nat.mul_le_mul_right _ hc
    obtain ⟨s', f', u', e1, e2, e3, e4, e5⟩ := unpack_spec h dbg ((n + 1) * (n + 1)) t f u v d n hi hvn h2 h1 (.inl (Nat.le_refl _)) (by
      rw [Nat.add_mul] at hm ⊢; omega)
    exact ⟨s', e1, ⟨⟨b, f', u', e2⟩, hp⟩, hi.keeps e2 e5, hvn, by rw [e2.unp.get hvn, e3]⟩
  up := by
    rintro t root path v ⟨⟨b, f, u, hi⟩, hp⟩ ⟨hv, hg⟩
    rw [hi.unp.get hv] at hg
    obtain ⟨d, k, h1, h2, h3⟩ := hi.up h _ v (Nat.le_refl _) hv (by simpa using hg)
    have := nearer_lt_n (A := A) (t := root) hv
    exact ⟨hv, d, k, by omega, h2, h3⟩
  anc := by
    rintro t root path v p ⟨⟨b, f, u, hi⟩, hp⟩ ⟨hv, hg⟩ hvr hpar
    rw [hi.unp.get hv] at hg
    obtain ⟨d, _, _, h3⟩ := hi.good v hv (by simpa using hg)
    obtain ⟨y, e, w, dy, q1, q2, q3, q4, _⟩ := h3 hvr
    simp [PathPot.oracle, q2] at hpar
    subst hpar
    exact ⟨q1, by rw [hi.unp.get q1, q4]⟩

/-! ### after perfect customization -/

section
variable {c : Cch} {O : Nat → Nat → Nat → Prop} {w0 w : Weights} {p : PW}

/-- unpacking information for an edge from `x` to `y` -/
def pairAt (fb : Side × Side) (x y e : Nat) : Option (Option Nat × Option Nat) := if x < y then fb.1.unp[e]? else fb.2.unp[e]?

theorem Perf.hopH (h : Perf n c O w0 w p) {e x y l : Nat} (hH : (forwardPathPot c (perfSides n c w p)).H e x y l) (hl : l < INFINITY) :
    (pairAt (perfSides n c w p) x y e = some (none, none) ∧ O x y l) ∨
    ∃ a b m wa wb, pairAt (perfSides n c w p) x y e = some (some a, some b) ∧ (perfSides n c w p).1.tail[b]? = some m ∧ (perfSides n c w p).2.tail[a]? = some m ∧
      m < x ∧ m < y ∧ (forwardPathPot c (perfSides n c w p)).H a x m wa ∧ (forwardPathPot c (perfSides n c w p)).H b m y wb ∧ l = wa + wb := by
  have hg := h.cust.good
  have hw := h.cust.ok
  obtain ⟨i1, i2⟩ := h.inOK
  have hpu : ∀ {e}, e < c.head.length → (p.sides w).1.weight[e]? = some (p.u e) := by
    intro e he
    have hp := h.pok
    show p.up[e]? = _
    rw [PW.u, List.getElem?_eq_getElem (by rw [hp.ul]; exact he)]; rfl
  have hpd : ∀ {e}, e < c.head.length → (p.sides w).2.weight[e]? = some (p.d e) := by
    intro e he
    have hp := h.pok
    show p.down[e]? = _
    rw [PW.d, List.getElem?_eq_getElem (by rw [hp.dl]; exact he)]; rfl
  -- the edge of the cch
  obtain ⟨e0, he, hk, rfl, hlw⟩ : ∃ e0, Hop c e0 x y ∧ kp (hopSide w p x y) e0 = true ∧ e = kcount (hopSide w p x y) e0 ∧ l = hopW w e0 x y := by
    rcases hH with ⟨hE, hlt⟩ | ⟨hE, hlt⟩
    · obtain ⟨e0, h1, h2, rfl, h3⟩ := (side_E hg.toBase i1).1 hE
      rw [hpu (Edge.lt h1), (h.kept_up h1).2 h2] at h3; simp at h3
      exact ⟨e0, .inl h1, by simpa [hopSide, hlt] using h2, by simp [hopSide, hlt], by simp [hopW, hlt, h3]⟩
    · obtain ⟨e0, h1, h2, rfl, h3⟩ := (side_E hg.toBase i2).1 hE
      rw [hpd (Edge.lt h1), (h.kept_down h1).2 h2] at h3; simp at h3
      have hlt' : ¬ x < y := by omega
      exact ⟨e0, .inr h1, by simpa [hopSide, hlt'] using h2, by simp [hopSide, hlt'], by simp [hopW, hlt', h3]⟩
  have hmin := (h.kept_hop he).1 hk
  have hun := h.hop_unp he hk (hopArr_get hw he)
  have hpair : pairAt (perfSides n c w p) x y (kcount (hopSide w p x y) e0) = (hopArr (perfWeights (perfSides n c w p)) x y)[kcount (hopSide w p x y) e0]? := by
    unfold pairAt hopArr perfWeights; split <;> rfl
  rw [hpair, hun]
  rcases (h.cust.solved.hop hg.toBase he).wit with k1 | ⟨z, t, a, b, ⟨ha, hb, rfl⟩, k2, _, _⟩
  · left
    simp only [Prod.mk.injEq] at k1
    refine ⟨by rw [k1.2]; simp [mp], ?_⟩
    rw [hlw, k1.1]
    rw [hlw, k1.1] at hl
    unfold hopW at hl ⊢
    rcases he with he | he
    · have hlt := (hg.up he).1
      simp only [hlt, if_true] at hl ⊢
      exact h.cust.init.upArc he hl
    · have hlt := (hg.up he).1
      simp only [Nat.not_lt.2 (Nat.le_of_lt hlt), if_false] at hl ⊢
      exact h.cust.init.downArc he hl
  · right
    simp only [Prod.mk.injEq] at k2
    have h3 := (hg.up ha).1
    have h4 := (hg.up hb).1
    have wb : Walk (CArc c w) z y (w.u b) := by
      have := Walk.cons (show CArc c w z y (w.u b) from .inl ⟨b, hb, rfl⟩) (.nil y); simpa using this
    have wa : Walk (CArc c w) x z (w.d a) := by
      have := Walk.cons (show CArc c w x z (w.d a) from .inr ⟨a, ha, rfl⟩) (.nil z); simpa using this
    have ka : kp (p.sides w).2 a = true := by
      rw [(h.kept_down ha).1]
      intro d hd
      have := hmin _ (hd.append wb)
      omega
    have kb : kp (p.sides w).1 b = true := by
      rw [(h.kept_up hb).1]
      intro d hd
      have := hmin _ (wa.append hd)
      omega
    refine ⟨kcount (p.sides w).2 a, kcount (p.sides w).1 b, z, w.d a, w.u b, ?_, ?_, ?_, h3, h4, .inr ⟨?_, h3⟩, .inl ⟨?_, h4⟩, by rw [hlw, k2.1]⟩
    · rw [k2.2]; simp [mp, kmap, ka, kb]
    · have := hb.1
      simp only [perfSides, sideAt, List.getElem?_map, kept_get _ (Edge.lt hb) kb, Option.map_some, recOf, this, Option.getD_some]
    · have := ha.1
      simp only [perfSides, sideAt, List.getElem?_map, kept_get _ (Edge.lt ha) ka, Option.map_some, recOf, this, Option.getD_some]
    · exact (side_E hg.toBase i2).2 ⟨a, ha, ka, rfl, by rw [hpd (Edge.lt ha), (h.kept_down ha).2 ka]⟩
    · exact (side_E hg.toBase i1).2 ⟨b, hb, kb, rfl, by rw [hpu (Edge.lt hb), (h.kept_up hb).2 kb]⟩

theorem Perf.dirs (h : Perf n c O w0 w p) :
    DirOK n c.elimTree (perfSides n c w p).1.graph ∧ DirOK n c.elimTree (perfSides n c w p).2.graph ∧
    (∀ s t d, UpDown (perfSides n c w p).1.graph.Arc (perfSides n c w p).2.graph.Arc s t d → d < INFINITY → Walk O s t d) ∧
    (∀ s t d, Walk O s t d → ∃ d', d' ≤ d ∧ UpDown (perfSides n c w p).1.graph.Arc (perfSides n c w p).2.graph.Arc s t d') := by
  have hg := h.cust.good
  have tF := h.thinF INFINITY
  have tB := h.thinB INFINITY
  refine ⟨DirOK.thin tF (fw_dirOK hg h.cust.ok), DirOK.thin tB (bw_dirOK hg h.cust.ok), ?_, ?_⟩
  · intro s t d hu hd
    exact (Solved.updown hg h.cust.ok h.cust.init h.cust.solved h.cust.cover s t).2 d (thin_sub tF tB hu) hd
  · intro s t d hw
    obtain ⟨d1, e1, e2⟩ := (Solved.updown hg h.cust.ok h.cust.init h.cust.solved h.cust.cover s t).1 d hw
    obtain ⟨d2, e3, e4, _⟩ := h.cust.thin_updown (h.thinF (d1 + 1)) (h.thinB (d1 + 1)) (updown_walk tF tB e2) (by omega)
    exact ⟨d2, by omega, e4⟩

/-- distances to a node -/
theorem Perf.forward (h : Perf n c O w0 w p) (hpos : ∀ u v l, O u v l → 0 < l) : HOK n (forwardPathPot c (perfSides n c w p)) O := by
  obtain ⟨dF, dB, hs, hc⟩ := h.dirs
  refine ⟨h.cust.good.treeOK, dF, dB, hpos, hs, fun s t d _ _ hw => hc s t d hw, ?_⟩
  intro e x y l hH hl
  have hhop : (forwardPathPot c (perfSides n c w p)).hop x y e = pairAt (perfSides n c w p) x y e := by
    unfold PathPot.hop pairAt
    simp only [forwardPathPot, gt_iff_lt, Bool.false_eq_true, if_false]
    split <;> (cases hc : (_ : List (Option Nat × Option Nat))[e]? <;> simp [hc])
  rcases h.hopH hH hl with ⟨h1, h2⟩ | ⟨a, b, m, wa, wb, h1, h2, h3, h4⟩
  · exact ⟨none, none, by rw [hhop, h1], .inl ⟨rfl, h2⟩⟩
  · exact ⟨some a, some b, by rw [hhop, h1], .inr ⟨a, b, m, wa, wb, rfl, rfl, h2, h4⟩⟩

theorem backward_H {c : Cch} {fb : Side × Side} {e x y l : Nat} : (backwardPathPot c fb).H e x y l ↔ (forwardPathPot c fb).H e y x l := by
  unfold PathPot.H
  simp only [backwardPathPot, forwardPathPot]
  exact or_comm

theorem UpDown.flip {F B : Nat → Nat → Nat → Prop} {s t d : Nat} (h : UpDown F B s t d) : UpDown B F t s d := by
  obtain ⟨m, a, b, h1, h2, rfl⟩ := h
  exact ⟨m, b, a, h2, h1, by omega⟩

/-- distances from a node -/
theorem Perf.backward (h : Perf n c O w0 w p) (hpos : ∀ u v l, O u v l → 0 < l) : HOK n (backwardPathPot c (perfSides n c w p)) (Rev O) := by
  obtain ⟨dF, dB, hs, hc⟩ := h.dirs
  refine ⟨h.cust.good.treeOK, dB, dF, fun u v l => hpos v u l, fun s t d hu hd => walk_rev.2 (hs t s d hu.flip hd), fun s t d _ _ hw => ?_, ?_⟩
  · obtain ⟨d', h1, h2⟩ := hc t s d (walk_rev.1 hw)
    exact ⟨d', h1, h2.flip⟩
  intro e x y l hH hl
  rw [backward_H] at hH
  have hne : x ≠ y := by
    rcases hH with ⟨_, h⟩ | ⟨_, h⟩ <;> omega
  have hhop : (backwardPathPot c (perfSides n c w p)).hop x y e = (pairAt (perfSides n c w p) y x e).map Prod.swap := by
    unfold PathPot.hop pairAt
    simp only [backwardPathPot, gt_iff_lt, if_true]
    by_cases hxy : x < y
    · have : ¬ y < x := by omega
      simp only [hxy, this, if_true, if_false]
      cases hc : (perfSides n c w p).2.unp[e]? <;> simp [hc, Prod.swap]
    · have : y < x := by omega
      simp only [hxy, this, if_true, if_false]
      cases hc : (perfSides n c w p).1.unp[e]? <;> simp [hc, Prod.swap]
  rcases h.hopH hH hl with ⟨h1, h2⟩ | ⟨a, b, m, wa, wb, h1, h2, h3, h4, h5, h6, h7, h8⟩
  · exact ⟨none, none, by rw [hhop, h1]; rfl, .inl ⟨rfl, h2⟩⟩
  · exact ⟨some b, some a, by rw [hhop, h1]; rfl, .inr ⟨b, a, m, wb, wa, rfl, rfl, h3, h5, h4, backward_H.2 h7, backward_H.2 h6, by omega⟩⟩

end

end CCH
end Verif
