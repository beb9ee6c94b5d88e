import Verif.Model.BiDijkstra
import Verif.Proof.DijkstraStatic
set_option linter.unusedSimpArgs false
set_option linter.unusedVariables false
/- Correctness of bidirectional Dijkstra. -/
namespace Verif
open Spec DData

/-- What is needed of a strategy: a queue that is not empty is chosen if there is one, and the search may stop
after a step in which both queues were empty. -/
structure Chooser.OK {δ : Type} (ch : Chooser δ) : Prop where
  fw : ∀ c b, (ch.choose c none (some b)).1 = false
  bw : ∀ c f, (ch.choose c (some f) none).1 = true
  stop : ∀ c, ch.mayStop c = false → ch.mayStop (ch.choose c none none).2 = true

theorem minKeyDir_ok : minKeyDir.OK := ⟨fun _ _ => rfl, fun _ _ => rfl, fun _ _ => rfl⟩
theorem alternatingDirs_ok : alternatingDirs.OK :=
  ⟨fun _ _ => rfl, fun _ _ => rfl, fun c h => by cases c <;> simp [alternatingDirs] at *⟩

namespace BiD

abbrev zp (n : Nat) (links : Nat → Option (List Link)) : Prob Link Unit := staticProb n links (fun _ => 0)

/-- One of the two searches: running, or not started. -/
def Side (p : Prob Link Unit) (s : Nat) (a : Abs Unit) (S : List Nat) : Prop :=
  DInv p s 0 (fun _ _ => False) a S ∨
    (S = [] ∧ s < p.n ∧ a.D = fupd (fun _ => INFINITY) s 0 ∧ a.Q = fupd (fun _ => none) s (some 0))

theorem Side.src {p : Prob Link Unit} {s : Nat} {a : Abs Unit} {S : List Nat} (h : Side p s a S) : a.D s = 0 := by
  rcases h with h | ⟨_, _, h, _⟩
  · exact h.src
  · rw [h]; simp

theorem Side.length_le {p : Prob Link Unit} {s : Nat} {a : Abs Unit} {S : List Nat} (h : Side p s a S) : S.length ≤ p.n := by
  rcases h with h | ⟨h, _⟩
  · exact h.length_le
  · rw [h]; simp

theorem Side.ub {p : Prob Link Unit} {s : Nat} {a : Abs Unit} {S : List Nat} (h : Side p s a S) (v : Nat) : a.D v ≤ INFINITY := by
  rcases h with h | ⟨_, _, h, _⟩
  · exact h.ub v
  · rw [h]; unfold fupd; split <;> simp

theorem Side.key {n : Nat} {links : Nat → Option (List Link)} {s : Nat} {a : Abs Unit} {S : List Nat}
    (h : Side (zp n links) s a S) {v k : Nat} (hk : a.Q v = some k) : k < INFINITY := by
  rcases h with h | ⟨_, _, _, h⟩
  · obtain ⟨_, _, h1, _, h2⟩ := h.queue v k hk
    have : (zp n links).pi v = 0 := rfl
    omega
  · rw [h] at hk
    by_cases hv : v = s
    · subst hv; simp at hk; subst hk; decide
    · rw [fupd_of_ne _ _ hv] at hk; simp at hk

theorem Side.walk {n : Nat} {links : Nat → Option (List Link)} {s : Nat} {a : Abs Unit} {S : List Nat}
    (h : Side (zp n links) s a S) {v : Nat} (hv : a.D v < INFINITY) : Walk (LArc links) s v (a.D v) := by
  rcases h with h | ⟨_, _, h, _⟩
  · obtain ⟨d, h1, h2⟩ := static_walk.1 (h.walk v hv)
    rw [h2, Nat.zero_add]; exact h1
  · rw [h] at hv ⊢
    by_cases hvs : v = s
    · subst hvs; simp; exact .nil _
    · rw [fupd_of_ne _ _ hvs] at hv; simp at hv

/-- Nodes closer than all queued nodes are settled. -/
theorem Side.frontier {n : Nat} {links : Nat → Option (List Link)} (hl : LinksOK n links) {s : Nat} {a : Abs Unit} {S : List Nat}
    (h : Side (zp n links) s a S) {v x : Nat} (hw : Walk (LArc links) s v x) (hx : x < INFINITY)
    (hq : ∀ u k, a.Q u = some k → x < k) : v ∈ S ∧ a.D v ≤ x := by
  rcases h with h | ⟨_, _, _, h⟩
  · have hp := staticProb_ok hl (zero_feasible _)
    have hw' : TWalk (zp n links).F s 0 v x := static_walk.2 ⟨x, hw, by simp⟩
    have h0 : (zp n links).pi v < INFINITY := by show (0:Nat) < INFINITY; decide
    have hw2 := Prob.walkG (p := zp n links) (by intro u a y _ _; show (0:Nat) < INFINITY; decide) hw' hx
    rcases Verif.frontier hp h hw2 hx h0 with h1 | ⟨y, k, h1, h2⟩
    · exact h1
    · have := hq y k h1
      have h3 : (staticProb n links (fun _ => 0)).pi v = 0 := rfl
      rw [h3] at h2
      omega
  · have := hq s 0 (by rw [h]; simp)
    omega

theorem Side.relaxed {n : Nat} {links : Nat → Option (List Link)} {s : Nat} {a : Abs Unit} {S : List Nat}
    (h : Side (zp n links) s a S) {u v w : Nat} (hu : u ∈ S) (ha : LArc links u v w) : a.D v ≤ a.D u + w := by
  rcases h with h | ⟨h, _⟩
  · obtain ⟨ls, h1, h2⟩ := ha
    exact h.relaxed u hu ls ⟨v, w⟩ h1 h2 (by simp)
  · rw [h] at hu; simp at hu

/-- A step of one search. -/
theorem Side.settle {N n : Nat} (hN : n ≤ N) {links : Nat → Option (List Link)} (hl : LinksOK n links) {σ : Type} {s : Nat} {a : Abs Unit}
    {S : List Nat} {cb : σ → Nat → Nat → Option (σ × Option Nat)} {J : σ → (Nat → Nat) → Prop}
    (hcb : CbOK (zp n links) s 0 cb J) {d : DData Unit} {c : σ} (h : Side (zp n links) s a S) (hr : Refines N d a) (hj : J c a.D) :
    (settleNext links defaultOps cb d c = some (none, d, c) ∧ ∀ v, a.Q v = none) ∨
    ∃ v d' c' a', settleNext links defaultOps cb d c = some (some v, d', c') ∧ Refines N d' a' ∧
      DInv (zp n links) s 0 (fun _ _ => False) a' (v :: S) ∧ J c' a'.D := by
  have hp := staticProb_ok hl (zero_feasible _)
  rcases h with h | ⟨h1, h2, h3, h4⟩
  · rcases settle_spec' hN hp hcb hr h hj with ⟨g1, g2⟩ | ⟨v, k, d', c', a', g1, g2, g3, g4, _⟩
    · exact .inl ⟨g1, g2⟩
    · exact .inr ⟨v, d', c', a', g1, g2, g3, g4⟩
  · right
    obtain ⟨D, Q, P⟩ := a
    simp only at h3 h4
    subst h1 h3 h4
    obtain ⟨d', c', a', g1, g2, g3, g4⟩ := start_settle' hN hp hcb hr h2 (by decide) hj
    exact ⟨s, d', c', a', g1, g2, g3, g4⟩

/-- the smallest key -/
theorem peekKey_spec {n : Nat} {d : DData Unit} {a : Abs Unit} (hr : Refines n d a) :
    (d.peekKey = none ∧ ∀ v, a.Q v = none) ∨
    ∃ v k, d.peekKey = some k ∧ a.Q v = some k ∧ ∀ u k', a.Q u = some k' → k ≤ k' := by
  rcases IHeap.rep_peek hr.queue with ⟨h1, h2⟩ | ⟨x, h1, h2, h3⟩
  · left
    refine ⟨by simp [peekKey, h1], fun v => ?_⟩
    have := h2 v; simpa using this
  · right
    simp only [idx_q, Option.map_eq_some_iff] at h2
    obtain ⟨k, hk, hx⟩ := h2
    have hkey : x.key = k := by rw [← hx]
    refine ⟨x.node, k, by simp [peekKey, h1, hkey], hk, ?_⟩
    intro u k' hu
    have := h3 u ⟨k', u⟩ (by simp [hu])
    simp only [IHeap.le, HeapElem.lt] at this
    simp at this; omega

/-- The invariant of (`tentative_distance`, `meeting_node`). -/
structure BJ (n : Nat) (c : Nat × Nat) (D E : Nat → Nat) : Prop where
  ub : c.1 ≤ INFINITY
  le : ∀ v, c.1 ≤ D v + E v
  meet : c.1 < INFINITY → c.2 < n ∧ c.1 = D c.2 + E c.2

theorem BJ.symm {n : Nat} {c : Nat × Nat} {D E : Nat → Nat} (h : BJ n c D E) : BJ n c E D :=
  ⟨h.ub, fun v => by rw [Nat.add_comm]; exact h.le v, fun hc => by rw [Nat.add_comm]; exact h.meet hc⟩

/-- The closures keep this invariant (zero potentials). -/
theorem cb_ok {N n : Nat} (hN : n ≤ N) {links : Nat → Option (List Link)} {s cap : Nat} {bd : DData Unit} {b : Abs Unit} (hr : Refines N bd b)
    (hub : ∀ v, b.D v ≤ INFINITY) :
    CbOK (zp n links) s 0 (cb (fun _ _ _ _ => some false) (fun _ => some 0) bd cap) (fun c D => BJ n c D b.D) := by
  intro c D v l hj hv hl hinf _
  have hv' : v < n := hv
  have h1 : add32 0 l = some l := by
    rw [add32_of_lt (by simp only [INFINITY, U32] at *; omega)]; simp
  have h2 : (0 : Nat) < INFINITY := by decide
  have hb := hub v
  have h3 : add32 l (b.D v) = some (l + b.D v) := add32_of_lt (by simp only [INFINITY, U32] at *; omega)
  refine ⟨if l + b.D v < c.1 then (l + b.D v, v) else c, ?_, ?_⟩
  · simp [cb, hr.get (Nat.lt_of_lt_of_le hv' hN), h3, h1, staticProb, h2]
  · by_cases hlt : l + b.D v < c.1
    · simp only [hlt, if_true]
      refine ⟨by have := hj.ub; simp only; omega, ?_, ?_⟩
      · intro u
        by_cases hu : u = v
        · subst hu; simp
        · rw [fupd_of_ne _ _ hu]; have := hj.le u; simp only; omega
      · intro _; exact ⟨hv', by simp⟩
    · simp only [hlt, if_false]
      refine ⟨hj.ub, ?_, ?_⟩
      · intro u
        by_cases hu : u = v
        · subst hu; simp; omega
        · rw [fupd_of_ne _ _ hu]; exact hj.le u
      · intro hc
        obtain ⟨h4, h5⟩ := hj.meet hc
        refine ⟨h4, ?_⟩
        have : c.2 ≠ v := by intro he; rw [he] at h5; omega
        rw [fupd_of_ne _ _ this]; exact h5

structure Setting (n : Nat) (fl bl : Nat → Option (List Link)) : Prop where
  fw : LinksOK n fl
  bw : LinksOK n bl
  rev : ∀ u v w, LArc bl v u w ↔ LArc fl u v w

theorem Setting.symm {n : Nat} {fl bl : Nat → Option (List Link)} (h : Setting n fl bl) : Setting n bl fl :=
  ⟨h.bw, h.fw, fun u v w => (h.rev v u w).symm⟩

theorem Setting.walk {n : Nat} {fl bl : Nat → Option (List Link)} (h : Setting n fl bl) {s t d : Nat}
    (hw : Walk (LArc bl) t s d) : Walk (LArc fl) s t d := by
  induction hw with
  | nil => exact .nil _
  | cons ha _ ih => rw [Nat.add_comm]; exact ih.snoc ((h.rev _ _ _).1 ha)

/-- The invariant of the loop. -/
structure Inv (N n : Nat) (fl bl : Nat → Option (List Link)) (s t : Nat) (fd bd : DData Unit) (c : Nat × Nat) (a b : Abs Unit)
    (SF SB : List Nat) : Prop where
  rf : Refines N fd a
  rb : Refines N bd b
  sf : Side (zp n fl) s a SF
  sb : Side (zp n bl) t b SB
  j : BJ n c a.D b.D
  tF : t ∉ SF
  sB : s ∉ SB

/-- The stopping criterion: a walk shorter than the tentative distance is not missed. -/
theorem covered {N n : Nat} {fl bl : Nat → Option (List Link)} (hs : Setting n fl bl) {s t : Nat} {fd bd : DData Unit}
    {c : Nat × Nat} {a b : Abs Unit} {SF SB : List Nat} (hi : Inv N n fl bl s t fd bd c a b SF SB)
    {qf qb x : Nat} (hqf : ∀ u k, a.Q u = some k → qf ≤ k) (hqb : ∀ u k, b.Q u = some k → qb ≤ k)
    (hw : Walk (LArc fl) s t x) (hx : x < INFINITY) (hlt : x < qf + qb) : c.1 ≤ x := by
  -- split the walk behind the last node with prefix shorter than `qf`
  have key : ∀ v y, Walk (LArc fl) v t y → ∀ p, Walk (LArc fl) s v p → p < qf → p + y = x → c.1 ≤ x := by
    intro v y hv
    induction hv with
    | nil u =>
      intro p hp hpq hpx
      have := hi.sf.frontier hs.fw hp (by omega) (fun v k h => by have := hqf v k h; omega)
      exact absurd this.1 hi.tF
    | @cons u v t' w y ha hv ih =>
      intro p hp hpq hpx
      by_cases h1 : p + w < qf
      · exact ih hi hw (p + w) (hp.snoc ha) h1 (by omega)
      · obtain ⟨h2, h3⟩ := hi.sf.frontier hs.fw hp (by omega) (fun v k h => by have := hqf v k h; omega)
        have h4 := hi.sf.relaxed h2 ha
        have hb : Walk (LArc bl) t' v y := hs.symm.walk hv
        obtain ⟨_, h5⟩ := hi.sb.frontier hs.bw hb (by omega) (fun v k h => by have := hqb v k h; omega)
        have := hi.j.le v
        omega
  by_cases h0 : 0 < qf
  · exact key s x hw 0 (.nil s) h0 (by omega)
  · have hb : Walk (LArc bl) t s x := hs.symm.walk hw
    have := hi.sb.frontier hs.bw hb hx (fun v k h => by have := hqb v k h; omega)
    exact absurd this.1 hi.sB

/-- What holds after a query. -/
structure FinN (N n : Nat) (fl bl : Nat → Option (List Link)) (s t cap : Nat) (r : Res) (a b : Abs Unit) (SF SB : List Nat) : Prop where
  rf : Refines N r.fd a
  rb : Refines N r.bd b
  sf : Side (zp n fl) s a SF
  sb : Side (zp n bl) t b SB
  ans : CapAnswer (LArc fl) s t cap r.result
  meet : ∀ x, r.result = some x → r.meet < n ∧ a.D r.meet < INFINITY ∧ b.D r.meet < INFINITY ∧ x = a.D r.meet + b.D r.meet

abbrev Fin (n : Nat) := FinN n n

/-- The label of a settled node is its distance. -/
theorem settled_dist {n : Nat} {links : Nat → Option (List Link)} (hl : LinksOK n links) {s v : Nat} {a : Abs Unit} {S : List Nat}
    (h : DInv (zp n links) s 0 (fun _ _ => False) a (v :: S)) :
    v < n ∧ a.D v < INFINITY ∧ Walk (LArc links) s v (a.D v) ∧ ∀ d, Walk (LArc links) s v d → a.D v ≤ d := by
  have hp := staticProb_ok hl (zero_feasible _)
  obtain ⟨h1, h2, _⟩ := h.sett v (by simp)
  refine ⟨h1, h2, Side.walk (.inl h) h2, ?_⟩
  intro d hw
  by_cases hd : d < INFINITY
  · have hw' : TWalk (zp n links).F s 0 v d := static_walk.2 ⟨d, hw, by simp⟩
    have h0 : (zp n links).pi v < INFINITY := by show (0:Nat) < INFINITY; decide
    have hw2 := Prob.walkG (p := zp n links) (by intro u a y _ _; show (0:Nat) < INFINITY; decide) hw' hd
    exact settled_min hp h (by simp) hw2 hd h0
  · omega

theorem early_answer {A : Nat → Nat → Nat → Prop} {s t cap x : Nat} (hx : x < INFINITY) (h1 : Walk A s t x)
    (h2 : ∀ d, Walk A s t d → x ≤ d) : CapAnswer A s t cap (some x) := by
  refine ⟨?_, ?_⟩
  · intro d hd; simp at hd; subst hd; exact ⟨h1, hx⟩
  · intro d hd _ _
    have := hd.2 _ h1
    have := h2 d hd.1
    simp; omega

/-- The loop. -/
theorem loop_spec {δ : Type} {ch : Chooser δ} (hch : ch.OK) {N n : Nat} (hN : n ≤ N) {fl bl : Nat → Option (List Link)} (hs : Setting n fl bl)
    {s t : Nat} (cap : Nat) :
    ∀ (fuel : Nat) (k : δ) (fd bd : DData Unit) (c : Nat × Nat) (a b : Abs Unit) (SF SB : List Nat),
      2 * n + 2 ≤ fuel + SF.length + SB.length → Inv N n fl bl s t fd bd c a b SF SB →
    ∃ r a' b' SF' SB', loop zeroBi ch fl bl s t cap fuel k fd bd c = some r ∧ FinN N n fl bl s t cap r a' b' SF' SB' := by
  intro fuel
  induction fuel with
  | zero =>
    intro k fd bd c a b SF SB hf hi
    have := hi.sf.length_le
    have := hi.sb.length_le
    simp only [staticProb] at *
    omega
  | succ fuel ih =>
    intro k fd bd c a b SF SB hf hi
    have hlf : SF.length ≤ n := hi.sf.length_le
    have hlb : SB.length ≤ n := hi.sb.length_le
    -- the end of the search
    have hstop : (∀ x, Walk (LArc fl) s t x → x < INFINITY → x < cap → c.1 ≤ x) →
        ∃ a' b' SF' SB', FinN N n fl bl s t cap ⟨if c.1 = INFINITY then none else some c.1, fd, bd, c.2⟩ a' b' SF' SB' := by
      intro hcov
      have hmeet : c.1 ≠ INFINITY → c.2 < n ∧ a.D c.2 < INFINITY ∧ b.D c.2 < INFINITY ∧ c.1 = a.D c.2 + b.D c.2 := by
        intro hc
        have := hi.j.ub
        obtain ⟨h1, h2⟩ := hi.j.meet (by omega)
        exact ⟨h1, by omega, by omega, h2⟩
      refine ⟨a, b, SF, SB, hi.rf, hi.rb, hi.sf, hi.sb, ⟨?_, ?_⟩, ?_⟩
      · intro d hd
        by_cases hc : c.1 = INFINITY
        · simp [hc] at hd
        · simp [hc] at hd
          obtain ⟨h1, h2, h3, h4⟩ := hmeet hc
          have := hi.j.ub
          refine ⟨?_, by omega⟩
          rw [← hd, h4]
          exact (hi.sf.walk h2).append (hs.walk (hi.sb.walk h3))
      · intro d hd hd1 hd2
        have h1 := hcov d hd.1 hd1 hd2
        have hc : c.1 ≠ INFINITY := by omega
        obtain ⟨_, h2, h3, h4⟩ := hmeet hc
        have := hd.2 _ ((hi.sf.walk h2).append (hs.walk (hi.sb.walk h3)))
        simp [hc]; omega
      · intro x hx
        by_cases hc : c.1 = INFINITY
        · simp [hc] at hx
        · simp [hc] at hx
          rw [← hx]; exact hmeet hc
    -- a step forward
    have hfw : fd.peekKey ≠ none → (ch.choose k fd.peekKey bd.peekKey).1 = true →
        ∃ o fd' st, settleNext fl defaultOps (cb zeroBi.pruneF zeroBi.fw bd cap) fd c = some (o, fd', st) ∧
          ((o = some t ∧ ∃ x a' b' SF' SB', fd'.dist.get t = some x ∧ FinN N n fl bl s t cap ⟨some x, fd', bd, t⟩ a' b' SF' SB') ∨
           (o ≠ some t ∧ ∃ a' v, Inv N n fl bl s t fd' bd st a' b (v :: SF) SB)) := by
      intro hne _
      have hcb := cb_ok hN (links := fl) (s := s) (cap := cap) hi.rb hi.sb.ub
      rcases hi.sf.settle hN hs.fw hcb hi.rf hi.j with ⟨_, h2⟩ | ⟨v, d', c', a', h1, h2, h3, h4⟩
      · rcases peekKey_spec hi.rf with ⟨h3, _⟩ | ⟨v, q, _, h3, _⟩
        · exact absurd h3 hne
        · rw [h2] at h3; simp at h3
      · refine ⟨some v, d', c', h1, ?_⟩
        by_cases hv : v = t
        · left
          subst hv
          obtain ⟨g1, g2, g3, g4⟩ := settled_dist hs.fw h3
          refine ⟨rfl, a'.D v, a', b, v :: SF, SB, h2.get (Nat.lt_of_lt_of_le g1 hN), h2, hi.rb, .inl h3, hi.sb, early_answer g2 g3 g4, ?_⟩
          intro x hx
          simp only [Option.some.injEq] at hx
          have h0 := hi.sb.src
          refine ⟨g1, g2, by simp only; rw [h0]; decide, by simp only; rw [h0]; omega⟩
        · right
          exact ⟨by simp [hv], a', v, h2, hi.rb, .inl h3, hi.sb, h4, by simp [Ne.symm hv, hi.tF], hi.sB⟩
    -- a step backward
    have hbw : bd.peekKey ≠ none → (ch.choose k fd.peekKey bd.peekKey).1 = false →
        ∃ o bd' st, settleNext bl defaultOps (cb zeroBi.pruneB zeroBi.bw fd cap) bd c = some (o, bd', st) ∧
          ((o = some s ∧ ∃ x a' b' SF' SB', bd'.dist.get s = some x ∧ FinN N n fl bl s t cap ⟨some x, fd, bd', s⟩ a' b' SF' SB') ∨
           (o ≠ some s ∧ ∃ b' v, Inv N n fl bl s t fd bd' st a b' SF (v :: SB))) := by
      intro hne _
      have hcb := cb_ok hN (links := bl) (s := t) (cap := cap) hi.rf hi.sf.ub
      rcases hi.sb.settle hN hs.bw hcb hi.rb hi.j.symm with ⟨_, h2⟩ | ⟨v, d', c', a', h1, h2, h3, h4⟩
      · rcases peekKey_spec hi.rb with ⟨h3, _⟩ | ⟨v, q, _, h3, _⟩
        · exact absurd h3 hne
        · rw [h2] at h3; simp at h3
      · refine ⟨some v, d', c', h1, ?_⟩
        by_cases hv : v = s
        · left
          subst hv
          obtain ⟨g1, g2, g3, g4⟩ := settled_dist hs.bw h3
          refine ⟨rfl, a'.D v, a, a', SF, v :: SB, h2.get (Nat.lt_of_lt_of_le g1 hN), hi.rf, h2, hi.sf, .inl h3,
            early_answer g2 (hs.walk g3) (fun d hd => g4 d (hs.symm.walk hd)), ?_⟩
          intro x hx
          simp only [Option.some.injEq] at hx
          have h0 := hi.sf.src
          refine ⟨g1, by simp only; rw [h0]; decide, g2, by simp only; rw [h0]; omega⟩
        · right
          exact ⟨by simp [hv], a', v, hi.rf, h2, hi.sf, .inl h3, h4.symm, hi.tF, by simp [Ne.symm hv, hi.sB]⟩
    -- both queues empty, not allowed to stop: one more round
    have hstep : ∀ (stop : Bool), stopCheck zeroBi ch k fd bd (min c.1 cap) = some stop →
        (stop = true → ∀ x, Walk (LArc fl) s t x → x < INFINITY → x < cap → c.1 ≤ x) →
        (stop = false → ¬ (fd.peekKey = none ∧ bd.peekKey = none)) →
        ∃ r a' b' SF' SB', loop zeroBi ch fl bl s t cap (fuel + 1) k fd bd c = some r ∧ FinN N n fl bl s t cap r a' b' SF' SB' := by
      intro stop hst hcov hne
      cases stop with
      | true =>
        obtain ⟨a', b', SF', SB', h⟩ := hstop (hcov rfl)
        exact ⟨_, a', b', SF', SB', by simp [loop, hst], h⟩
      | false =>
        have hne := hne rfl
        cases hd : (ch.choose k fd.peekKey bd.peekKey).1 with
        | true =>
          have : fd.peekKey ≠ none := by
            intro h0
            cases h1 : bd.peekKey with
            | none => exact hne ⟨h0, h1⟩
            | some q => rw [h0, h1, hch.fw] at hd; simp at hd
          obtain ⟨o, fd', st, h1, h2⟩ := hfw this hd
          rcases h2 with ⟨h2, x, a', b', SF', SB', h3, h4⟩ | ⟨h2, a', v, h3⟩
          · exact ⟨_, a', b', SF', SB', by simp [loop, hst, hd, h1, h2, h3], h4⟩
          · obtain ⟨r, a2, b2, SF2, SB2, h5, h6⟩ := ih (ch.choose k fd.peekKey bd.peekKey).2 fd' bd st a' b (v :: SF) SB
              (by simp; omega) h3
            exact ⟨r, a2, b2, SF2, SB2, by simp [loop, hst, hd, h1, h2, h5], h6⟩
        | false =>
          have : bd.peekKey ≠ none := by
            intro h0
            cases h1 : fd.peekKey with
            | none => exact hne ⟨h1, h0⟩
            | some q => rw [h0, h1, hch.bw] at hd; simp at hd
          obtain ⟨o, bd', st, h1, h2⟩ := hbw this hd
          rcases h2 with ⟨h2, x, a', b', SF', SB', h3, h4⟩ | ⟨h2, b', v, h3⟩
          · exact ⟨_, a', b', SF', SB', by simp [loop, hst, hd, h1, h2, h3], h4⟩
          · obtain ⟨r, a2, b2, SF2, SB2, h5, h6⟩ := ih (ch.choose k fd.peekKey bd.peekKey).2 fd bd' st a b' SF (v :: SB)
              (by simp; omega) h3
            exact ⟨r, a2, b2, SF2, SB2, by simp [loop, hst, hd, h1, h2, h5], h6⟩
    have hpf := peekKey_spec hi.rf
    have hpb := peekKey_spec hi.rb
    -- an empty queue
    have hempty : (∀ v, a.Q v = none) ∨ (∀ v, b.Q v = none) → ∀ x, Walk (LArc fl) s t x → x < INFINITY → x < cap → c.1 ≤ x := by
      rintro (h | h) x hw hx _
      · exact covered hs hi (qf := x + 1) (qb := 0) (fun u k hk => by rw [h] at hk; simp at hk) (fun _ _ _ => by omega) hw hx (by omega)
      · exact covered hs hi (qf := 0) (qb := x + 1) (fun _ _ _ => by omega) (fun u k hk => by rw [h] at hk; simp at hk) hw hx (by omega)
    cases hm : ch.mayStop k with
    | true =>
      rcases hpf with ⟨h1, h2⟩ | ⟨v, q, h1, h2, h3⟩
      · refine hstep true ?_ (fun _ => hempty (.inl h2)) (by simp)
        simp [stopCheck, hm, zeroBi, h1]
      · rcases hpb with ⟨g1, g2⟩ | ⟨v', q', g1, g2, g3⟩
        · refine hstep true ?_ (fun _ => hempty (.inr g2)) (by simp)
          simp [stopCheck, hm, zeroBi, h1, g1]
        · have hq := hi.sf.key h2
          have hq' := hi.sb.key g2
          have hadd : add32 q q' = some (q + q') := add32_of_lt (by simp only [INFINITY, U32] at *; omega)
          refine hstep (decide (q + q' ≥ min c.1 cap)) ?_ ?_ ?_
          · simp [stopCheck, hm, zeroBi, h1, g1, hadd]
          · intro hd x hw hx hxc
            simp only [decide_eq_true_eq] at hd
            apply Classical.byContradiction
            intro hn
            exact hn (covered hs hi h3 g3 hw hx (by omega))
          · intro _ h0; rw [h1] at h0; simp at h0
    | false =>
      by_cases h0 : fd.peekKey = none ∧ bd.peekKey = none
      · -- nothing happens in this round, and the next round stops
        obtain ⟨h1, h2⟩ := h0
        rcases hpf with ⟨_, g1⟩ | ⟨v, q, h3, _⟩
        swap
        · rw [h1] at h3; simp at h3
        rcases hpb with ⟨_, g2⟩ | ⟨v, q, h3, _⟩
        swap
        · rw [h2] at h3; simp at h3
        obtain ⟨a', b', SF', SB', h⟩ := hstop (hempty (.inl g1))
        obtain ⟨fuel, rfl⟩ : ∃ f, fuel = f + 1 := ⟨fuel - 1, by omega⟩
        have hnext : loop zeroBi ch fl bl s t cap (fuel + 1) (ch.choose k none none).2 fd bd c =
            some ⟨if c.1 = INFINITY then none else some c.1, fd, bd, c.2⟩ := by
          have : stopCheck zeroBi ch (ch.choose k none none).2 fd bd (min c.1 cap) = some true := by
            simp [stopCheck, hch.stop k hm, zeroBi, h1]
          simp [loop, this]
        have hst : stopCheck zeroBi ch k fd bd (min c.1 cap) = some false := by simp [stopCheck, hm]
        refine ⟨_, a', b', SF', SB', ?_, h⟩
        rw [loop]
        simp only [hst, h1, h2, Option.bind_eq_bind, Option.bind_some]
        cases hd : (ch.choose k none none).1 with
        | true =>
          have hcb := cb_ok hN (links := fl) (s := s) (cap := cap) hi.rb hi.sb.ub
          rcases hi.sf.settle hN hs.fw hcb hi.rf hi.j with ⟨e1, _⟩ | ⟨v, d', c', a', e1, e2, e3, e4⟩
          · have e1' : settleNext fl defaultOps (cb zeroBi.pruneF zeroBi.fw bd cap) fd c = some (none, fd, c) := e1
            simp [e1', hnext]
          · exfalso
            rcases IHeap.rep_pop hi.rf.queue with ⟨p1, p2⟩ | ⟨x, q, p1, p2, _⟩
            · simp [settleNext, p1] at e1
            · simp [g1] at p2
        | false =>
          have hcb := cb_ok hN (links := bl) (s := t) (cap := cap) hi.rf hi.sf.ub
          rcases hi.sb.settle hN hs.bw hcb hi.rb hi.j.symm with ⟨e1, _⟩ | ⟨v, d', c', a', e1, e2, e3, e4⟩
          · have e1' : settleNext bl defaultOps (cb zeroBi.pruneB zeroBi.bw fd cap) bd c = some (none, bd, c) := e1
            simp [e1', hnext]
          · exfalso
            rcases IHeap.rep_pop hi.rb.queue with ⟨p1, p2⟩ | ⟨x, q, p1, p2, _⟩
            · simp [settleNext, p1] at e1
            · simp [g2] at p2
      · exact hstep false (by simp [stopCheck, hm]) (by simp) (fun _ => h0)

/-- A query between different nodes, on any data the server may hold, and the case of equal nodes. -/
theorem query_spec' {δ : Type} {ch : Chooser δ} (hch : ch.OK) {N n : Nat} (hN : n ≤ N) {fl bl : Nat → Option (List Link)} (hs : Setting n fl bl)
    {s t : Nat} (hsn : s < n) (htn : t < n) (cap meet : Nat) {fd bd : DData Unit} {a b : Abs Unit} (hf : Refines N fd a)
    (hb : Refines N bd b) :
    ∃ r a' b' SF SB, distanceWithCap zeroBi ch n fl bl fd bd meet s t cap = some r ∧ FinN N n fl bl s t cap r a' b' SF SB := by
  obtain ⟨fd1, h1, h2⟩ := init_refines hf (Nat.lt_of_lt_of_le hsn hN) 0
  obtain ⟨bd1, h3, h4⟩ := init_refines hb (Nat.lt_of_lt_of_le htn hN) 0
  have hsf : Side (zp n fl) s ⟨fupd (fun _ => INFINITY) s 0, fupd (fun _ => none) s (some 0), fupd a.P s (s, (a.P s).2)⟩ [] :=
    .inr ⟨rfl, hsn, rfl, rfl⟩
  have hsb : Side (zp n bl) t ⟨fupd (fun _ => INFINITY) t 0, fupd (fun _ => none) t (some 0), fupd b.P t (t, (b.P t).2)⟩ [] :=
    .inr ⟨rfl, htn, rfl, rfl⟩
  simp only [distanceWithCap, h1, h3, Option.bind_eq_bind, Option.bind_some]
  by_cases hst : s = t
  · subst hst
    have e1 : fd1.peekKey = some 0 := by
      rcases peekKey_spec h2 with ⟨_, g⟩ | ⟨v, k, g1, g2, g3⟩
      · have := g s; simp at this
      · have := g3 s 0 (by simp)
        rw [g1]; simp; omega
    have e2 : bd1.peekKey = some 0 := by
      rcases peekKey_spec h4 with ⟨_, g⟩ | ⟨v, k, g1, g2, g3⟩
      · have := g s; simp at this
      · have := g3 s 0 (by simp)
        rw [g1]; simp; omega
    have hadd : add32 0 0 = some 0 := by decide
    have hI : INFINITY ≠ 0 := by decide
    -- does the loop stop at once?
    obtain ⟨stop, hstop⟩ : ∃ stop, stopCheck zeroBi ch ch.init fd1 bd1 (min INFINITY cap) = some stop := by
      unfold stopCheck
      split
      · simp [zeroBi, e1, e2, hadd]
      · simp
    rw [show 2 * n + 3 = (2 * n + 2) + 1 from rfl, loop]
    simp only [hstop, Option.bind_eq_bind, Option.bind_some]
    have hany : CbOK (zp n fl) s 0 (cb (fun _ _ _ _ => some false) (fun _ => some 0) bd1 cap) (fun _ _ => True) := by
      intro c D v l _ hv hl hinf _
      have hv' : v < n := hv
      have g1 : add32 0 l = some l := by
        rw [add32_of_lt (by simp only [INFINITY, U32] at *; omega)]; simp
      have g3 := hsb.ub v
      have g4 : ∃ x, add32 l (fupd (fun _ => INFINITY) s 0 v) = some x := ⟨_, add32_of_lt (by simp only [INFINITY, U32] at *; omega)⟩
      obtain ⟨x, g4⟩ := g4
      exact ⟨_, by simp [cb, h4.get (Nat.lt_of_lt_of_le hv' hN), g4, g1, staticProb]; exact ⟨rfl, by decide⟩, trivial⟩
    have hany2 : CbOK (zp n bl) s 0 (cb (fun _ _ _ _ => some false) (fun _ => some 0) fd1 cap) (fun _ _ => True) := by
      intro c D v l _ hv hl hinf _
      have hv' : v < n := hv
      have g1 : add32 0 l = some l := by
        rw [add32_of_lt (by simp only [INFINITY, U32] at *; omega)]; simp
      have g3 := hsf.ub v
      have g4 : ∃ x, add32 l (fupd (fun _ => INFINITY) s 0 v) = some x := ⟨_, add32_of_lt (by simp only [INFINITY, U32] at *; omega)⟩
      obtain ⟨x, g4⟩ := g4
      exact ⟨_, by simp [cb, h2.get (Nat.lt_of_lt_of_le hv' hN), g4, g1, staticProb]; exact ⟨rfl, by decide⟩, trivial⟩
    cases stop with
    | true =>
      simp only [if_true]
      refine ⟨_, _, _, _, _, rfl, h2, h4, hsf, hsb, ⟨by simp, ?_⟩, by simp⟩
      intro d hd _ hdc
      -- the loop only stops if the cap is 0
      exfalso
      have h0 : d = 0 := by have := hd.2 0 (.nil s); omega
      subst h0
      unfold stopCheck at hstop
      split at hstop
      · simp [zeroBi, e1, e2, hadd] at hstop
        have : INFINITY ≠ 0 := by decide
        omega
      · simp at hstop
    | false =>
      have hans : ∀ x, x = 0 → CapAnswer (LArc fl) s s cap (some x) := by
        rintro x rfl
        exact early_answer (by decide) (.nil s) (fun _ _ => Nat.zero_le _)
      simp only [Bool.false_eq_true, if_false]
      cases hd : (ch.choose ch.init fd1.peekKey bd1.peekKey).1 with
      | true =>
        obtain ⟨d', c', a', g1, g2, g3, _⟩ := start_settle' hN (staticProb_ok hs.fw (zero_feasible _)) hany (c := (INFINITY, meet)) h2 hsn (by decide) trivial
        have g1' : settleNext fl defaultOps (cb zeroBi.pruneF zeroBi.fw bd1 cap) fd1 (INFINITY, meet) = some (some s, d', c') := g1
        have g4 := g2.get (Nat.lt_of_lt_of_le hsn hN)
        have g4' : d'.dist.get s = some 0 := by rw [g4, g3.src]
        refine ⟨⟨some 0, d', bd1, s⟩, a', _, _, _, by simp [g1', g4'], g2, h4, .inl g3, hsb, hans _ rfl, ?_⟩
        intro x hx
        simp at hx
        refine ⟨hsn, by simp only; rw [g3.src]; decide, by simp; decide, by simp only; rw [g3.src]; simp; omega⟩
      | false =>
        obtain ⟨d', c', a', g1, g2, g3, _⟩ := start_settle' hN (staticProb_ok hs.bw (zero_feasible _)) hany2 (c := (INFINITY, meet)) h4 hsn (by decide) trivial
        have g1' : settleNext bl defaultOps (cb zeroBi.pruneB zeroBi.bw fd1 cap) bd1 (INFINITY, meet) = some (some s, d', c') := g1
        have g4 := g2.get (Nat.lt_of_lt_of_le hsn hN)
        have g4' : d'.dist.get s = some 0 := by rw [g4, g3.src]
        refine ⟨⟨some 0, fd1, d', s⟩, _, a', _, _, by simp [g1', g4'], h2, g2, hsf, .inl g3, hans _ rfl, ?_⟩
        intro x hx
        simp at hx
        refine ⟨hsn, by simp; decide, by simp only; rw [g3.src]; decide, by simp only; rw [g3.src]; simp; omega⟩
  · refine loop_spec hch hN hs cap (2 * n + 3) ch.init fd1 bd1 (INFINITY, meet) _ _ [] [] (by simp) ⟨h2, h4, hsf, hsb, ?_, by simp, by simp⟩
    refine ⟨Nat.le_refl _, ?_, by simp⟩
    intro v
    simp only
    by_cases hv : v = s
    · subst hv
      rw [fupd_of_ne _ _ hst]; omega
    · rw [fupd_of_ne _ _ hv]; omega

theorem query_spec {δ : Type} {ch : Chooser δ} (hch : ch.OK) {n : Nat} {fl bl : Nat → Option (List Link)} (hs : Setting n fl bl)
    {s t : Nat} (hsn : s < n) (htn : t < n) (cap meet : Nat) {fd bd : DData Unit} {a b : Abs Unit} (hf : Refines n fd a)
    (hb : Refines n bd b) :
    ∃ r a' b' SF SB, distanceWithCap zeroBi ch n fl bl fd bd meet s t cap = some r ∧ Fin n fl bl s t cap r a' b' SF SB :=
  query_spec' hch (Nat.le_refl _) hs hsn htn cap meet hf hb

/-! ### Paths -/

theorem pathOf_snoc {A : Nat → Nat → Nat → Prop} {ns : List Nat} {u v w d : Nat} (h : PathOf A (ns ++ [u]) d) (ha : A u v w) :
    PathOf A (ns ++ [u, v]) (d + w) := by
  induction ns generalizing d with
  | nil => cases h; simpa using PathOf.cons ha (.single v)
  | cons x ns ih =>
    cases ns with
    | nil =>
      cases h with
      | cons h1 h2 => rw [Nat.add_assoc]; exact .cons h1 (by simpa using ih (by simpa using h2))
    | cons y ns =>
      cases h with
      | cons h1 h2 => rw [Nat.add_assoc]; exact .cons h1 (by simpa using ih (by simpa using h2))

theorem pathOf_reverse {A B : Nat → Nat → Nat → Prop} (hab : ∀ u v w, A u v w → B v u w) {p : List Nat} {d : Nat} (h : PathOf A p d) :
    PathOf B p.reverse d := by
  induction h with
  | single u => exact .single u
  | cons ha h ih =>
    rw [Nat.add_comm]
    simp only [List.reverse_cons, List.append_assoc, List.cons_append, List.nil_append] at ih ⊢
    exact pathOf_snoc ih (hab _ _ _ ha)

theorem pathOf_append {A : Nat → Nat → Nat → Prop} {p : List Nat} {u d e : Nat} {q : List Nat} (h : PathOf A (p ++ [u]) d)
    (h' : PathOf A (u :: q) e) : PathOf A (p ++ u :: q) (d + e) := by
  induction p generalizing d with
  | nil => cases h; simpa using h'
  | cons x p ih =>
    cases p with
    | nil =>
      cases h with
      | cons h1 h2 => rw [Nat.add_assoc]; exact .cons h1 (by simpa using ih (by simpa using h2))
    | cons y p =>
      cases h with
      | cons h1 h2 => rw [Nat.add_assoc]; exact .cons h1 (by simpa using ih (by simpa using h2))

/-- Following the predecessors from a labelled node. -/
theorem Side.path {n : Nat} {links : Nat → Option (List Link)} {s v : Nat} {d : DData Unit} {a : Abs Unit} {S : List Nat}
    (hr : Refines n d a) (h : Side (zp n links) s a S) (hvn : v < n) (hv : a.D v < INFINITY) :
    ∃ ns, (ns ++ [v]).head? = some s ∧ PathOf (LArc links) (ns ++ [v]) (a.D v) ∧
      ∀ path, nodePathLoop d s (d.pred.length + 2) path v = some (path ++ ns.reverse) := by
  by_cases hvs : v = s
  · subst hvs
    refine ⟨[], rfl, by rw [h.src]; exact .single v, ?_⟩
    intro path; simp [nodePathLoop]
  · rcases h with h | ⟨_, _, h, _⟩
    swap
    · rw [h, fupd_of_ne _ _ hvs] at hv; simp at hv
    obtain ⟨h1, ls, b, h2, h3, h4, _, h6⟩ := h.pred v hv hvs
    obtain ⟨A, B, hS⟩ := List.append_of_mem h1
    obtain ⟨ns, as, g1, g2, _⟩ := path_spec hr h B.length A B _ (Nat.le_refl _) hS
    have hl : S.length ≤ n := h.length_le
    rw [hS] at hl; simp at hl
    obtain ⟨g4, x, g5, g6⟩ := apath_static g1
    have hw : LArc links (a.P v).1 v b.weight := by
      refine ⟨ls, h2, ?_⟩
      have : b = ⟨v, b.weight⟩ := by
        have : b.node = v := h4
        cases b; simp_all
      rw [← this]; exact h3
    refine ⟨ns ++ [(a.P v).1], ?_, ?_, ?_⟩
    · cases ns <;> simpa using g4
    · have hD : a.D v = x + b.weight := by
        have h6' : a.D v = a.D (a.P v).1 + b.weight := h6
        omega
      rw [hD]
      simpa using pathOf_snoc g6 hw
    · intro path
      rw [nodePathLoop]
      simp only [hvs, if_false, hr.pred v hvn, Option.bind_eq_bind, Option.bind_some]
      rw [g2 (d.pred.length + 1) _ (by rw [hr.plen]; omega)]
      simp

/-- `node_path` after a successful query. -/
theorem nodePath_spec {n : Nat} {fl bl : Nat → Option (List Link)} (hs : Setting n fl bl) {s t cap : Nat} {r : Res}
    {a b : Abs Unit} {SF SB : List Nat} (h : Fin n fl bl s t cap r a b SF SB) {x : Nat} (hx : r.result = some x) :
    ∃ p, nodePath r s t = some p ∧ p.head? = some s ∧ p.getLast? = some t ∧ PathOf (LArc fl) p x := by
  obtain ⟨h1, h2, h3, h4⟩ := h.meet x hx
  obtain ⟨ns, g1, g2, g3⟩ := h.sf.path h.rf h1 h2
  obtain ⟨ms, e1, e2, e3⟩ := h.sb.path h.rb h1 h3
  refine ⟨ns ++ r.meet :: ms.reverse, ?_, ?_, ?_, ?_⟩
  · simp [nodePath, g3, e3]
  · cases ns <;> simpa using g1
  · cases ms with
    | nil => simpa using e1
    | cons m ms => simp at e1; simp [e1, List.getLast?_cons]
  · rw [h4]
    refine pathOf_append g2 ?_
    have := pathOf_reverse (B := LArc fl) (fun u v w ha => (hs.rev v u w).1 ha) e2
    simpa using this

theorem cap_infinity {A : Nat → Nat → Nat → Prop} {s t : Nat} {r : Option Nat} (h : CapAnswer A s t INFINITY r) : Answer A s t r := by
  intro d
  constructor
  · intro hd
    obtain ⟨h1, h2⟩ := h.1 d hd
    obtain ⟨d', h3, h4⟩ := exists_isDist h1
    have := h.2 d' h4 (by omega) (by omega)
    rw [hd] at this
    simp at this; subst this
    exact ⟨h4, h2⟩
  · rintro ⟨h1, h2⟩
    exact h.2 d h1 h2 h2

end BiD
end Verif
