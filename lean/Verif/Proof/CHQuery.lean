import Verif.Model.CH
import Verif.Proof.BiDijkstra
import Verif.Proof.CHPotential
set_option linter.unusedSimpArgs false
set_option linter.unusedVariables false
/- Correctness of the CH query: two Dijkstra searches that are combined at the settled nodes. -/
namespace Verif
open Spec DData
namespace CH
open BiD
open CCH (CapMin)

/-- A walk of `F` from `s` and a walk of `B` from `t` that meet. -/
def Meet (F B : Nat → Nat → Nat → Prop) (s t d : Nat) : Prop := ∃ m a b, Walk F s m a ∧ Walk B t m b ∧ d = a + b

theorem Meet.flip {F B : Nat → Nat → Nat → Prop} {s t d : Nat} (h : Meet F B s t d) : Meet B F t s d := by
  obtain ⟨m, a, b, h1, h2, rfl⟩ := h
  exact ⟨m, b, a, h2, h1, Nat.add_comm _ _⟩

def QState.swap (q : QState) : QState := ⟨q.tent, q.meet, q.bp, q.fp, q.bDone, q.fDone, q.bd, q.fd⟩

theorem stepBw_swap (links : Nat → Option (List Link)) (x : Nat) (q : QState) :
    stepBw links x q = (stepFw links x q.swap).map QState.swap := by
  unfold stepBw stepFw
  have e : q.swap.fd = q.bd := rfl
  rw [e]
  cases settleNext links defaultOps plainCb q.bd () with
  | none => rfl
  | some r =>
    obtain ⟨o, bd, c⟩ := r
    cases o with
    | none => rfl
    | some node =>
      simp only [Option.bind_eq_bind, Option.bind_some, Option.pure_def]
      cases bd.dist.get node with
      | none => rfl
      | some d =>
        have e2 : q.swap.bd = q.fd := rfl
        simp only [Option.bind_some, e2]
        cases q.fd.dist.get node with
        | none => rfl
        | some o =>
          simp only [Option.bind_some]
          cases add32 d o with
          | none => rfl
          | some sum =>
            have e3 : q.swap.tent = q.tent := rfl
            simp only [Option.bind_some, e3]
            split <;> rfl

/-- The label of a settled node is its distance. -/
theorem settled_all {n : Nat} {links : Nat → Option (List Link)} (hl : LinksOK n links) {s v : Nat} {a : Abs Unit} {S : List Nat}
    (h : DInv (zp n links) s 0 (fun _ _ => False) a S) (hv : v ∈ S) :
    v < n ∧ a.D v < INFINITY ∧ Walk (LArc links) s v (a.D v) ∧ ∀ d, Walk (LArc links) s v d → a.D v ≤ d := by
  have hp := staticProb_ok hl (zero_feasible _)
  obtain ⟨h1, h2, _⟩ := h.sett v hv
  refine ⟨h1, h2, Side.walk (.inl h) h2, ?_⟩
  intro d hw
  by_cases hd : d < INFINITY
  · have hw' : TWalk (zp n links).F s 0 v d := static_walk.2 ⟨d, hw, by simp⟩
    have h0 : (zp n links).pi v < INFINITY := by show (0:Nat) < INFINITY; decide
    have hw2 := Prob.walkG (p := zp n links) (by intro u a y _ _; show (0:Nat) < INFINITY; decide) hw' hd
    exact settled_min hp h hv hw2 hd h0
  · omega

structure QInv (n : Nat) (fl bl : Nat → Option (List Link)) (s t : Nat) (q : QState) (a b : Abs Unit) (SF SB : List Nat) : Prop where
  rf : Refines n q.fd a
  rb : Refines n q.bd b
  sf : Side (zp n fl) s a SF
  sb : Side (zp n bl) t b SB
  ub : q.tent ≤ INFINITY
  sound : q.tent < INFINITY → Meet (LArc fl) (LArc bl) s t q.tent
  j : ∀ v, v ∈ SF → v ∈ SB → q.tent ≤ a.D v + b.D v
  fq : ∀ u k, a.Q u = some k → q.fp ≤ k
  bq : ∀ u k, b.Q u = some k → q.bp ≤ k
  fdone : q.fDone = true → (∀ v, a.Q v = none) ∨ q.tent ≤ q.fp
  bdone : q.bDone = true → (∀ v, b.Q v = none) ∨ q.tent ≤ q.bp

theorem QInv.swap {n : Nat} {fl bl : Nat → Option (List Link)} {s t : Nat} {q : QState} {a b : Abs Unit} {SF SB : List Nat}
    (h : QInv n fl bl s t q a b SF SB) : QInv n bl fl t s q.swap b a SB SF where
  rf := h.rb
  rb := h.rf
  sf := h.sb
  sb := h.sf
  ub := h.ub
  sound hlt := (h.sound hlt).flip
  j v h1 h2 := by rw [Nat.add_comm]; exact h.j v h2 h1
  fq := h.bq
  bq := h.fq
  fdone := h.bdone
  bdone := h.fdone

def flags (q : QState) : Nat := (if q.fDone then 1 else 0) + (if q.bDone then 1 else 0)

theorem side_settled {n : Nat} {links : Nat → Option (List Link)} (hl : LinksOK n links) {s v : Nat} {a : Abs Unit} {S : List Nat}
    (h : Side (zp n links) s a S) (hv : v ∈ S) :
    v < n ∧ a.D v < INFINITY ∧ Walk (LArc links) s v (a.D v) ∧ ∀ d, Walk (LArc links) s v d → a.D v ≤ d := by
  rcases h with h | ⟨h, _⟩
  · exact settled_all hl h hv
  · rw [h] at hv; simp at hv

theorem stepFw_spec {n : Nat} {fl bl : Nat → Option (List Link)} (hf : LinksOK n fl) (hb : LinksOK n bl) {s t : Nat} {q : QState}
    {a b : Abs Unit} {SF SB : List Nat} (h : QInv n fl bl s t q a b SF SB) (hd : q.fDone = false) :
    ∃ q' a' SF', stepFw fl t q = some q' ∧ QInv n fl bl s t q' a' b SF' SB ∧
      SF'.length + SB.length + flags q' ≥ SF.length + SB.length + flags q + 1 := by
  rcases h.sf.settle (Nat.le_refl n) hf (plainCb_ok (n := n) (links := fl)) (c := ()) h.rf trivial with ⟨h1, h2⟩ | ⟨v, d', c', a', h1, h2, h3, _⟩
  · refine ⟨{ q with fDone := true }, a, SF, ?_, ⟨h.rf, h.rb, h.sf, h.sb, h.ub, h.sound, h.j, h.fq, h.bq, fun _ => .inl h2, h.bdone⟩, ?_⟩
    · unfold stepFw
      simp only [h1, Option.bind_eq_bind, Option.bind_some, Option.pure_def]
    · simp [flags, hd]; omega
  · obtain ⟨g1, g2, g3, g4⟩ := settled_all hf h3 (v := v) (by simp)
    have hother := h.rb.get g1
    have hub := h.sb.ub v
    have hadd : add32 (a'.D v) (b.D v) = some (a'.D v + b.D v) := add32_of_lt (by simp only [INFINITY, U32] at *; omega)
    have hstep : stepFw fl t q = some (if a'.D v + b.D v < q.tent then
          { q with fd := d', fp := a'.D v, tent := a'.D v + b.D v, meet := v, fDone := if v = t then true else q.fDone }
        else { q with fd := d', fp := a'.D v, fDone := if v = t then true else q.fDone }) := by
      unfold stepFw
      simp only [h1, Option.bind_eq_bind, Option.bind_some, Option.pure_def, h2.get g1, hother, hadd]
      split <;> rfl
    refine ⟨_, a', v :: SF, hstep, ?_, ?_⟩
    · -- the tentative distance afterwards
      have hset : ∀ u, u ∈ SF → a'.D u = a.D u := by
        intro u hu
        obtain ⟨_, _, k3, k4⟩ := side_settled hf h.sf hu
        obtain ⟨_, _, m3, m4⟩ := settled_all hf h3 (v := u) (by simp [hu])
        have := k4 _ m3
        have := m4 _ k3
        omega
      have hq' : ∀ u k, a'.Q u = some k → a'.D v ≤ k := by
        intro u k hk
        have := h3.ord v (by simp) u k hk
        omega
      by_cases hlt : a'.D v + b.D v < q.tent
      · rw [if_pos hlt]
        refine ⟨h2, h.rb, .inl h3, h.sb, ?_, ?_, ?_, hq', h.bq, ?_, ?_⟩
        · have := h.ub; simp only; omega
        · simp only
          intro hl
          exact ⟨v, _, _, g3, h.sb.walk (by omega), rfl⟩
        · intro u hu hu'
          simp only
          rcases List.mem_cons.1 hu with rfl | hu
          · exact Nat.le_refl _
          · rw [hset u hu]; have := h.j u hu hu'; omega
        · simp only
          intro hdn
          right
          by_cases hvt : v = t
          · subst hvt; rw [h.sb.src]; omega
          · rw [if_neg hvt, hd] at hdn; simp at hdn
        · intro hdn
          simp only at hdn ⊢
          rcases h.bdone hdn with hx | hx
          · exact .inl hx
          · right; omega
      · rw [if_neg hlt]
        refine ⟨h2, h.rb, .inl h3, h.sb, h.ub, h.sound, ?_, hq', h.bq, ?_, h.bdone⟩
        · intro u hu hu'
          simp only
          rcases List.mem_cons.1 hu with rfl | hu
          · omega
          · rw [hset u hu]; exact h.j u hu hu'
        · simp only
          intro hdn
          right
          by_cases hvt : v = t
          · subst hvt; rw [h.sb.src] at hlt; omega
          · rw [if_neg hvt, hd] at hdn; simp at hdn
    · simp only [flags, hd]
      split <;> split <;> simp <;> omega

theorem stepBw_spec {n : Nat} {fl bl : Nat → Option (List Link)} (hf : LinksOK n fl) (hb : LinksOK n bl) {s t : Nat} {q : QState}
    {a b : Abs Unit} {SF SB : List Nat} (h : QInv n fl bl s t q a b SF SB) (hd : q.bDone = false) :
    ∃ q' b' SB', stepBw bl s q = some q' ∧ QInv n fl bl s t q' a b' SF SB' ∧
      SF.length + SB'.length + flags q' ≥ SF.length + SB.length + flags q + 1 := by
  obtain ⟨q', b', SB', h1, h2, h3⟩ := stepFw_spec hb hf h.swap hd
  refine ⟨q'.swap, b', SB', by rw [stepBw_swap, h1]; rfl, h2.swap, ?_⟩
  have e1 : flags q'.swap = flags q' := by exact Nat.add_comm _ _
  have e2 : flags q.swap = flags q := by exact Nat.add_comm _ _
  omega

/-- When the loop ends, the tentative distance is the length of the best combination. -/
theorem QInv.final {n : Nat} {fl bl : Nat → Option (List Link)} (hf : LinksOK n fl) (hb : LinksOK n bl) {s t : Nat} {q : QState}
    {a b : Abs Unit} {SF SB : List Nat} (h : QInv n fl bl s t q a b SF SB)
    (he : ¬ ((q.tent > q.fp ∨ q.tent > q.bp) ∧ ¬ (q.fDone = true ∧ q.bDone = true))) :
    CapMin (Meet (LArc fl) (LArc bl) s t) q.tent := by
  refine ⟨h.ub, h.sound, ?_⟩
  rintro d ⟨m, x, y, hx, hy, rfl⟩
  apply Classical.byContradiction
  intro hn
  have hub := h.ub
  have hF : (∀ v, a.Q v = none) ∨ q.tent ≤ q.fp := by
    by_cases hd : q.fDone = true
    · exact h.fdone hd
    · right
      apply Classical.byContradiction
      intro hlt
      exact he ⟨.inl (by omega), fun hc => hd hc.1⟩
  have hB : (∀ v, b.Q v = none) ∨ q.tent ≤ q.bp := by
    by_cases hd : q.bDone = true
    · exact h.bdone hd
    · right
      apply Classical.byContradiction
      intro hlt
      exact he ⟨.inr (by omega), fun hc => hd hc.2⟩
  obtain ⟨g1, g2⟩ := h.sf.frontier hf hx (by omega) (by
    intro u k hk
    rcases hF with hF | hF
    · rw [hF] at hk; simp at hk
    · have := h.fq u k hk; omega)
  obtain ⟨g3, g4⟩ := h.sb.frontier hb hy (by omega) (by
    intro u k hk
    rcases hB with hB | hB
    · rw [hB] at hk; simp at hk
    · have := h.bq u k hk; omega)
  have := h.j m g1 g3
  omega

theorem queryLoop_spec {n : Nat} {fl bl : Nat → Option (List Link)} (hf : LinksOK n fl) (hb : LinksOK n bl) {s t : Nat} :
    ∀ (fuel : Nat) (q : QState) (a b : Abs Unit) (SF SB : List Nat), 2 * n + 3 ≤ fuel + (SF.length + SB.length + flags q) →
      QInv n fl bl s t q a b SF SB →
    ∃ q' a' b', queryLoop fl bl s t fuel q = some q' ∧ CapMin (Meet (LArc fl) (LArc bl) s t) q'.tent ∧
      Refines n q'.fd a' ∧ Refines n q'.bd b' := by
  intro fuel
  induction fuel with
  | zero =>
    intro q a b SF SB hfuel h
    have h1 : SF.length ≤ n := h.sf.length_le
    have h2 : SB.length ≤ n := h.sb.length_le
    have h3 : flags q ≤ 2 := by simp only [flags]; split <;> split <;> omega
    omega
  | succ fuel ih =>
    intro q a b SF SB hfuel h
    rw [queryLoop]
    by_cases he : (q.tent > q.fp ∨ q.tent > q.bp) ∧ ¬ (q.fDone = true ∧ q.bDone = true)
    · rw [if_pos he]
      by_cases hd : q.bDone = true ∨ (q.fp ≤ q.bp ∧ q.fDone = false)
      · rw [if_pos hd]
        have hfd : q.fDone = false := by
          rcases hd with hd | hd
          · have := he.2
            cases hc : q.fDone with
            | false => rfl
            | true => exact absurd ⟨hc, hd⟩ this
          · exact hd.2
        obtain ⟨q', a', SF', h1, h2, h3⟩ := stepFw_spec hf hb h hfd
        obtain ⟨r, a2, b2, h4, h5⟩ := ih q' a' b SF' SB (by omega) h2
        exact ⟨r, a2, b2, by simp [h1, h4], h5⟩
      · rw [if_neg hd]
        have hbd : q.bDone = false := by
          cases hc : q.bDone with
          | false => rfl
          | true => exact absurd (.inl hc) hd
        obtain ⟨q', b', SB', h1, h2, h3⟩ := stepBw_spec hf hb h hbd
        obtain ⟨r, a2, b2, h4, h5⟩ := ih q' a b' SF SB' (by omega) h2
        exact ⟨r, a2, b2, by simp [h1, h4], h5⟩
    · rw [if_neg he]
      exact ⟨q, a, b, rfl, h.final hf hb he, h.rf, h.rb⟩

/-- The query, on any data the server may hold. -/
theorem distance_spec {n : Nat} {sv : Server} (hn : sv.forward.numNodes = n) (hf : LinksOK n sv.forward.linkIter)
    (hb : LinksOK n sv.backward.linkIter) {a b : Abs Unit} (ha : Refines n sv.fd a) (hb' : Refines n sv.bd b) {src dst s t : Nat}
    (hs : sv.order.rank src = some s) (ht : sv.order.rank dst = some t) (hsn : s < n) (htn : t < n) :
    ∃ x sv' a' b', sv.distance src dst = some (if x < INFINITY then some x else none, sv') ∧
      CapMin (Meet (LArc sv.forward.linkIter) (LArc sv.backward.linkIter) s t) x ∧ Refines n sv'.fd a' ∧ Refines n sv'.bd b' ∧
      sv'.forward = sv.forward ∧ sv'.backward = sv.backward ∧ sv'.order = sv.order ∧ sv'.middle = sv.middle := by
  obtain ⟨fd1, h1, h2⟩ := init_refines ha hsn 0
  obtain ⟨bd1, h3, h4⟩ := init_refines hb' htn 0
  have hsf : Side (zp n sv.forward.linkIter) s ⟨fupd (fun _ => INFINITY) s 0, fupd (fun _ => none) s (some 0), fupd a.P s (s, (a.P s).2)⟩ [] :=
    .inr ⟨rfl, hsn, rfl, rfl⟩
  have hsb : Side (zp n sv.backward.linkIter) t ⟨fupd (fun _ => INFINITY) t 0, fupd (fun _ => none) t (some 0), fupd b.P t (t, (b.P t).2)⟩ [] :=
    .inr ⟨rfl, htn, rfl, rfl⟩
  obtain ⟨q', a', b', g1, g2, g3, g4⟩ := queryLoop_spec hf hb (s := s) (t := t) (2 * n + 3) ⟨INFINITY, sv.meet, 0, 0, false, false, fd1, bd1⟩
    _ _ [] [] (by simp [flags]) ⟨h2, h4, hsf, hsb, Nat.le_refl _, fun h => absurd h (by simp), by simp, fun _ _ _ => Nat.zero_le _,
      fun _ _ _ => Nat.zero_le _, by simp, by simp⟩
  refine ⟨q'.tent, { sv with fd := q'.fd, bd := q'.bd, meet := q'.meet }, a', b', ?_, g2, g3, g4, rfl, rfl, rfl, rfl⟩
  unfold Server.distance
  simp only [hs, ht, h1, h3, hn, g1, Option.bind_eq_bind, Option.bind_some, Option.pure_def]
  have := g2.ub
  by_cases hx : q'.tent < INFINITY
  · rw [if_neg (by omega), if_pos hx]
  · rw [if_pos (by omega), if_neg hx]

end CH
end Verif
