import Verif.Proof.TopoEngine
import Verif.Proof.BiAStar
import Verif.Model.BiTopo
import Verif.Spec.Topo
set_option linter.unusedSimpArgs false
set_option linter.unusedVariables false
/- Correctness of the bidirectional search that follows chains of nodes of low degree. -/
namespace Verif
open Spec DData

namespace BiT
open BiA (lo opt qmin opt_getD)

/-- nodes that are never queued (except the source) -/
def Low (deg : Nat → Option SymDeg) (v : Nat) : Prop := deg v = some .lessEqTwo

theorem low_iff (deg : Nat → Option SymDeg) (v : Nat) : Topo.Passed ⟨true, true⟩ deg v ↔ Low deg v := by simp [Topo.Passed, Low]

/-- Invariant of one search. `act`: nodes whose current label is relevant; `S`: settled nodes; `K`: the last key popped;
`I`: irrelevant labels; `BK`: a bound for the keys. -/
structure GInv (n : Nat) (links : Nat → Option (List Link)) (deg : Nat → Option SymDeg) (s : Nat) (pi : Nat → Nat) (I : Nat → Nat → Prop) (ov : Prop)
    (BK : Nat) (pend : Nat → Link → Prop) (a : Abs Unit) (act : Nat → Prop) (S : List Nat) (K : Nat) : Prop where
  src : a.D s = 0
  actSrc : act s
  ub : ∀ x, a.D x ≤ INFINITY
  walk : ∀ x, a.D x < INFINITY → Walk (LArc links) s x (a.D x)
  sett : ∀ x ∈ S, x < n ∧ a.D x < INFINITY ∧ a.Q x = none
  nodup : S.Nodup
  queue : ∀ x k, a.Q x = some k → x < n ∧ x ∉ S ∧ a.D x < INFINITY ∧ a.D x + lo s pi x ≤ k ∧ K ≤ k ∧ (x = s ∨ ¬ Low deg x ∧ pi x < INFINITY)
  actD : ∀ x, act x → a.D x < INFINITY
  actQ : ∀ x, act x → ∀ k, a.Q x = some k → k = a.D x + lo s pi x
  inact : ∀ x, ¬ act x → a.D x < INFINITY → I x (a.D x)
  relaxed : ∀ x, act x → a.Q x = none → (x = s ∨ pi x < INFINITY) → ∀ ls l, links x = some ls → l ∈ ls → ¬ pend x l → a.D l.node ≤ a.D x + l.weight
  ordS : ∀ x ∈ S, a.D x + lo s pi x ≤ K
  kb : ov → ∀ x k, a.Q x = some k → k ≤ BK
  pinv : BiA.PInv n links s a.D a.P

/-- Invariant of (`tentative_distance`, `meeting_node`). The target is queued only after the tentative distance was lowered. -/
structure Joint (n : Nat) (deg : Nat → Option SymDeg) (A : Nat → Nat → Nat → Prop) (s t : Nat) (c : Nat × Nat) (a : Abs Unit) (p : Nat → Prop)
    (E : Nat → Nat) (q : Nat → Prop) : Prop where
  ub : c.1 ≤ INFINITY
  le : ∀ x, p x → q x → ¬ Low deg x → x ≠ s → x ≠ t → c.1 ≤ a.D x + E x
  walk : c.1 < INFINITY → Walk A s t c.1
  meet : c.1 < INFINITY → c.2 < n ∧ a.D c.2 + E c.2 ≤ c.1
  tq : t ≠ s → ∀ k, a.Q t = some k → c.1 ≤ k + E t

/-- What is fixed during a step of one search. `I`: the labels that are pruned. -/
structure Fix (n : Nat) (links : Nat → Option (List Link)) (deg : Nat → Option SymDeg) (pi : Nat → Nat) (I : Nat → Nat → Prop) (ov : Prop) (L C P : Nat)
    (prune : Nat → Nat → Option Bool) : Prop where
  ok : LinksOK n links
  degs : Topo.DegOK (staticProb n links (fun _ => 0)) deg
  arc : ∀ u v w, LArc links u v w → pi u ≤ w + pi v
  piI : ∀ v, pi v ≤ INFINITY
  piP : ov → ∀ v, pi v < INFINITY → pi v ≤ P
  chains : ov → ChainsWithin (LArc links) deg C
  irr : ∀ u v w l, LArc links u v w → I u l → I v (l + w)
  prune : ∀ x l, l < INFINITY → (ov → l ≤ L) → ∃ b, prune x l = some b ∧ (b = true ↔ I x l)

/-- The arcs that are still to be followed start at the popped node `u0` (with label `δ`) or at the end of a chain; `z` is the node of degree three that
was passed, if `h` is true. -/
structure Runs (A : Nat → Nat → Nat → Prop) (deg : Nat → Option SymDeg) (u0 δ : Nat) (h : Bool) (z : Nat) (pend : Nat → Link → Prop) (D : Nat → Nat) :
    Prop where
  u0D : D u0 = δ
  run : ∀ v e, pend v e → δ ≤ D v ∧ (deg v = some .three → v = u0 ∨ v = z) ∧
    ∃ h' ns l, LowRun A deg h' u0 ns v l ∧ (h' = true → h = true ∧ z ∈ ns ++ [v]) ∧ D v ≤ δ + l ∧ ∀ y ∈ ns, D y ≤ D v

/-- The invariant inside a step. -/
structure Core (n : Nat) (links : Nat → Option (List Link)) (deg : Nat → Option SymDeg) (s : Nat) (pi : Nat → Nat) (I : Nat → Nat → Prop) (ov : Prop)
    (BK : Nat) (A : Nat → Nat → Nat → Prop) (t L : Nat) (E : Nat → Nat) (q : Nat → Prop) (S : List Nat) (K : Nat)
    (a0 : Abs Unit) (p0 : Nat → Prop) (c0 : Nat × Nat)
    (pend : Nat → Link → Prop) (a : Abs Unit) (c : Nat × Nat) (p : Nat → Prop) : Prop where
  g : GInv n links deg s pi I ov BK pend a p S K
  j : Joint n deg A s t c a p E q
  ext : BiA.Ext a0 p0 a p
  cle : c.1 ≤ c0.1
  lab : ov → ∀ x, a.D x = a0.D x ∨ a.D x ≤ L
  cup : ov → c.1 = c0.1 ∨ ∃ x, E x < INFINITY ∧ c.1 ≤ L + E x
  key : ∀ v e, pend v e → p v → K ≤ a.D v + lo s pi v

section
variable {n : Nat} {links : Nat → Option (List Link)} {deg : Nat → Option SymDeg} {s : Nat} {pi : Nat → Nat} {I : Nat → Nat → Prop} {ov : Prop} {BK : Nat}

/-- A label that improves, whatever happens to the queue. -/
theorem GInv.improve (harc' : ∀ u v w, LArc links u v w → pi u ≤ w + pi v) (hirr : ∀ u v w l, LArc links u v w → I u l → I v (l + w))
    {pend pend' : Nat → Link → Prop} {a : Abs Unit} {p : Nat → Prop} {S : List Nat} {K : Nat}
    (hi : GInv n links deg s pi I ov BK pend a p S K) {x u w : Nat} (harc : LArc links x u w) (hun : u < n) (hxD : a.D x < INFINITY)
    (hlt : a.D x + w < a.D u) (hkey : p x → K ≤ a.D x + lo s pi x) {Q' : Nat → Option Nat}
    (hQne : ∀ y, y ≠ u → Q' y = a.Q y)
    (hQu : ∀ k, Q' u = some k → a.Q u = some k ∨ (¬ I u (a.D x + w) ∧ k = a.D x + w + pi u ∧ ¬ Low deg u ∧ pi u < INFINITY ∧ (ov → k ≤ BK)))
    (hQa : ¬ I u (a.D x + w) → ∀ k, Q' u = some k → k = a.D x + w + pi u)
    (hpend : ∀ v e, v ≠ u → ¬ pend' v e → ¬ pend v e ∨ (v = x ∧ e = ⟨u, w⟩))
    (hrel : ¬ I u (a.D x + w) → Q' u = none → pi u < INFINITY → ∀ lu e, links u = some lu → e ∈ lu → ¬ pend' u e → e.node = x) :
    GInv n links deg s pi I ov BK pend' ⟨fupd a.D u (a.D x + w), Q', fupd a.P u (x, ())⟩
      (fun y => if y = u then ¬ I u (a.D x + w) else p y) S K ∧
    (¬ I u (a.D x + w) → p x ∧ u ∉ S ∧ K ≤ a.D x + w + pi u) ∧ u ≠ s ∧ u ≠ x := by
  have hlI : a.D x + w < INFINITY := Nat.lt_of_lt_of_le hlt (hi.ub u)
  have hus : u ≠ s := by rintro rfl; rw [hi.src] at hlt; omega
  have hux : u ≠ x := by rintro rfl; omega
  have hlo : lo s pi u = pi u := by simp [lo, hus]
  have hlox : lo s pi x ≤ w + pi u := by
    by_cases h : x = s
    · simp [lo, h]
    · simp only [lo, h, if_false]; exact harc' _ _ _ harc
  have hact : ¬ I u (a.D x + w) → p x ∧ u ∉ S ∧ K ≤ a.D x + w + pi u := by
    intro hn
    have hpx : p x := by
      apply Classical.byContradiction
      intro h
      exact hn (hirr _ _ _ _ harc (hi.inact x h hxD))
    have hK := hkey hpx
    refine ⟨hpx, ?_, by omega⟩
    intro h
    have := hi.ordS u h
    rw [hlo] at this
    omega
  have hDle : ∀ y, fupd a.D u (a.D x + w) y ≤ a.D y := by
    intro y; unfold fupd; split
    · subst_vars; omega
    · exact Nat.le_refl _
  refine ⟨?_, hact, hus, hux⟩
  constructor
  · simp only; rw [fupd_of_ne _ _ (Ne.symm hus)]; exact hi.src
  · simp only [Ne.symm hus, if_false]; exact hi.actSrc
  · intro y; exact Nat.le_trans (hDle y) (hi.ub y)
  · intro y hy
    simp only at hy ⊢
    by_cases hyu : y = u
    · subst hyu; simpa using (hi.walk x hxD).snoc harc
    · rw [fupd_of_ne _ _ hyu] at hy ⊢; exact hi.walk y hy
  · intro y hy
    obtain ⟨g1, g2, g3⟩ := hi.sett y hy
    refine ⟨g1, Nat.lt_of_le_of_lt (hDle y) g2, ?_⟩
    simp only
    by_cases hyu : y = u
    · subst hyu
      cases hq : Q' y with
      | none => rfl
      | some k =>
        rcases hQu k hq with h | ⟨h, _⟩
        · rw [g3] at h; simp at h
        · exact absurd hy (hact h).2.1
    · rw [hQne y hyu]; exact g3
  · exact hi.nodup
  · intro y k hk
    simp only at hk ⊢
    by_cases hyu : y = u
    · subst hyu
      rcases hQu k hk with h | ⟨h1, h2, h3, h4, h5⟩
      · obtain ⟨g1, g2, g3, g4, g5, g6⟩ := hi.queue y k h
        have := hDle y
        exact ⟨g1, g2, Nat.lt_of_le_of_lt (hDle y) g3, by omega, g5, g6⟩
      · obtain ⟨_, g2, g3⟩ := hact h1
        exact ⟨hun, g2, by simpa using hlI, by simp [hlo]; omega, by omega, .inr ⟨h3, h4⟩⟩
    · rw [hQne y hyu] at hk
      rw [fupd_of_ne _ _ hyu]
      exact hi.queue y k hk
  · intro y hy
    simp only at hy ⊢
    by_cases hyu : y = u
    · subst hyu; simpa using hlI
    · rw [fupd_of_ne _ _ hyu]; simp only [hyu, if_false] at hy; exact hi.actD y hy
  · intro y hy k hk
    simp only at hy hk ⊢
    by_cases hyu : y = u
    · subst hyu
      simp only [if_true] at hy
      rw [fupd_same, hlo]; exact hQa hy k hk
    · simp only [hyu, if_false] at hy
      rw [hQne y hyu] at hk
      rw [fupd_of_ne _ _ hyu]
      exact hi.actQ y hy k hk
  · intro y hy hyD
    simp only at hy hyD ⊢
    by_cases hyu : y = u
    · subst hyu
      simp only [if_true] at hy
      simp only [fupd_same]
      exact Classical.byContradiction hy
    · simp only [hyu, if_false] at hy
      rw [fupd_of_ne _ _ hyu] at hyD ⊢
      exact hi.inact y hy hyD
  · intro y hy hq hpy ls l hls hl hnp
    simp only at hy hq ⊢
    by_cases hyu : y = u
    · subst hyu
      simp only [if_true] at hy
      have hpi : pi y < INFINITY := hpy.resolve_left hus
      have := hrel hy hq hpi ls l hls hl hnp
      rw [this, fupd_of_ne _ _ (Ne.symm hux), fupd_same]
      omega
    · simp only [hyu, if_false] at hy
      rw [hQne y hyu] at hq
      rw [fupd_of_ne _ _ hyu]
      rcases hpend y l hyu hnp with h | ⟨rfl, rfl⟩
      · exact Nat.le_trans (hDle _) (hi.relaxed y hy hq hpy ls l hls hl h)
      · simp
  · intro y hy
    have := hi.ordS y hy
    have := hDle y
    simp only; omega
  · intro hov y k hk
    simp only at hk
    by_cases hyu : y = u
    · subst hyu
      rcases hQu k hk with h | ⟨_, _, _, _, h⟩
      · exact hi.kb hov y k h
      · exact h hov
    · rw [hQne y hyu] at hk; exact hi.kb hov y k hk
  · exact hi.pinv.upd hi.src hun hxD harc hlt

theorem GInv.skip {pend pend' : Nat → Link → Prop} {a : Abs Unit} {p : Nat → Prop} {S : List Nat} {K : Nat}
    (hi : GInv n links deg s pi I ov BK pend a p S K) {x : Nat} {b : Link} (hn : ¬ a.D x + b.weight < a.D b.node)
    (hpend : ∀ v e, ¬ pend' v e → ¬ pend v e ∨ (v = x ∧ e = b)) : GInv n links deg s pi I ov BK pend' a p S K := by
  refine { hi with relaxed := ?_ }
  intro y hy hq hpy ls l hls hl hnp
  rcases hpend y l hnp with h | ⟨rfl, rfl⟩
  · exact hi.relaxed y hy hq hpy ls l hls hl h
  · omega

theorem low_end {A : Nat → Nat → Nat → Prop} {h : Bool} {u v l : Nat} {ns : List Nat} (hr : LowRun A deg h u ns v l) :
    v = u ∨ Low deg v ∨ (deg v = some .three ∧ h = true) := by
  cases hr with
  | start => exact .inl rfl
  | two _ _ h _ => exact .inr (.inl h)
  | three _ _ h _ => exact .inr (.inr ⟨h, rfl⟩)

variable {A : Nat → Nat → Nat → Prop} {u0 δ : Nat} {h : Bool} {z : Nat} {pend pend' : Nat → Link → Prop} {D : Nat → Nat}

theorem Runs.sub (hr : Runs A deg u0 δ h z pend D) (hs : ∀ v e, pend' v e → pend v e) : Runs A deg u0 δ h z pend' D :=
  ⟨hr.u0D, fun v e hv => hr.run v e (hs v e hv)⟩

theorem Runs.reset (hr : Runs A deg u0 δ h z pend D) (hs : ∀ v e, pend v e → v = u0) : Runs A deg u0 δ false z pend D := by
  refine ⟨hr.u0D, fun v e hv => ?_⟩
  obtain rfl := hs v e hv
  exact ⟨Nat.le_of_eq hr.u0D.symm, fun _ => .inl rfl, false, [], 0, .start _, by simp, by rw [hr.u0D]; omega, by simp⟩

/-- what is used of a node with pending arcs -/
theorem Runs.fresh (hr : Runs A deg u0 δ h z pend D) {x u w : Nat} {e : Link} (hx : pend x e) (hlt : D x + w < D u) : u ≠ u0 ∧ δ ≤ D x + w ∧
    ∃ h' ns l, LowRun A deg h' u0 ns x l ∧ (h' = true → h = true ∧ z ∈ ns ++ [x]) ∧ D x ≤ δ + l ∧ (∀ y ∈ ns, D y ≤ D x) ∧ u ∉ ns ++ [x] := by
  obtain ⟨h1, h2, h', ns, l, h3, h4, h5, h6⟩ := hr.run x e hx
  refine ⟨?_, by omega, h', ns, l, h3, h4, h5, h6, ?_⟩
  · rintro rfl; have := hr.u0D; omega
  · intro hm
    simp at hm
    rcases hm with hm | rfl
    · have := h6 u hm; omega
    · omega

/-- the label of a node that is improved is bounded -/
theorem Runs.bound (hr : Runs A deg u0 δ h z pend D) {x u w C : Nat} {e : Link} (hx : pend x e) (ha : A x u w) (hlt : D x + w < D u)
    (hC : ChainsWithin A deg C) : D x + w ≤ δ + C := by
  obtain ⟨_, _, h', ns, l, h3, _, h5, _, h7⟩ := hr.fresh hx hlt
  have := hC _ _ _ _ _ _ _ h3 ha h7
  omega

theorem Runs.improve (hr : Runs A deg u0 δ h z pend D) {x u w : Nat} {e : Link} (hx : pend x e) (ha : A x u w) (hlt : D x + w < D u)
    {h2 : Bool} {z2 : Nat} (more : Prop) (hp : ∀ v e, pend' v e → pend v e ∨ (more ∧ v = u))
    (hcase : (h2 = h ∧ z2 = z ∧ (Low deg u ∨ ¬ more ∧ ¬ Low deg u)) ∨ (h = false ∧ h2 = true ∧ z2 = u ∧ deg u = some .three)) :
    Runs A deg u0 δ h2 z2 pend' (fupd D u (D x + w)) := by
  obtain ⟨hu0, hδ, h', ns, l, g1, g2, g3, g4, g5⟩ := hr.fresh hx hlt
  have hxu : x ≠ u := by rintro rfl; simp at g5
  have hDle : ∀ y, fupd D u (D x + w) y ≤ D y := by
    intro y; unfold fupd; split
    · subst_vars; omega
    · exact Nat.le_refl _
  refine ⟨by rw [fupd_of_ne _ _ (Ne.symm hu0)]; exact hr.u0D, ?_⟩
  intro v e' hv
  by_cases hvu : v = u
  · subst hvu
    rw [fupd_same]
    refine ⟨hδ, ?_, ?_⟩
    · intro h3
      rcases hcase with ⟨rfl, rfl, hlow | ⟨hm, hlow⟩⟩ | ⟨_, _, rfl, _⟩
      · rw [Low, h3] at hlow; simp at hlow
      · rcases hp v e' hv with h | ⟨h, _⟩
        · exact (hr.run v e' h).2.1 h3
        · exact absurd h hm
      · exact .inr rfl
    · have hns : ∀ y ∈ ns ++ [x], fupd D v (D x + w) y ≤ D x + w := by
        intro y hy
        have := hDle y
        simp at hy
        rcases hy with hy | rfl
        · have := g4 y hy; omega
        · omega
      rcases hcase with ⟨rfl, rfl, hlow | ⟨hm, hlow⟩⟩ | ⟨hf, rfl, rfl, h3⟩
      · exact ⟨h', _, _, .two g1 ha hlow g5, fun h => ⟨(g2 h).1, by have := (g2 h).2; simp at this ⊢; tauto⟩, by omega, hns⟩
      · rcases hp v e' hv with h | ⟨h, _⟩
        · obtain ⟨_, i2, i3, i4, i5, i6, i7, _⟩ := hr.run v e' h
          rcases low_end i6 with i | i | ⟨i, j⟩
          · exact absurd i hu0
          · exact absurd i hlow
          · have hz : v = z2 := (i2 i).resolve_left hu0
            cases h' with
            | true => exact absurd (hz ▸ (g2 rfl).2) g5
            | false => exact ⟨true, _, _, .three g1 ha i g5, fun _ => ⟨(i7 j).1, by rw [hz]; simp⟩, by omega, hns⟩
        · exact absurd h hm
      · cases h' with
        | true => rw [hf] at g2; simp at g2
        | false => exact ⟨true, _, _, .three g1 ha h3 g5, fun _ => ⟨rfl, by simp⟩, by omega, hns⟩
  · rw [fupd_of_ne _ _ hvu]
    have hold : pend v e' := (hp v e' hv).resolve_right (fun h => hvu h.2)
    obtain ⟨i1, i2, i3, i4, i5, i6, i7, i8, i9⟩ := hr.run v e' hold
    refine ⟨i1, ?_, i3, i4, i5, i6, ?_, i8, fun y hy => Nat.le_trans (hDle y) (i9 y hy)⟩
    · intro h3
      rcases hcase with ⟨rfl, rfl, _⟩ | ⟨hf, rfl, rfl, _⟩
      · exact i2 h3
      · rcases low_end i6 with i | i | ⟨i, j⟩
        · exact .inl i
        · rw [Low, h3] at i; simp at i
        · have := (i7 j).1; rw [hf] at this; simp at this
    · intro h
      rcases hcase with ⟨rfl, rfl, _⟩ | ⟨hf, rfl, rfl, _⟩
      · exact i7 h
      · have := (i7 h).1; rw [hf] at this; simp at this

variable {t L : Nat} {E : Nat → Nat} {q : Nat → Prop} {S : List Nat} {K : Nat} {a0 : Abs Unit} {p0 : Nat → Prop} {c0 : Nat × Nat}

/-- A label that improves. -/
theorem Core.improve (harc' : ∀ u v w, LArc links u v w → pi u ≤ w + pi v) (hirr : ∀ u v w l, LArc links u v w → I u l → I v (l + w))
    (hwalk : ∀ x l, Walk (LArc links) s x l → E x < INFINITY → Walk A s t (l + E x))
    {a : Abs Unit} {p : Nat → Prop} {c c' : Nat × Nat}
    (hi : Core n links deg s pi I ov BK A t L E q S K a0 p0 c0 pend a c p) {x u w : Nat} (harc : LArc links x u w) (hun : u < n) (hxD : a.D x < INFINITY)
    (hlt : a.D x + w < a.D u) (hL : ov → a.D x + w ≤ L) (hpx : pend x ⟨u, w⟩) {Q' : Nat → Option Nat}
    (hQne : ∀ y, y ≠ u → Q' y = a.Q y)
    (hQu : ∀ k, Q' u = some k → a.Q u = some k ∨ (¬ I u (a.D x + w) ∧ k = a.D x + w + pi u ∧ ¬ Low deg u ∧ pi u < INFINITY ∧ (ov → k ≤ BK)))
    (hQa : ¬ I u (a.D x + w) → ∀ k, Q' u = some k → k = a.D x + w + pi u)
    (more : Bool) (hrest : Topo.Rest (staticProb n links (fun _ => 0)) pend pend' x ⟨u, w⟩ more)
    (hmore : more = false → ¬ I u (a.D x + w) → Q' u = none → ¬ pi u < INFINITY)
    (hc1 : c'.1 ≤ c.1) (hc2 : ¬ I u (a.D x + w) → ¬ Low deg u → c'.1 ≤ a.D x + w + E u)
    (hc3 : c' = c ∨ (c' = (a.D x + w + E u, u) ∧ a.D x + w + E u < c.1)) :
    ∃ p', Core n links deg s pi I ov BK A t L E q S K a0 p0 c0 pend' ⟨fupd a.D u (a.D x + w), Q', fupd a.P u (x, ())⟩ c' p' := by
  obtain ⟨h1, h2, h3, h4⟩ := hi.g.improve (pend' := pend') harc' hirr harc hun hxD hlt (hi.key x _ hpx) hQne hQu hQa
    (by
      intro v e hvu hn
      by_cases hp : pend v e
      · rcases hrest.old v e (fun _ => hvu) hp with h | h
        · exact absurd h hn
        · exact .inr h
      · exact .inl hp)
    (by
      intro hn hq hpi lu e hlu he hnp
      cases more with
      | false => exact absurd hpi (hmore rfl hn hq)
      | true => exact hrest.all rfl lu e hlu he hnp)
  have hDle : ∀ y, fupd a.D u (a.D x + w) y ≤ a.D y := by
    intro y; unfold fupd; split
    · subst_vars; omega
    · exact Nat.le_refl _
  have hw' : Walk (LArc links) s u (a.D x + w) := (hi.g.walk x hxD).snoc harc
  refine ⟨_, h1, ⟨?_, ?_, ?_, ?_, ?_⟩, ?_, ?_, ?_, ?_, ?_⟩
  · have := hi.j.ub; omega
  · intro y hy hq hlow hys hyt
    simp only at hy ⊢
    by_cases hyu : y = u
    · subst hyu; simp only [if_true] at hy; rw [fupd_same]; exact hc2 hy hlow
    · rw [fupd_of_ne _ _ hyu]; simp only [hyu, if_false] at hy
      have := hi.j.le y hy hq hlow hys hyt
      omega
  · intro hc
    rcases hc3 with rfl | ⟨rfl, hs⟩
    · exact hi.j.walk hc
    · exact hwalk _ _ hw' (by simp only at hc; omega)
  · intro hc
    rcases hc3 with rfl | ⟨rfl, hs⟩
    · obtain ⟨g1, g2⟩ := hi.j.meet hc
      have := hDle c'.2
      exact ⟨g1, by simp only; omega⟩
    · exact ⟨hun, by simp⟩
  · intro hts k hk
    simp only at hk
    by_cases hyu : t = u
    · subst hyu
      rcases hQu k hk with h | ⟨e1, e2, e3, _⟩
      · have := hi.j.tq hts k h; omega
      · have := hc2 e1 e3; omega
    · rw [hQne _ hyu] at hk
      have := hi.j.tq hts k hk
      omega
  · intro y
    obtain ⟨e1, e2⟩ := hi.ext y
    refine ⟨Nat.le_trans (hDle y) e1, fun he => ?_⟩
    simp only at he ⊢
    have hyu : y ≠ u := by rintro rfl; rw [fupd_same] at he; omega
    rw [fupd_of_ne _ _ hyu] at he
    rw [hQne y hyu]
    simp only [hyu, if_false]
    exact e2 he
  · have := hi.cle; omega
  · intro hov y
    simp only
    by_cases hyu : y = u
    · subst hyu; rw [fupd_same]; exact .inr (hL hov)
    · rw [fupd_of_ne _ _ hyu]; exact hi.lab hov y
  · intro hov
    rcases hc3 with rfl | ⟨rfl, hs⟩
    · exact hi.cup hov
    · refine .inr ⟨u, ?_, ?_⟩
      · have := hi.j.ub; omega
      · have := hL hov; simp only; omega
  · intro v e hv hp
    simp only at hp ⊢
    by_cases hvu : v = u
    · subst hvu
      simp only [if_true] at hp
      rw [fupd_same]
      have := (h2 hp).2.2
      simp only [lo, h3, if_false]; omega
    · simp only [hvu, if_false] at hp
      rw [fupd_of_ne _ _ hvu]
      rcases hrest.new v e hv with h | ⟨_, h⟩
      · exact hi.key v e h hp
      · exact absurd h hvu

variable {C P : Nat}

/-- The closures keep the invariant. -/
theorem events {prune : Nat → Nat → Nat → Nat → Option Bool} {od : DData Unit} {ob : Abs Unit} {M : Nat}
    (hf : Fix n links deg pi I ov L C P (fun x l => prune x l (od.peekKey.getD INFINITY) M))
    (hro : Refines n od ob) (hEub : ∀ x, ob.D x ≤ INFINITY)
    (hwalk : ∀ x l, Walk (LArc links) s x l → ob.D x < INFINITY → Walk A s t (l + ob.D x))
    (hδ : δ < INFINITY) (hdX : ov → δ + C ≤ L) (hBK : ov → L + P ≤ BK) :
    Topo.Events (staticProb n links (fun _ => 0)) ⟨true, true⟩ deg (cl prune (opt pi) od M) u0
      (fun h pend a c => ∃ p z, Core n links deg s pi I ov BK A t L ob.D q S K a0 p0 c0 pend a c p ∧
        Runs (LArc links) deg u0 δ h z pend a.D) := by
  -- the first closure
  have himp : ∀ (a : Abs Unit) (c : Nat × Nat) (x : Nat) (b : Link), b.node < n → a.D x + b.weight < INFINITY →
      (ov → a.D x + b.weight ≤ L) →
      ∃ c' ok, (cl prune (opt pi) od M).imp c b.node (a.D x + b.weight) = some (c', ok) ∧ (ok = true ↔ ¬ I b.node (a.D x + b.weight)) ∧
        c'.1 ≤ c.1 ∧ (¬ I b.node (a.D x + b.weight) → c'.1 ≤ a.D x + b.weight + ob.D b.node) ∧
        (c' = c ∨ (c' = (a.D x + b.weight + ob.D b.node, b.node) ∧ a.D x + b.weight + ob.D b.node < c.1)) := by
    intro a c x b hbn hlI hlX
    obtain ⟨bb, h1, h2⟩ := hf.prune b.node _ hlI hlX
    have h3 := hro.get hbn
    have h4 := hEub b.node
    have h5 : add32 (a.D x + b.weight) (ob.D b.node) = some (a.D x + b.weight + ob.D b.node) :=
      add32_of_lt (by simp only [INFINITY, U32] at *; omega)
    generalize a.D x + b.weight = l at *
    cases bb with
    | true =>
      refine ⟨c, false, by simp [cl, h1], by simpa using h2, Nat.le_refl _, fun h => absurd (h2.1 rfl) h, .inl rfl⟩
    | false =>
      have hn : ¬ I b.node l := fun h => by have := h2.2 h; simp at this
      by_cases hs : l + ob.D b.node < c.1
      · exact ⟨(l + ob.D b.node, b.node), true, by simp [cl, h1, h3, h5, hs], by simpa using hn, by simp only; omega, fun _ => Nat.le_refl _, .inr ⟨rfl, hs⟩⟩
      · exact ⟨c, true, by simp [cl, h1, h3, h5, hs], by simpa using hn, Nat.le_refl _, fun _ => by omega, .inl rfl⟩
  constructor
  · rintro h pend a c ⟨p, z, hc, hr⟩; exact hc.g.ub
  · rintro h pend a c ⟨p, z, hc, hr⟩; rw [hr.u0D]; exact hδ
  · rintro h pend a c ⟨p, z, hc, hr⟩ hu; exact ⟨p, z, hc, hr.reset hu⟩
  · rintro h pend pend' a c x b ⟨p, z, hc, hr⟩ hxn hxD _ hpx hn hrest
    refine ⟨p, z, ⟨?_, hc.j, hc.ext, hc.cle, hc.lab, hc.cup, ?_⟩, hr.sub ?_⟩
    · refine hc.g.skip (b := b) hn ?_
      intro v e hv
      by_cases hp : pend v e
      · rcases hrest.old v e (by simp) hp with h | h
        · exact absurd h hv
        · exact .inr h
      · exact .inl hp
    · intro v e hv; exact hc.key v e ((hrest.new v e hv).resolve_right (by simp))
    · intro v e hv; exact (hrest.new v e hv).resolve_right (by simp)
  · rintro h pend pend' a c x ⟨u, w⟩ ⟨p, z, hc, hr⟩ hb hlow hrest
    obtain ⟨ls, hls, hmem⟩ := hb.arc
    have harc : LArc links x u w := ⟨ls, hls, hmem⟩
    have hlt : a.D x + w < a.D u := hb.lt
    rw [low_iff] at hlow
    change Low deg u at hlow
    have hun : u < n := hf.ok.heads x ls _ hls hmem
    have hlX : ov → a.D x + w ≤ L := fun h => by have := hr.bound hb.pend harc hlt (hf.chains h); have := hdX h; omega
    have hQ : a.Q u = none := by
      cases hq : a.Q u with
      | none => rfl
      | some k =>
        rcases (hc.g.queue u k hq).2.2.2.2.2 with rfl | ⟨h, _⟩
        · have := hc.g.src; omega
        · exact absurd hlow h
    obtain ⟨p', h1⟩ := hc.improve (c' := c) (Q' := a.Q) hf.arc hf.irr hwalk harc hun hb.xD hlt hlX hb.pend (fun _ _ => rfl)
      (fun k hk => .inl hk) (by intro _ k hk; rw [hQ] at hk; simp at hk) true hrest (by simp) (Nat.le_refl _) (fun _ h => absurd hlow h) (.inl rfl)
    exact ⟨p', z, h1, hr.improve hb.pend harc hlt (z2 := z) True (fun v e hv => (hrest.new v e hv).imp id (fun h => ⟨trivial, h.2⟩)) (.inl ⟨rfl, rfl, .inl hlow⟩)⟩
  · rintro pend a c x ⟨u, w⟩ ⟨p, z, hc, hr⟩ hb hthree hQ
    obtain ⟨ls, hls, hmem⟩ := hb.arc
    have harc : LArc links x u w := ⟨ls, hls, hmem⟩
    have hlt : a.D x + w < a.D u := hb.lt
    change deg u = some .three at hthree
    change a.Q u = none at hQ
    have hun : u < n := hf.ok.heads x ls _ hls hmem
    have hlX : ov → a.D x + w ≤ L := fun h => by have := hr.bound hb.pend harc hlt (hf.chains h); have := hdX h; omega
    obtain ⟨c', ok, g1, g2, g3, g4, g5⟩ := himp a c x ⟨u, w⟩ hun (Nat.lt_of_lt_of_le hlt (hc.g.ub u)) hlX
    refine ⟨c', ok, g1, fun pend' hrest => ?_⟩
    obtain ⟨p', h1⟩ := hc.improve (c' := c') (Q' := a.Q) hf.arc hf.irr hwalk harc hun hb.xD hlt hlX hb.pend (fun _ _ => rfl)
      (fun k hk => .inl hk) (by intro _ k hk; rw [hQ] at hk; simp at hk) true hrest (by simp) g3 (fun h _ => g4 h) g5
    exact ⟨p', u, h1, hr.improve hb.pend harc hlt (z2 := u) True (fun v e hv => (hrest.new v e hv).imp id (fun h => ⟨trivial, h.2⟩)) (.inr ⟨rfl, rfl, rfl, hthree⟩)⟩
  · rintro h pend a c x ⟨u, w⟩ ⟨p, z, hc, hr⟩ hb hlow
    obtain ⟨ls, hls, hmem⟩ := hb.arc
    have harc : LArc links x u w := ⟨ls, hls, hmem⟩
    have hlt : a.D x + w < a.D u := hb.lt
    rw [low_iff] at hlow
    change ¬ Low deg u at hlow
    have hun : u < n := hf.ok.heads x ls _ hls hmem
    have hlI : a.D x + w < INFINITY := Nat.lt_of_lt_of_le hlt (hc.g.ub u)
    have hlX : ov → a.D x + w ≤ L := fun h => by have := hr.bound hb.pend harc hlt (hf.chains h); have := hdX h; omega
    obtain ⟨c', ok, g1, g2, g3, g4, g5⟩ := himp a c x ⟨u, w⟩ hun hlI hlX
    have hus : u ≠ s := by rintro rfl; have := hc.g.src; omega
    have hlo : lo s pi u = pi u := by simp [lo, hus]
    have hrun : ∀ pend', Topo.Rest (staticProb n links (fun _ => 0)) pend pend' x ⟨u, w⟩ false →
        Runs (LArc links) deg u0 δ h z pend' (fupd a.D u (a.D x + w)) := fun pend' hrest =>
      hr.improve hb.pend harc hlt (z2 := z) False (by intro v e hv; simpa using hrest.new v e hv) (.inl ⟨rfl, rfl, .inr ⟨by simp, hlow⟩⟩)
    refine ⟨c', ok, g1, ?_, ?_⟩
    · intro hok pend' hrest
      have hI : I u (a.D x + w) := by
        apply Classical.byContradiction
        intro h; rw [g2.2 h] at hok; simp at hok
      obtain ⟨p', h1⟩ := hc.improve (c' := c') (Q' := a.Q) hf.arc hf.irr hwalk harc hun hb.xD hlt hlX hb.pend (fun _ _ => rfl)
        (fun k hk => .inl hk) (fun h => absurd hI h) false hrest (fun _ h => absurd hI h) g3 (fun h => absurd hI h) g5
      exact ⟨p', z, h1, hrun pend' hrest⟩
    · intro hok
      have hI : ¬ I u (a.D x + w) := g2.1 hok
      by_cases hpi : pi u < INFINITY
      · have hadd : add32 (pi u) (a.D x + w) = some (pi u + (a.D x + w)) := add32_of_lt (by simp only [INFINITY, U32] at *; omega)
        refine ⟨c', some (pi u + (a.D x + w)), ?_, ?_, ?_⟩
        · have : (cl prune (opt pi) od M).key c' u (a.D x + w) = some (c', some (pi u + (a.D x + w))) := by simp [cl, opt, hpi, hadd]
          exact this
        · intro κ k hκ hk
          simp only [Option.some.injEq] at hκ
          have := (hc.g.queue u k hk).2.2.2.1
          rw [hlo] at this
          omega
        · intro pend' hrest
          obtain ⟨p', h1⟩ := hc.improve (c' := c') (Q' := Topo.setQ a.Q u (some (pi u + (a.D x + w)))) hf.arc hf.irr hwalk harc hun hb.xD hlt hlX hb.pend
            (fun y hy => by simp only [Topo.setQ]; rw [fupd_of_ne _ _ hy])
            (fun k hk => by
              simp only [Topo.setQ, fupd_same, Option.some.injEq] at hk
              refine .inr ⟨hI, by omega, hlow, hpi, fun h => ?_⟩
              have := hlX h
              have := hf.piP h u hpi
              have := hBK h
              omega)
            (fun _ k hk => by simp only [Topo.setQ, fupd_same, Option.some.injEq] at hk; omega) false hrest
            (fun _ _ h => by simp [Topo.setQ] at h) g3 (fun h _ => g4 h) g5
          exact ⟨p', z, h1, hrun pend' hrest⟩
      · refine ⟨c', none, ?_, by simp, ?_⟩
        · have : (cl prune (opt pi) od M).key c' u (a.D x + w) = some (c', none) := by simp [cl, opt, hpi]
          exact this
        · intro pend' hrest
          have hQ : a.Q u = none := by
            cases hq : a.Q u with
            | none => rfl
            | some k =>
              rcases (hc.g.queue u k hq).2.2.2.2.2 with h | ⟨_, h⟩
              · exact absurd h hus
              · exact absurd h hpi
          obtain ⟨p', h1⟩ := hc.improve (c' := c') (Q' := a.Q) hf.arc hf.irr hwalk harc hun hb.xD hlt hlX hb.pend (fun _ _ => rfl)
            (fun k hk => .inl hk) (by intro _ k hk; rw [hQ] at hk; simp at hk) false hrest (fun _ _ _ => hpi) g3 (fun h _ => g4 h) g5
          exact ⟨p', z, h1, hrun pend' hrest⟩

/-- One step of one search. -/
theorem settle_spec {prune : Nat → Nat → Nat → Nat → Option Bool} {od : DData Unit} {ob : Abs Unit} {M : Nat}
    (hf : Fix n links deg pi I ov L C P (fun x l => prune x l (od.peekKey.getD INFINITY) M))
    (hro : Refines n od ob) (hEub : ∀ x, ob.D x ≤ INFINITY)
    (hwalk : ∀ x l, Walk (LArc links) s x l → ob.D x < INFINITY → Walk A s t (l + ob.D x))
    {d : DData Unit} {a : Abs Unit} {p : Nat → Prop} {k : Nat} {c : Nat × Nat} (hr : Refines n d a)
    (hi : GInv n links deg s pi I ov BK (fun _ _ => False) a p S K) (hj : Joint n deg A s t c a p ob.D q)
    (hpk : d.peekKey = some k) (hkL : ov → k + C ≤ L) (hBK : ov → L + P ≤ BK) :
    ∃ u d' c' a' p', Topo.settleNext n ⟨true, true⟩ ⟨links, deg⟩ defaultOps (cl prune (opt pi) od M) d c = some (some u, d', c') ∧ Refines n d' a' ∧
      Core n links deg s pi I ov BK A t L ob.D q (u :: S) k { a with Q := fupd a.Q u none } p c (fun _ _ => False) a' c' p' ∧
      a'.D u = a.D u ∧ a.Q u = some k ∧ (k < INFINITY → k ≤ qmin d') := by
  obtain ⟨v0, hv0, hmin⟩ : ∃ v, a.Q v = some k ∧ ∀ u k', a.Q u = some k' → k ≤ k' := by
    rcases BiD.peekKey_spec hr with ⟨h, _⟩ | ⟨v, k', h1, h2, h3⟩
    · rw [h] at hpk; simp at hpk
    · rw [h1] at hpk; simp at hpk; subst hpk; exact ⟨v, h2, h3⟩
  rcases IHeap.rep_pop hr.queue with ⟨h1, h2⟩ | ⟨x, qq, h1, h2, h3, h4⟩
  · have := h2 v0; rw [hv0] at this; simp at this
  · simp only [idx_q, Option.map_eq_some_iff] at h2
    obtain ⟨k', hk, hx⟩ := h2
    have hkk : k' = k := by
      have g1 := hmin _ _ hk
      have g2 := h3 v0 ⟨k, v0⟩ (by simp [hv0])
      have hkey : x.key = k' := by rw [← hx]
      simp only [IHeap.le, HeapElem.lt] at g2
      simp at g2; omega
    subst hkk
    obtain ⟨hun, huS, huD, hul, huK, hulow⟩ := hi.queue _ _ hk
    obtain ⟨ls, hls⟩ := hf.ok.total x.node hun
    have hr1 : Refines n { d with queue := qq } { a with Q := fupd a.Q x.node none } := by
      refine ⟨hr.dist, hr.default, ?_, hr.plen, hr.pred⟩
      convert h4 using 1
      funext u
      by_cases hu : u = x.node
      · subst hu; simp [idx_q]
      · simp only [idx_q]; rw [fupd_of_ne _ _ hu, fupd_of_ne _ _ hu]
    have hi1 : GInv n links deg s pi I ov BK (fun y l => y = x.node ∧ l ∈ ls) { a with Q := fupd a.Q x.node none } p (x.node :: S) k' := by
      constructor
      · exact hi.src
      · exact hi.actSrc
      · exact hi.ub
      · exact hi.walk
      · intro y hy
        simp only
        by_cases hyx : y = x.node
        · subst hyx; exact ⟨hun, huD, by simp⟩
        · rw [fupd_of_ne _ _ hyx]
          simp [hyx] at hy
          exact hi.sett y hy
      · exact List.nodup_cons.2 ⟨huS, hi.nodup⟩
      · intro y κ hy
        simp only at hy ⊢
        by_cases hyx : y = x.node
        · subst hyx; simp at hy
        · rw [fupd_of_ne _ _ hyx] at hy
          obtain ⟨g1, g2, g3, g4, g5, g6⟩ := hi.queue y κ hy
          exact ⟨g1, by simp [hyx, g2], g3, g4, hmin _ _ hy, g6⟩
      · exact hi.actD
      · intro y hy κ hκ
        simp only at hκ ⊢
        by_cases hyx : y = x.node
        · subst hyx; simp at hκ
        · rw [fupd_of_ne _ _ hyx] at hκ; exact hi.actQ y hy κ hκ
      · exact hi.inact
      · intro y hy hq hpy lx l hlx hl hnp
        simp only at hq ⊢
        by_cases hyx : y = x.node
        · subst hyx
          rw [hls] at hlx; simp at hlx; subst hlx
          exact absurd ⟨rfl, hl⟩ hnp
        · rw [fupd_of_ne _ _ hyx] at hq
          exact hi.relaxed y hy hq hpy lx l hlx hl (by simp)
      · intro y hy
        simp only [List.mem_cons] at hy
        rcases hy with rfl | hy
        · exact hul
        · have := hi.ordS y hy
          simp only; omega
      · intro hR y κ hy
        simp only at hy
        by_cases hyx : y = x.node
        · subst hyx; simp at hy
        · rw [fupd_of_ne _ _ hyx] at hy
          exact hi.kb hR y κ hy
      · exact hi.pinv
    have hc0 : Core n links deg s pi I ov BK A t L ob.D q (x.node :: S) k' { a with Q := fupd a.Q x.node none } p c
        (fun y l => y = x.node ∧ l ∈ ls) { a with Q := fupd a.Q x.node none } c p := by
      refine ⟨hi1, ⟨hj.ub, hj.le, hj.walk, hj.meet, ?_⟩, BiA.Ext.refl _ _, Nat.le_refl _, fun _ _ => .inl rfl, fun _ => .inl rfl, ?_⟩
      · intro hts κ hκ
        simp only at hκ
        by_cases hyx : t = x.node
        · subst hyx; simp at hκ
        · rw [fupd_of_ne _ _ hyx] at hκ; exact hj.tq hts κ hκ
      · rintro v e ⟨rfl, _⟩ hp
        exact Nat.le_of_eq (hi.actQ _ hp _ hk)
    have hE := events (s := s) (q := q) (A := A) (t := t) (S := x.node :: S) (K := k') (a0 := { a with Q := fupd a.Q x.node none }) (p0 := p) (c0 := c)
      (u0 := x.node) (δ := a.D x.node) hf hro hEub hwalk huD (fun h => by have := hkL h; omega) hBK
    obtain ⟨d', c', a', h', g1, g2, p', z, g3, g4⟩ := Topo.fold_ev (staticProb_ok hf.ok (zero_feasible _)) hf.degs hE (N := n) (Nat.le_refl _) hun hls ls (fun _ h => h)
      (d := { d with queue := qq }) (c := c) (h := false) hr1
      ⟨p, 0, hc0, ⟨rfl, by
        rintro v e ⟨rfl, _⟩
        exact ⟨Nat.le_refl _, fun _ => .inl rfl, false, [], 0, .start _, by simp, by simp, by simp⟩⟩⟩
    have hq : (k' < INFINITY → k' ≤ qmin d') := by
      rcases BiD.peekKey_spec g2 with ⟨h, _⟩ | ⟨v, κ, g8, g9, _⟩
      · simp only [qmin, h, Option.getD_none]; omega
      · simp only [qmin, g8, Option.getD_some]
        exact fun _ => (g3.g.queue _ _ g9).2.2.2.2.1
    refine ⟨x.node, d', c', a', p', ?_, g2, g3, g4.u0D, hk, ?_⟩
    · simp only [Topo.settleNext, h1, hls, Option.bind_eq_bind, Option.bind_some]
      have g1' : ls.foldlM (Topo.relaxEdge n ⟨true, true⟩ ⟨links, deg⟩ defaultOps (cl prune (opt pi) od M) x.node) ({ d with queue := qq }, c) = some (d', c') := g1
      simp [g1']
    · exact hq

/-- Nothing is pruned: walks shorter than the smallest key are found. -/
theorem GInv.front {a : Abs Unit} {p : Nat → Prop} (harc : ∀ u v w, LArc links u v w → pi u ≤ w + pi v)
    (hi : GInv n links deg s pi I ov BK (fun _ _ => False) a p S K) (hI : ∀ x l, ¬ I x l) {y : Nat} :
    ∀ v m, Walk (LArc links) v y m → ∀ l, a.D v ≤ l → l + m + pi y < INFINITY → (∀ u k, a.Q u = some k → l + m + pi y < k) → a.D y ≤ l + m := by
  intro v m hw
  induction hw with
  | nil v => intro l h _ _; omega
  | @cons v v1 y w m ha hw ih =>
    intro l hl hinf hq
    have hpi := BiA.pot_walk harc (Walk.cons ha hw)
    have hlo : lo s pi v ≤ pi v := by unfold lo; split <;> omega
    have hact : p v := by
      apply Classical.byContradiction
      intro h; exact hI _ _ (hi.inact v h (by omega))
    have hQ : a.Q v = none := by
      cases hq' : a.Q v with
      | none => rfl
      | some k =>
        have h1 := hi.actQ v hact k hq'
        have h2 := hq v k hq'
        omega
    obtain ⟨ls, hls, hmem⟩ := ha
    have := hi.relaxed v hact hQ (.inr (by omega)) ls ⟨v1, w⟩ hls hmem (by simp)
    have := ih (l + w) (by simp only at this; omega) (by omega) (fun u k h => by have := hq u k h; omega)
    omega

theorem GInv.length_le {a : Abs Unit} {p : Nat → Prop} (h : GInv n links deg s pi I ov BK pend a p S K) : S.length ≤ n := by
  have hsub : S ⊆ List.range n := by
    intro x hx; simp; exact (h.sett x hx).1
  simpa using (List.subperm_of_subset h.nodup hsub).length_le

/-- a search before its first step -/
theorem GInv.start (hs : s < n) {Pr : Nat → Nat × Unit} :
    GInv n links deg s pi I ov BK (fun _ _ => False)
      ⟨fupd (fun _ => INFINITY) s 0, fupd (fun _ => none) s (some 0), Pr⟩ (fun x => x = s) [] 0 where
  src := by simp
  actSrc := rfl
  ub := by intro x; simp only; unfold fupd; split <;> simp
  walk := by
    intro x hx
    simp only at hx ⊢
    by_cases h : x = s
    · subst h; simp; exact .nil _
    · rw [fupd_of_ne _ _ h] at hx; simp at hx
  sett := by simp
  nodup := by simp
  queue := by
    intro x k hk
    simp only at hk ⊢
    by_cases h : x = s
    · subst h; simp at hk; subst hk
      refine ⟨hs, by simp, by simp; decide, by simp [lo], Nat.le_refl _, .inl rfl⟩
    · rw [fupd_of_ne _ _ h] at hk; simp at hk
  actD := by rintro x rfl; simp; decide
  actQ := by rintro x rfl k hk; simp at hk; simp [lo, ← hk]
  inact := by
    intro x h hx
    simp only at hx
    rw [fupd_of_ne _ _ h] at hx; simp at hx
  relaxed := by rintro x rfl hq; simp at hq
  ordS := by simp
  kb := by
    intro _ x k hk
    simp only at hk
    by_cases h : x = s
    · subst h; simp at hk; omega
    · rw [fupd_of_ne _ _ h] at hk; simp at hk
  pinv := by
    intro x hx
    simp only at hx
    by_cases h : x = s
    · subst h; exact ⟨_, _, .nil⟩
    · rw [fupd_of_ne _ _ h] at hx; simp at hx

end

/-- What is fixed for one direction: the labels `Ir M qo` are those that are pruned if the tentative distance is `M` and the smallest key of the
opposite search is `qo`. -/
structure OneSide (n : Nat) (links : Nat → Option (List Link)) (deg : Nat → Option SymDeg) (pi po : Nat → Nat) (ov : Prop) (Lm C P : Nat)
    (prune : Nat → Nat → Nat → Nat → Option Bool) (Ir : Nat → Nat → Nat → Nat → Prop) : Prop where
  fix : ∀ M qo L, (ov → L ≤ Lm) → (ov → qo ≤ max INFINITY (Lm + P)) → Fix n links deg pi (Ir M qo) ov L C P (fun x l => prune x l qo M)
  mono : ∀ M M' qo qo' x l, M' ≤ M → qo ≤ qo' → Ir M qo x l → Ir M' qo' x l
  inf : ∀ M qo x l, Ir M qo x l → M < INFINITY
  cut : ∀ M qo x l, Ir M qo x l → M ≤ l + pi x ∨ M ≤ l + (qo - po x)
  arc : ∀ u v w, LArc links u v w → pi u ≤ w + pi v
  arc' : ∀ u v w, LArc links u v w → po v ≤ w + po u

/-- What is fixed during a query. -/
structure Ctx (n : Nat) (fl bl : Nat → Option (List Link)) (deg : Nat → Option SymDeg) (s t : Nat) (pf pb : Nat → Nat) (ov : Prop) (R C P X cap : Nat)
    (prF prB : Nat → Nat → Nat → Nat → Option Bool) (IF IB : Nat → Nat → Nat → Nat → Prop) : Prop where
  set : BiD.Setting n fl bl
  fw : OneSide n fl deg pf pb ov (X + C) C P prF IF
  bw : OneSide n bl deg pb pf ov (X + C) C P prB IB
  target : pf t = 0
  source : pb s = 0
  capX : ov → cap < INFINITY → cap ≤ X
  twice : ov → 2 * (R + P + C) ≤ X
  small : ov → R + P < INFINITY
  distF : ov → ∀ u d, IsDist (LArc fl) s u d → d < INFINITY → d ≤ R
  distB : ov → ∀ u d, IsDist (LArc bl) t u d → d < INFINITY → d ≤ R

theorem Ctx.symm {n : Nat} {fl bl : Nat → Option (List Link)} {deg : Nat → Option SymDeg} {s t : Nat} {pf pb : Nat → Nat} {ov : Prop} {R C P X cap : Nat}
    {prF prB : Nat → Nat → Nat → Nat → Option Bool} {IF IB : Nat → Nat → Nat → Nat → Prop}
    (h : Ctx n fl bl deg s t pf pb ov R C P X cap prF prB IF IB) : Ctx n bl fl deg t s pb pf ov R C P X cap prB prF IB IF :=
  ⟨h.set.symm, h.bw, h.fw, h.source, h.target, h.capX, h.twice, h.small, h.distB, h.distF⟩

/-- The invariant of the loop. -/
structure Inv (n : Nat) (fl bl : Nat → Option (List Link)) (deg : Nat → Option SymDeg) (s t : Nat) (pf pb : Nat → Nat) (ov : Prop) (BK Z cap : Nat)
    (IF IB : Nat → Nat → Nat → Nat → Prop)
    (fd bd : DData Unit) (c : Nat × Nat) (a b : Abs Unit) (p q : Nat → Prop) (SF SB : List Nat) (KF KB : Nat) : Prop where
  rf : Refines n fd a
  rb : Refines n bd b
  sf : GInv n fl deg s pf (IF (min c.1 cap) (qmin bd)) ov BK (fun _ _ => False) a p SF KF
  sb : GInv n bl deg t pb (IB (min c.1 cap) (qmin fd)) ov BK (fun _ _ => False) b q SB KB
  j : Joint n deg (LArc fl) s t c a p b.D q
  jb : Joint n deg (LArc bl) t s c b q a.D p
  mid : ∀ d, IsDist (LArc fl) s t d → d < INFINITY → d < cap → c.1 ≤ d ∨ a.D t ≤ d ∨ b.D s ≤ d ∨ BiA.Mid (LArc fl) s t a p b q d
  phase : ov → cap < INFINITY ∨ c.1 ≤ 2 * Z ∨
    (c.1 = INFINITY ∧ (∀ x, a.D x < INFINITY → a.D x ≤ Z) ∧ (∀ x, b.D x < INFINITY → b.D x ≤ Z))

section
variable {n : Nat} {fl bl : Nat → Option (List Link)} {deg : Nat → Option SymDeg} {s t : Nat} {pf pb : Nat → Nat} {ov : Prop} {R C P X cap : Nat}
  {prF prB : Nat → Nat → Nat → Nat → Option Bool} {IF IB : Nat → Nat → Nat → Nat → Prop}
  {fd bd : DData Unit} {c : Nat × Nat} {a b : Abs Unit} {p q : Nat → Prop} {SF SB : List Nat} {KF KB : Nat}

theorem Inv.symm {BK Z : Nat} (hs : BiD.Setting n fl bl) (h : Inv n fl bl deg s t pf pb ov BK Z cap IF IB fd bd c a b p q SF SB KF KB) :
    Inv n bl fl deg t s pb pf ov BK Z cap IB IF bd fd c b a q p SB SF KB KF where
  rf := h.rb
  rb := h.rf
  sf := h.sb
  sb := h.sf
  j := h.jb
  jb := h.j
  mid := fun d hd h1 h2 => by
    rcases h.mid d ((BiA.isDist_rev hs).1 hd) h1 h2 with g | g | g | g
    · exact .inl g
    · exact .inr (.inr (.inl g))
    · exact .inr (.inl g)
    · exact .inr (.inr (.inr (BiA.Mid.symm hs g)))
  phase := fun ho => (h.phase ho).imp id (fun h => h.imp id (fun h => ⟨h.1, h.2.2, h.2.1⟩))

/-- The smallest key is at most the distance. -/
theorem mid_key {BK Z : Nat} (hc : Ctx n fl bl deg s t pf pb ov R C P X cap prF prB IF IB)
    (hi : Inv n fl bl deg s t pf pb ov BK Z cap IF IB fd bd c a b p q SF SB KF KB) {d : Nat}
    (hm : BiA.Mid (LArc fl) s t a p b q d) : ∃ k, fd.peekKey = some k ∧ k ≤ d := by
  obtain ⟨x, y, α, β, γ, h1, h2, h3, h4, h5, h6, h7, h8, h9, h10⟩ := hm
  have hpx := BiA.pot_walk hc.fw.arc (h2.append h3)
  rw [hc.target] at hpx
  have hlo : lo s pf x ≤ pf x := by unfold lo; split <;> omega
  cases hq : a.Q x with
  | none => exact absurd hq h7
  | some k =>
    have := hi.sf.actQ x h6 k hq
    rcases BiD.peekKey_spec hi.rf with ⟨_, h⟩ | ⟨v, k', g1, _, g3⟩
    · exact absurd (h x) h7
    · exact ⟨k', g1, by have := g3 _ _ hq; omega⟩

/-- Bounds of the next key. -/
theorem key_bound {BK : Nat} (hc : Ctx n fl bl deg s t pf pb ov R C P X cap prF prB IF IB)
    (hi : Inv n fl bl deg s t pf pb ov BK (R + P + C) cap IF IB fd bd c a b p q SF SB KF KB) {k : Nat} (hk : fd.peekKey = some k)
    (hkM : k < min c.1 cap) (ho : ov) : (k ≤ X ∧ (cap < INFINITY ∨ c.1 ≤ 2 * (R + P + C))) ∨
      (k ≤ R + P ∧ c.1 = INFINITY ∧ (∀ x, a.D x < INFINITY → a.D x ≤ R + P + C) ∧ (∀ x, b.D x < INFINITY → b.D x ≤ R + P + C)) := by
  have h0 := hc.twice ho
  have hub := hi.j.ub
  by_cases hcap : cap < INFINITY
  · left; exact ⟨by have := hc.capX ho hcap; omega, .inl hcap⟩
  · rcases hi.phase ho with h | h | h
    · exact absurd h hcap
    · left; exact ⟨by omega, .inr h⟩
    · right
      refine ⟨?_, h⟩
      obtain ⟨u, hu, hmin⟩ : ∃ v, a.Q v = some k ∧ ∀ u k', a.Q u = some k' → k ≤ k' := by
        rcases BiD.peekKey_spec hi.rf with ⟨h, _⟩ | ⟨v, k', h1, h2, h3⟩
        · rw [h] at hk; simp at hk
        · rw [h1] at hk; simp at hk; subst hk; exact ⟨v, h2, h3⟩
      have hnI : ∀ x l, ¬ IF (min c.1 cap) (qmin bd) x l := fun x l hI => by have := hc.fw.inf _ _ _ _ hI; omega
      obtain ⟨_, _, huD, _, _, hus⟩ := hi.sf.queue u k hu
      have hact : p u := by
        apply Classical.byContradiction
        intro h; exact hnI _ _ (hi.sf.inact u h huD)
      have hkey := hi.sf.actQ u hact k hu
      rcases hus with rfl | ⟨_, hpu⟩
      · have := hi.sf.src; simp only [lo, if_true] at hkey; omega
      · have hlo : lo s pf u ≤ pf u := by unfold lo; split <;> omega
        have hpP := (hc.fw.fix 0 0 0 (by omega) (by omega)).piP ho u hpu
        obtain ⟨d, hd1, hd2⟩ := exists_isDist (hi.sf.walk u huD)
        have hR := hc.distF ho u d hd2 (by omega)
        have hsm := hc.small ho
        apply Classical.byContradiction
        intro hn
        have := hi.sf.front hc.fw.arc hnI s d hd2.1 0 (Nat.le_of_eq hi.sf.src) (by omega) (fun v k' h => by have := hmin v k' h; omega)
        omega

/-- A step of the forward search. -/
theorem step (hc : Ctx n fl bl deg s t pf pb ov R C P X cap prF prB IF IB)
    (hi : Inv n fl bl deg s t pf pb ov (X + C + P) (R + P + C) cap IF IB fd bd c a b p q SF SB KF KB) {k : Nat} (hk : fd.peekKey = some k)
    (hkI : k < INFINITY)
    (hkb : ov → (k ≤ X ∧ (cap < INFINITY ∨ c.1 ≤ 2 * (R + P + C))) ∨
      (k ≤ R + P ∧ c.1 = INFINITY ∧ (∀ x, a.D x < INFINITY → a.D x ≤ R + P + C) ∧ (∀ x, b.D x < INFINITY → b.D x ≤ R + P + C))) :
    ∃ u fd' c' a' p', Topo.settleNext n ⟨true, true⟩ ⟨fl, deg⟩ defaultOps (cl prF (opt pf) bd (min c.1 cap)) fd c = some (some u, fd', c') ∧
      Inv n fl bl deg s t pf pb ov (X + C + P) (R + P + C) cap IF IB fd' bd c' a' b p' q (u :: SF) SB k KB ∧
      a.Q u = some k ∧ a'.D u = a.D u := by
  obtain ⟨L, hL1, hL2, hL3⟩ : ∃ L, (ov → k + C ≤ L) ∧ (ov → L ≤ X + C) ∧ (ov → cap < INFINITY ∨ c.1 ≤ 2 * (R + P + C) ∨
      (L = R + P + C ∧ c.1 = INFINITY ∧ (∀ x, a.D x < INFINITY → a.D x ≤ R + P + C) ∧ (∀ x, b.D x < INFINITY → b.D x ≤ R + P + C))) := by
    by_cases ho : ov
    · have := hc.twice ho
      rcases hkb ho with ⟨h1, h2⟩ | ⟨h1, h2⟩
      · exact ⟨X + C, fun _ => by omega, fun _ => Nat.le_refl _, fun _ => by rcases h2 with h | h; exact .inl h; exact .inr (.inl h)⟩
      · exact ⟨R + P + C, fun _ => by omega, fun _ => by omega, fun _ => .inr (.inr ⟨rfl, h2⟩)⟩
    · exact ⟨0, fun h => absurd h ho, fun h => absurd h ho, fun h => absurd h ho⟩
  have hqb : ov → qmin bd ≤ max INFINITY (X + C + P) := by
    intro hr
    rcases BiD.peekKey_spec hi.rb with ⟨h, _⟩ | ⟨v, k', g1, g2, _⟩
    · simp only [qmin, h, Option.getD_none]; omega
    · simp only [qmin, g1, Option.getD_some]
      have := hi.sb.kb hr v k' g2; omega
  have hwalk : ∀ x l, Walk (LArc fl) s x l → b.D x < INFINITY → Walk (LArc fl) s t (l + b.D x) :=
    fun x l h1 h2 => h1.append (hc.set.walk (hi.sb.walk x h2))
  obtain ⟨u, fd', c', a', p', h1, h2, hcore, h5, h8, h9⟩ := settle_spec (hc.fw.fix _ _ L hL2 hqb) hi.rb hi.sb.ub hwalk hi.rf hi.sf hi.j hk hL1
    (fun ho => by have := hL2 ho; omega)
  have hq' : qmin fd ≤ qmin fd' := by simp only [qmin, hk, Option.getD_some]; exact h9 hkI
  have hcle := hcore.cle
  have h3 : GInv n fl deg s pf (IF (min c'.1 cap) (qmin bd)) ov (X + C + P) (fun _ _ => False) a' p' (u :: SF) k :=
    { hcore.g with inact := fun x hx hD => hc.fw.mono _ _ _ _ _ _ (by omega) (Nat.le_refl _) (hcore.g.inact x hx hD) }
  have h4 := hcore.ext
  have h6 := hcore.j
  refine ⟨u, fd', c', a', p', h1, ⟨h2, hi.rb, h3, ?_, h6, ?_, ?_, ?_⟩, h8, h5⟩
  · exact { hi.sb with inact := fun x hx hD => hc.bw.mono _ _ _ _ _ _ (by omega) hq' (hi.sb.inact x hx hD) }
  · refine ⟨h6.ub, fun x hx1 hx2 hx3 hx4 hx5 => by rw [Nat.add_comm]; exact h6.le x hx2 hx1 hx3 hx5 hx4, fun h => hc.set.symm.walk (h6.walk h),
      fun h => ⟨(h6.meet h).1, by rw [Nat.add_comm]; exact (h6.meet h).2⟩, ?_⟩
    intro hst κ hκ
    have := hi.jb.tq hst κ hκ
    have := hi.sf.src
    have := h3.src
    omega
  · intro d hd hdI hdc
    rcases hi.mid d hd hdI hdc with h | h | h | hm
    · left; omega
    · right; left
      have := (h4 t).1
      simp only at this; omega
    · exact .inr (.inr (.inl h))
    · obtain ⟨x, y, α, β, γ, g1, g2, g3, g4, g5, g6, g7, g8, g9, g10⟩ := hm
      have hexact : ∀ z l m, Walk (LArc fl) z t m → l + m = d → a'.D z ≤ l → a'.D z = l := by
        intro z l m hz hlm hle
        have := hd.2 _ ((h3.walk z (by omega)).append hz)
        omega
      have hpft : ∀ z l m, Walk (LArc fl) z t m → l + m = d → pf z ≤ m := by
        intro z l m hz _
        have := BiA.pot_walk hc.fw.arc hz
        rw [hc.target] at this; omega
      have hQy : ∃ κ, b.Q y = some κ ∧ κ = b.D y + lo t pb y := by
        cases hq : b.Q y with
        | none => exact absurd hq g10
        | some κ => exact ⟨κ, rfl, hi.sb.actQ y g9 κ hq⟩
      obtain ⟨κ, hκ, hκe⟩ := hQy
      have hqy := BiA.qmin_spec hi.rb hκ
      have hloy : lo t pb y ≤ pb y := by unfold lo; split <;> omega
      have hylow : y = t ∨ ¬ Low deg y := (hi.sb.queue y κ hκ).2.2.2.2.2.imp id (fun h => h.1)
      by_cases hxu : x = u
      · subst hxu
        have hp' : p' x := ((h4 x).2 h5).2.2 g6
        have hQx : a'.Q x = none := (h3.sett x (by simp)).2.2
        have hyy : ∀ z m, Walk (LArc fl) z y m → z = y ∨ pb y ≤ m + pb z := by
          intro z m hz
          exact .inr (BiA.pot_walk' hc.fw.arc' hz)
        -- follow the walk
        have key : ∀ v m y', Walk (LArc fl) v y' m → y' = y → ∀ l, l + m + γ = d → Walk (LArc fl) s v l → a'.D v = l → a'.Q v = none → p' v →
            c'.1 ≤ d ∨ a'.D t ≤ d ∨ b.D s ≤ d ∨ BiA.Mid (LArc fl) s t a' p' b q d := by
          intro v m y' hv
          induction hv with
          | nil v =>
            rintro rfl l hl hwl hD hQ hpv
            by_cases hvt : v = t
            · right; left; rw [← hvt]; omega
            · by_cases hvs : v = s
              · right; right; left; rw [← hvs]; omega
              · left
                have := h6.le v hpv g9 (hylow.resolve_left hvt) hvs hvt
                omega
          | @cons v v1 y' w m ha hv ih =>
            rintro rfl l hl hwl hD hQ hpv
            have hpv2 := hpft v l (w + m + γ) ((Walk.cons ha hv).append g3) (by omega)
            obtain ⟨ls, hls, hmem⟩ := ha
            have hle : a'.D v1 ≤ l + w := by
              rw [← hD]; exact h3.relaxed v hpv hQ (.inr (by omega)) ls ⟨v1, w⟩ hls hmem (by simp)
            have hD1 := hexact v1 (l + w) (m + γ) (hv.append g3) (by omega) hle
            have hw1 : Walk (LArc fl) s v1 (l + w) := hwl.snoc ⟨ls, hls, hmem⟩
            have hpf := hpft v1 (l + w) (m + γ) (hv.append g3) (by omega)
            by_cases hp1 : p' v1
            · cases hq1 : a'.Q v1 with
              | none => exact ih rfl (l + w) (by omega) hw1 hD1 hq1 hp1
              | some κ1 =>
                right; right; right
                exact ⟨v1, y', l + w, m, γ, hw1, hv, g3, by omega, hD1, hp1, by rw [hq1]; simp, g8, g9, g10⟩
            · left
              rcases hc.fw.cut _ _ _ _ (h3.inact v1 hp1 (by omega)) with i2 | i2
              · omega
              · have hyb := BiA.pot_walk' hc.fw.arc' hv
                omega
        exact key x β y g2 rfl α (by omega) g1 (h5.trans g5) hQx hp'
      · right; right; right
        have e1 := (h4 x).1
        have e2 := hexact x α (β + γ) (g2.append g3) (by omega) (by simp only at e1; omega)
        obtain ⟨e3, e4⟩ := (h4 x).2 (by simp only; omega)
        refine ⟨x, y, α, β, γ, g1, g2, g3, g4, e2, e4.2 g6, ?_, g8, g9, g10⟩
        rw [e3]; simp only; rw [fupd_of_ne _ _ hxu]; exact g7
  · intro ho
    rcases hL3 ho with h | h | ⟨rfl, h7, h10, h11⟩
    · exact .inl h
    · exact .inr (.inl (by omega))
    · right
      rcases hcore.cup ho with h | ⟨x, e1, e2⟩
      · right
        refine ⟨by omega, ?_, h11⟩
        intro x hx
        rcases hcore.lab ho x with h | h
        · simp only at h; rw [h] at hx ⊢; exact h10 x hx
        · exact h
      · left
        have := h11 x e1
        omega

/-- The path over a meeting node. -/
theorem path_spec (hs : BiD.Setting n fl bl) (hsn : s < n) (htn : t < n)
    (rf : Refines n fd a) (rb : Refines n bd b) (sf : BiA.PInv n fl s a.D a.P) (sb : BiA.PInv n bl t b.D b.P)
    {m x : Nat} (hD : a.D m < INFINITY) (hE : b.D m < INFINITY) (hx : a.D m + b.D m ≤ x) (r : Option Nat) :
    ∃ ns y, BiD.nodePath ⟨r, fd, bd, m⟩ s t = some ns ∧ ns.head? = some s ∧ ns.getLast? = some t ∧ PathOf (LArc fl) ns y ∧ y ≤ x := by
  obtain ⟨ns, l, hc⟩ := sf m hD
  obtain ⟨ms, l', hc'⟩ := sb m hE
  have h1 := hc.loop (d := fd) rf.pred (fd.pred.length + 2) [m] (by rw [rf.plen]; have := hc.length_le hsn; omega)
  have h2 := hc'.loop (d := bd) rb.pred (bd.pred.length + 2) (ns ++ [m]) (by rw [rb.plen]; have := hc'.length_le htn; omega)
  obtain ⟨g1, g2⟩ := hc.pathOf
  obtain ⟨e1, e2⟩ := hc'.pathOf
  refine ⟨ns ++ m :: ms.reverse, l + l', ?_, ?_, ?_, ?_, ?_⟩
  · simp [BiD.nodePath, h1, h2]
  · cases ns <;> simpa using g1
  · cases ms with
    | nil => simpa using e1
    | cons m ms => simp at e1; simp [e1, List.getLast?_cons]
  · refine BiD.pathOf_append g2 ?_
    have := BiD.pathOf_reverse (B := LArc fl) (fun u v w ha => (hs.rev v u w).1 ha) e2
    simpa using this
  · have := hc.le.1
    have := hc'.le.1
    omega

/-- The end of the search. -/
theorem finish_spec {BK Z : Nat} (hs : BiD.Setting n fl bl) (hsn : s < n) (htn : t < n)
    (hi : Inv n fl bl deg s t pf pb ov BK Z cap IF IB fd bd c a b p q SF SB KF KB)
    (hcov : ∀ d, IsDist (LArc fl) s t d → d < INFINITY → d < cap → c.1 ≤ d ∨ a.D t ≤ d ∨ b.D s ≤ d) :
    ∃ r, finish s t fd bd c = some r ∧ BiA.Fin n fl s t cap r := by
  have h1 := hi.rf.get htn
  have h2 := hi.rb.get hsn
  have hub := hi.j.ub
  have hat := hi.sf.ub t
  have hbs := hi.sb.ub s
  have ha0 := hi.sf.src
  have hb0 := hi.sb.src
  -- a value with a meeting node
  have hfin : ∀ (x : Nat × Nat), x.1 ≤ INFINITY → (x.1 < INFINITY → Walk (LArc fl) s t x.1 ∧ a.D x.2 + b.D x.2 ≤ x.1) →
      (∀ d, IsDist (LArc fl) s t d → d < INFINITY → d < cap → x.1 ≤ d) →
      BiA.Fin n fl s t cap ⟨if x.1 = INFINITY then none else some x.1, fd, bd, x.2⟩ := by
    intro x hx1 hx2 hx3
    refine ⟨⟨a, hi.rf⟩, ⟨b, hi.rb⟩, ⟨?_, ?_⟩, ?_⟩
    · intro d hd
      by_cases h : x.1 = INFINITY
      · simp [h] at hd
      · simp [h] at hd; subst hd
        exact ⟨(hx2 (by omega)).1, by omega⟩
    · intro d hd h3 h4
      have h5 := hx3 d hd h3 h4
      have h6 : x.1 ≠ INFINITY := by omega
      have := hd.2 _ (hx2 (by omega)).1
      simp [h6]; omega
    · intro y hy
      by_cases h : x.1 = INFINITY
      · simp [h] at hy
      · simp [h] at hy; subst hy
        have := (hx2 (by omega)).2
        exact path_spec hs hsn htn hi.rf hi.rb hi.sf.pinv hi.sb.pinv (by omega) (by omega) this _
  have hw0 : c.1 < INFINITY → Walk (LArc fl) s t c.1 ∧ a.D c.2 + b.D c.2 ≤ c.1 := fun h => ⟨hi.j.walk h, (hi.j.meet h).2⟩
  have hwt : a.D t < INFINITY → Walk (LArc fl) s t (a.D t) ∧ a.D t + b.D t ≤ a.D t := fun h => ⟨hi.sf.walk t h, by omega⟩
  have hws : b.D s < INFINITY → Walk (LArc fl) s t (b.D s) ∧ a.D s + b.D s ≤ b.D s := fun h => ⟨hs.walk (hi.sb.walk s h), by omega⟩
  by_cases hx : a.D t < c.1
  · by_cases hy : b.D s < a.D t
    · refine ⟨⟨if b.D s = INFINITY then none else some (b.D s), fd, bd, s⟩, by simp [finish, h1, h2, hx, hy], hfin (b.D s, s) hbs hws ?_⟩
      intro d hd h3 h4; simp only; rcases hcov d hd h3 h4 with h | h | h <;> omega
    · refine ⟨⟨if a.D t = INFINITY then none else some (a.D t), fd, bd, t⟩, by simp [finish, h1, h2, hx, hy], hfin (a.D t, t) hat hwt ?_⟩
      intro d hd h3 h4; simp only; rcases hcov d hd h3 h4 with h | h | h <;> omega
  · by_cases hy : b.D s < c.1
    · refine ⟨⟨if b.D s = INFINITY then none else some (b.D s), fd, bd, s⟩, by simp [finish, h1, h2, hx, hy], hfin (b.D s, s) hbs hws ?_⟩
      intro d hd h3 h4; simp only; rcases hcov d hd h3 h4 with h | h | h <;> omega
    · refine ⟨⟨if c.1 = INFINITY then none else some c.1, fd, bd, c.2⟩, by simp [finish, h1, h2, hx, hy], hfin c hub hw0 ?_⟩
      intro d hd h3 h4; rcases hcov d hd h3 h4 with h | h | h <;> omega

/-- The target was popped. -/
theorem popped_spec {BK Z : Nat} (hs : BiD.Setting n fl bl) (hsn : s < n) (htn : t < n)
    (hi : Inv n fl bl deg s t pf pb ov BK Z cap IF IB fd bd c a b p q SF SB KF KB) (hD : a.D t < INFINITY)
    (hmin : ∀ d, Walk (LArc fl) s t d → a.D t ≤ d) :
    fd.dist.get t = some (a.D t) ∧ BiA.Fin n fl s t cap ⟨some (a.D t), fd, bd, t⟩ := by
  refine ⟨hi.rf.get htn, ⟨a, hi.rf⟩, ⟨b, hi.rb⟩, BiD.early_answer hD (hi.sf.walk t hD) hmin, ?_⟩
  intro x hx
  simp at hx; subst hx
  have h0 := hi.sb.src
  exact path_spec hs hsn htn hi.rf hi.rb hi.sf.pinv hi.sb.pinv hD (by rw [h0]; decide) (by omega) _

theorem fin_rev (hs : BiD.Setting n fl bl) {x : Nat} {d1 d2 : DData Unit} {m : Nat}
    (rf : ∃ a, Refines n d1 a) (rb : ∃ a, Refines n d2 a) (ans : CapAnswer (LArc bl) t s cap (some x))
    (path : ∃ ns y, BiD.nodePath ⟨some x, d1, d2, m⟩ s t = some ns ∧ ns.head? = some s ∧ ns.getLast? = some t ∧ PathOf (LArc fl) ns y ∧ y ≤ x) :
    BiA.Fin n fl s t cap ⟨some x, d1, d2, m⟩ := by
  refine ⟨rf, rb, ⟨?_, ?_⟩, ?_⟩
  · intro d hd
    obtain ⟨g1, g2⟩ := ans.1 d hd
    exact ⟨hs.walk g1, g2⟩
  · intro d hd; exact ans.2 d ((BiA.isDist_rev hs).2 hd)
  · intro y hy; simp at hy; subst hy; exact path

/-- The source was popped by the backward search. -/
theorem popped_back {BK Z : Nat} (hs : BiD.Setting n fl bl) (hsn : s < n) (htn : t < n)
    (hi : Inv n fl bl deg s t pf pb ov BK Z cap IF IB fd bd c a b p q SF SB KF KB) (hD : b.D s < INFINITY)
    (hmin : ∀ d, Walk (LArc bl) t s d → b.D s ≤ d) :
    bd.dist.get s = some (b.D s) ∧ BiA.Fin n fl s t cap ⟨some (b.D s), fd, bd, s⟩ := by
  obtain ⟨h1, h2⟩ := popped_spec hs.symm htn hsn (hi.symm hs) hD hmin
  refine ⟨h1, fin_rev hs ⟨a, hi.rf⟩ ⟨b, hi.rb⟩ h2.ans ?_⟩
  have h0 := hi.sf.src
  exact path_spec hs hsn htn hi.rf hi.rb hi.sf.pinv hi.sb.pinv (by rw [h0]; decide) hD (by omega) _

/-- A forward step of a search in which a popped target is at its distance. -/
theorem stepF (hc : Ctx n fl bl deg s t pf pb ov R C P X cap prF prB IF IB) (hsn : s < n) (htn : t < n)
    (hi : Inv n fl bl deg s t pf pb ov (X + C + P) (R + P + C) cap IF IB fd bd c a b p q SF SB KF KB) {k : Nat} (hk : fd.peekKey = some k)
    (hkI : k < INFINITY)
    (hkb : ov → (k ≤ X ∧ (cap < INFINITY ∨ c.1 ≤ 2 * (R + P + C))) ∨
      (k ≤ R + P ∧ c.1 = INFINITY ∧ (∀ x, a.D x < INFINITY → a.D x ≤ R + P + C) ∧ (∀ x, b.D x < INFINITY → b.D x ≤ R + P + C)))
    (hpop : a.Q t = some k → ∀ d, Walk (LArc fl) s t d → a.D t ≤ d) :
    ∃ u fd' c', Topo.settleNext n ⟨true, true⟩ ⟨fl, deg⟩ defaultOps (cl prF (opt pf) bd (min c.1 cap)) fd c = some (some u, fd', c') ∧
      ((u = t ∧ ∃ x, fd'.dist.get t = some x ∧ BiA.Fin n fl s t cap ⟨some x, fd', bd, t⟩) ∨
       (u ≠ t ∧ ∃ a' p', Inv n fl bl deg s t pf pb ov (X + C + P) (R + P + C) cap IF IB fd' bd c' a' b p' q (u :: SF) SB k KB)) := by
  obtain ⟨u, fd', c', a', p', h1, h2, h3, h4⟩ := step hc hi hk hkI hkb
  refine ⟨u, fd', c', h1, ?_⟩
  by_cases hu : u = t
  · left
    subst hu
    refine ⟨rfl, _, popped_spec hc.set hsn htn h2 (h2.sf.sett u (by simp)).2.1 ?_⟩
    rw [h4]; exact hpop h3
  · exact .inr ⟨hu, a', p', h2⟩

/-- A backward step. -/
theorem stepB (hc : Ctx n fl bl deg s t pf pb ov R C P X cap prF prB IF IB) (hsn : s < n) (htn : t < n)
    (hi : Inv n fl bl deg s t pf pb ov (X + C + P) (R + P + C) cap IF IB fd bd c a b p q SF SB KF KB) {k : Nat} (hk : bd.peekKey = some k)
    (hkI : k < INFINITY)
    (hkb : ov → (k ≤ X ∧ (cap < INFINITY ∨ c.1 ≤ 2 * (R + P + C))) ∨
      (k ≤ R + P ∧ c.1 = INFINITY ∧ (∀ x, b.D x < INFINITY → b.D x ≤ R + P + C) ∧ (∀ x, a.D x < INFINITY → a.D x ≤ R + P + C)))
    (hpop : b.Q s = some k → ∀ d, Walk (LArc bl) t s d → b.D s ≤ d) :
    ∃ u bd' c', Topo.settleNext n ⟨true, true⟩ ⟨bl, deg⟩ defaultOps (cl prB (opt pb) fd (min c.1 cap)) bd c = some (some u, bd', c') ∧
      ((u = s ∧ ∃ x, bd'.dist.get s = some x ∧ BiA.Fin n fl s t cap ⟨some x, fd, bd', s⟩) ∨
       (u ≠ s ∧ ∃ b' q', Inv n fl bl deg s t pf pb ov (X + C + P) (R + P + C) cap IF IB fd bd' c' a b' p q' SF (u :: SB) KF k)) := by
  obtain ⟨u, bd', c', b', q', h1, h2, h3, h4⟩ := step hc.symm (hi.symm hc.set) hk hkI hkb
  have h2' := h2.symm hc.set.symm
  refine ⟨u, bd', c', h1, ?_⟩
  by_cases hu : u = s
  · left
    subst hu
    refine ⟨rfl, _, popped_back hc.set hsn htn h2' (h2'.sb.sett u (by simp)).2.1 ?_⟩
    rw [h4]; exact hpop h3
  · exact .inr ⟨hu, b', q', h2'⟩

/-- The loop with symmetric potentials. -/
theorem loop_sym {imp : Bool}
    (hc : Ctx n fl bl deg s t pf pb ov R C P X cap (pruneInternal imp (opt pf) (opt pb)) (pruneInternal imp (opt pb) (opt pf)) IF IB)
    (hsn : s < n) (htn : t < n) :
    ∀ (fuel : Nat) (fd bd : DData Unit) (c : Nat × Nat) (a b : Abs Unit) (p q : Nat → Prop) (SF SB : List Nat) (KF KB : Nat),
      2 * n + 1 ≤ fuel + SF.length + SB.length →
      Inv n fl bl deg s t pf pb ov (X + C + P) (R + P + C) cap IF IB fd bd c a b p q SF SB KF KB →
    ∃ r, loop (symmetricBi imp (opt pf) (opt pb)) minKeyDir n ⟨fl, deg⟩ ⟨bl, deg⟩ s t cap fuel () fd bd c = some r ∧ BiA.Fin n fl s t cap r := by
  intro fuel
  induction fuel with
  | zero =>
    intro fd bd c a b p q SF SB KF KB hf hi
    have := hi.sf.length_le
    have := hi.sb.length_le
    omega
  | succ fuel ih =>
    intro fd bd c a b p q SF SB KF KB hf hi
    have hub := hi.j.ub
    have hmidf := fun d hm => mid_key (d := d) hc hi hm
    have hmidb := fun d hm => mid_key (d := d) hc.symm (hi.symm hc.set) (BiA.Mid.symm hc.set hm)
    -- stopping
    have hfin : ∀ (st : Bool), BiD.stopCheck (symmetricBi imp (opt pf) (opt pb)) minKeyDir () fd bd (min c.1 cap) = some st →
        (st = true → ∀ d, IsDist (LArc fl) s t d → d < INFINITY → d < cap → BiA.Mid (LArc fl) s t a p b q d → c.1 ≤ d) →
        (st = false → (∃ k, fd.peekKey = some k ∧ k < min c.1 cap ∧ (minKeyDir.choose () fd.peekKey bd.peekKey).1 = true) ∨
          (∃ k, bd.peekKey = some k ∧ k < min c.1 cap ∧ (minKeyDir.choose () fd.peekKey bd.peekKey).1 = false)) →
        ∃ r, loop (symmetricBi imp (opt pf) (opt pb)) minKeyDir n ⟨fl, deg⟩ ⟨bl, deg⟩ s t cap (fuel + 1) () fd bd c = some r ∧ BiA.Fin n fl s t cap r := by
      intro st hst h1 h2
      cases st with
      | true =>
        obtain ⟨r, g1, g2⟩ := finish_spec hc.set hsn htn hi (by
          intro d hd h3 h4
          rcases hi.mid d hd h3 h4 with g | g | g | g
          · exact .inl g
          · exact .inr (.inl g)
          · exact .inr (.inr g)
          · exact .inl (h1 rfl d hd h3 h4 g))
        exact ⟨r, by simp [loop, hst, g1], g2⟩
      | false =>
        rcases h2 rfl with ⟨k, g1, g2, g3⟩ | ⟨k, g1, g2, g3⟩
        · obtain ⟨u, fd', c', e1, e2⟩ := stepF hc hsn htn hi g1 (by omega) (key_bound hc hi g1 g2) (by
            intro hq d hd
            by_cases hts : t = s
            · rw [hts, hi.sf.src]; omega
            · have := hi.j.tq hts k hq
              have := hi.sb.src
              omega)
          have e1' : Topo.settleNext n ⟨true, true⟩ ⟨fl, deg⟩ defaultOps (cl (symmetricBi imp (opt pf) (opt pb)).pruneF
              (symmetricBi imp (opt pf) (opt pb)).fw bd (min c.1 cap)) fd c = some (some u, fd', c') := e1
          rcases e2 with ⟨rfl, x, e2, e3⟩ | ⟨hu, a', p', e2⟩
          · refine ⟨_, ?_, e3⟩
            simp [loop, hst, g3, e1', e2]
          · obtain ⟨r, e4, e5⟩ := ih fd' bd c' a' b p' q (u :: SF) SB k KB (by simp; omega) e2
            refine ⟨r, ?_, e5⟩
            simp [loop, hst, g3, e1', hu, e4]
        · obtain ⟨u, bd', c', e1, e2⟩ := stepB hc hsn htn hi g1 (by omega) (key_bound hc.symm (hi.symm hc.set) g1 g2) (by
            intro hq d hd
            by_cases hts : s = t
            · have := hi.sb.src
              rw [hts]; omega
            · have := hi.jb.tq hts k hq
              have := hi.sf.src
              omega)
          have e1' : Topo.settleNext n ⟨true, true⟩ ⟨bl, deg⟩ defaultOps (cl (symmetricBi imp (opt pf) (opt pb)).pruneB
              (symmetricBi imp (opt pf) (opt pb)).bw fd (min c.1 cap)) bd c = some (some u, bd', c') := e1
          rcases e2 with ⟨rfl, x, e2, e3⟩ | ⟨hu, b', q', e2⟩
          · refine ⟨_, ?_, e3⟩
            simp [loop, hst, g3, e1', e2]
          · obtain ⟨r, e4, e5⟩ := ih fd bd' c' a b' p q' SF (u :: SB) KF k (by simp; omega) e2
            refine ⟨r, ?_, e5⟩
            simp [loop, hst, g3, e1', hu, e4]
    cases hf0 : fd.peekKey with
    | none =>
      cases hb0 : bd.peekKey with
      | none =>
        refine hfin true (by simp [BiD.stopCheck, minKeyDir, symmetricBi, hf0, hb0]) ?_ (by simp)
        intro _ d hd h1 h2 h
        obtain ⟨k, g1, _⟩ := hmidf d h; rw [hf0] at g1; simp at g1
      | some kb =>
        refine hfin (decide (kb ≥ min c.1 cap) || decide (min c.1 cap = INFINITY))
          (by simp [BiD.stopCheck, minKeyDir, symmetricBi, hf0, hb0]) ?_ ?_
        · intro _ d hd h1 h2 h
          obtain ⟨k, g1, _⟩ := hmidf d h; rw [hf0] at g1; simp at g1
        · intro h
          simp at h
          right
          exact ⟨kb, hb0, by omega, by simp [minKeyDir, hf0, hb0]⟩
    | some kf =>
      cases hb0 : bd.peekKey with
      | none =>
        refine hfin (decide (kf ≥ min c.1 cap) || decide (min c.1 cap = INFINITY))
          (by simp [BiD.stopCheck, minKeyDir, symmetricBi, hf0, hb0]) ?_ ?_
        · intro _ d hd h1 h2 h
          obtain ⟨k, g1, _⟩ := hmidb d h; rw [hb0] at g1; simp at g1
        · intro h
          simp at h
          left
          exact ⟨kf, hf0, by omega, by simp [minKeyDir, hf0, hb0]⟩
      | some kb =>
        refine hfin (decide (kf ≥ min c.1 cap) && decide (kb ≥ min c.1 cap))
          (by simp [BiD.stopCheck, minKeyDir, symmetricBi, hf0, hb0]) ?_ ?_
        · intro hst d hd h1 h2 h
          obtain ⟨k, g1, g2⟩ := hmidb d h
          rw [hb0] at g1; simp only [Option.some.injEq] at g1
          simp at hst
          omega
        · intro hst
          by_cases hle : kf ≤ kb
          · left
            refine ⟨kf, hf0, ?_, by simp [minKeyDir, hf0, hb0, hle]⟩
            apply Classical.byContradiction
            intro h
            simp at hst; omega
          · right
            refine ⟨kb, hb0, ?_, by simp [minKeyDir, hf0, hb0]; omega⟩
            apply Classical.byContradiction
            intro h
            simp at hst; omega

/-- the context of a search without potentials -/
abbrev Ctx0 (n : Nat) (fl bl : Nat → Option (List Link)) (deg : Nat → Option SymDeg) (s t cap : Nat) : Prop :=
  Ctx n fl bl deg s t (fun _ => 0) (fun _ => 0) False 0 0 0 0 cap (fun _ _ _ _ => some false) (fun _ _ _ _ => some false)
    (fun _ _ _ _ => False) (fun _ _ _ _ => False)

theorem opt0 : opt (fun _ => 0) = fun _ => some 0 := by funext v; simp [opt]; decide

theorem GInv.key0 {links : Nat → Option (List Link)} {K : Nat} {S : List Nat} {I : Nat → Nat → Prop} {BK : Nat} (hI : ∀ x l, ¬ I x l)
    (hi : GInv n links deg s (fun _ => 0) I ov BK (fun _ _ => False) a p S K) {x k : Nat} (hk : a.Q x = some k) : k = a.D x ∧ a.D x < INFINITY := by
  have h1 := (hi.queue x k hk).2.2.1
  have hact : p x := by
    apply Classical.byContradiction
    intro h; exact hI _ _ (hi.inact x h h1)
  have := hi.actQ x hact k hk
  have h0 : lo s (fun _ => 0) x = 0 := by simp [lo]
  exact ⟨by omega, h1⟩

/-- Without pruning the smallest key is the distance of its node. -/
theorem GInv.pop0 {links : Nat → Option (List Link)} {K : Nat} {S : List Nat} {I : Nat → Nat → Prop} {BK : Nat} (hI : ∀ x l, ¬ I x l)
    (hi : GInv n links deg s (fun _ => 0) I ov BK (fun _ _ => False) a p S K) {d : DData Unit} (hr : Refines n d a) {k : Nat} (hk : d.peekKey = some k)
    {x : Nat} (hx : a.Q x = some k) : ∀ l, Walk (LArc links) s x l → a.D x ≤ l := by
  intro l hl
  obtain ⟨h1, h2⟩ := hi.key0 hI hx
  by_cases hlk : l < k
  · have := hi.front (by simp) hI s l hl 0 (Nat.le_of_eq hi.src) (by omega) (fun u k' hu => by
      rcases BiD.peekKey_spec hr with ⟨h, _⟩ | ⟨v, k2, g1, g2, g3⟩
      · rw [h] at hk; simp at hk
      · rw [g1] at hk; simp at hk
        have := g3 u k' hu
        omega)
    omega
  · omega

/-- The loop without potentials. -/
theorem loop_zero {δ : Type} {ch : Chooser δ} (hch : ch.OK) (hc : Ctx0 n fl bl deg s t cap) (hsn : s < n) (htn : t < n) :
    ∀ (fuel : Nat) (k : δ) (fd bd : DData Unit) (c : Nat × Nat) (a b : Abs Unit) (p q : Nat → Prop) (SF SB : List Nat) (KF KB : Nat),
      2 * n + 2 ≤ fuel + SF.length + SB.length →
      Inv n fl bl deg s t (fun _ => 0) (fun _ => 0) False 0 0 cap (fun _ _ _ _ => False) (fun _ _ _ _ => False) fd bd c a b p q SF SB KF KB →
    ∃ r, loop zeroBi ch n ⟨fl, deg⟩ ⟨bl, deg⟩ s t cap fuel k fd bd c = some r ∧ BiA.Fin n fl s t cap r := by
  intro fuel
  induction fuel with
  | zero =>
    intro k fd bd c a b p q SF SB KF KB hf hi
    have := hi.sf.length_le
    have := hi.sb.length_le
    omega
  | succ fuel ih =>
    intro k fd bd c a b p q SF SB KF KB hf hi
    have hlf := hi.sf.length_le
    have hlb := hi.sb.length_le
    have hnI : ∀ (x l : Nat), ¬ (fun _ _ => False : Nat → Nat → Prop) x l := fun _ _ h => h
    have hmidf := fun d hm => mid_key (d := d) hc hi hm
    have hmidb := fun d hm => mid_key (d := d) hc.symm (hi.symm hc.set) (BiA.Mid.symm hc.set hm)
    have hkF : ∀ κ, fd.peekKey = some κ → κ < INFINITY := by
      intro κ hκ
      rcases BiD.peekKey_spec hi.rf with ⟨h, _⟩ | ⟨v, k2, g1, g2, g3⟩
      · rw [h] at hκ; simp at hκ
      · rw [g1] at hκ; simp at hκ; have := hi.sf.key0 hnI g2; omega
    have hkB : ∀ κ, bd.peekKey = some κ → κ < INFINITY := by
      intro κ hκ
      rcases BiD.peekKey_spec hi.rb with ⟨h, _⟩ | ⟨v, k2, g1, g2, g3⟩
      · rw [h] at hκ; simp at hκ
      · rw [g1] at hκ; simp at hκ; have := hi.sb.key0 hnI g2; omega
    -- steps
    have hfwd : ∀ κ, fd.peekKey = some κ → BiD.stopCheck zeroBi ch k fd bd (min c.1 cap) = some false → (ch.choose k fd.peekKey bd.peekKey).1 = true →
        ∃ r, loop zeroBi ch n ⟨fl, deg⟩ ⟨bl, deg⟩ s t cap (fuel + 1) k fd bd c = some r ∧ BiA.Fin n fl s t cap r := by
      intro κ hκ hst g3
      obtain ⟨u, fd', c', e1, e2⟩ := stepF hc hsn htn hi hκ (hkF κ hκ) (by simp) (fun hq => hi.sf.pop0 hnI hi.rf hκ hq)
      rw [opt0] at e1
      have e1' : Topo.settleNext n ⟨true, true⟩ ⟨fl, deg⟩ defaultOps (cl zeroBi.pruneF zeroBi.fw bd (min c.1 cap)) fd c = some (some u, fd', c') := e1
      rcases e2 with ⟨rfl, x, e2, e3⟩ | ⟨hu, a', p', e2⟩
      · refine ⟨_, ?_, e3⟩
        simp [loop, hst, g3, e1', e2]
      · obtain ⟨r, e4, e5⟩ := ih (ch.choose k fd.peekKey bd.peekKey).2 fd' bd c' a' b p' q (u :: SF) SB κ KB (by simp; omega) e2
        refine ⟨r, ?_, e5⟩
        simp [loop, hst, g3, e1', hu, e4]
    have hbwd : ∀ κ, bd.peekKey = some κ → BiD.stopCheck zeroBi ch k fd bd (min c.1 cap) = some false → (ch.choose k fd.peekKey bd.peekKey).1 = false →
        ∃ r, loop zeroBi ch n ⟨fl, deg⟩ ⟨bl, deg⟩ s t cap (fuel + 1) k fd bd c = some r ∧ BiA.Fin n fl s t cap r := by
      intro κ hκ hst g3
      obtain ⟨u, bd', c', e1, e2⟩ := stepB hc hsn htn hi hκ (hkB κ hκ) (by simp) (fun hq => hi.sb.pop0 hnI hi.rb hκ hq)
      rw [opt0] at e1
      have e1' : Topo.settleNext n ⟨true, true⟩ ⟨bl, deg⟩ defaultOps (cl zeroBi.pruneB zeroBi.bw fd (min c.1 cap)) bd c = some (some u, bd', c') := e1
      rcases e2 with ⟨rfl, x, e2, e3⟩ | ⟨hu, b', q', e2⟩
      · refine ⟨_, ?_, e3⟩
        simp [loop, hst, g3, e1', e2]
      · obtain ⟨r, e4, e5⟩ := ih (ch.choose k fd.peekKey bd.peekKey).2 fd bd' c' a b' p q' SF (u :: SB) KF κ (by simp; omega) e2
        refine ⟨r, ?_, e5⟩
        simp [loop, hst, g3, e1', hu, e4]
    have hstop : BiD.stopCheck zeroBi ch k fd bd (min c.1 cap) = some true →
        (∀ d, IsDist (LArc fl) s t d → d < INFINITY → d < cap → BiA.Mid (LArc fl) s t a p b q d → c.1 ≤ d) →
        ∃ r, loop zeroBi ch n ⟨fl, deg⟩ ⟨bl, deg⟩ s t cap (fuel + 1) k fd bd c = some r ∧ BiA.Fin n fl s t cap r := by
      intro hst h1
      obtain ⟨r, g1, g2⟩ := finish_spec hc.set hsn htn hi (by
          intro d hd h3 h4
          rcases hi.mid d hd h3 h4 with g | g | g | g
          · exact .inl g
          · exact .inr (.inl g)
          · exact .inr (.inr g)
          · exact .inl (h1 d hd h3 h4 g))
      exact ⟨r, by simp [loop, hst, g1], g2⟩
    have hdir : ∀ κ κ', fd.peekKey = some κ → bd.peekKey = some κ' → BiD.stopCheck zeroBi ch k fd bd (min c.1 cap) = some false →
        ∃ r, loop zeroBi ch n ⟨fl, deg⟩ ⟨bl, deg⟩ s t cap (fuel + 1) k fd bd c = some r ∧ BiA.Fin n fl s t cap r := by
      intro κ κ' h1 h2 hst
      cases hd : (ch.choose k fd.peekKey bd.peekKey).1 with
      | true => exact hfwd κ h1 hst hd
      | false => exact hbwd κ' h2 hst hd
    cases hf0 : fd.peekKey with
    | none =>
      have hno : ∀ d, IsDist (LArc fl) s t d → d < INFINITY → d < cap → BiA.Mid (LArc fl) s t a p b q d → c.1 ≤ d := by
        intro d _ _ _ h
        obtain ⟨κ, g1, _⟩ := hmidf d h; rw [hf0] at g1; simp at g1
      cases hm : ch.mayStop k with
      | true => exact hstop (by simp [BiD.stopCheck, hm, zeroBi, hf0]) hno
      | false =>
        have hst : BiD.stopCheck zeroBi ch k fd bd (min c.1 cap) = some false := by simp [BiD.stopCheck, hm]
        cases hb0 : bd.peekKey with
        | some kb => exact hbwd kb hb0 hst (by rw [hf0, hb0]; exact hch.fw k kb)
        | none =>
          have hm2 := hch.stop k hm
          have hQf : ∀ v, a.Q v = none := by
            rcases BiD.peekKey_spec hi.rf with ⟨_, h⟩ | ⟨v, k2, g1, _⟩
            · exact h
            · rw [hf0] at g1; simp at g1
          have hQb : ∀ v, b.Q v = none := by
            rcases BiD.peekKey_spec hi.rb with ⟨_, h⟩ | ⟨v, k2, g1, _⟩
            · exact h
            · rw [hb0] at g1; simp at g1
          have hpf : fd.queue.pop = some (none, fd.queue) := by
            rcases IHeap.rep_pop hi.rf.queue with ⟨h1, _⟩ | ⟨x, qq, h1, h2, _⟩
            · exact h1
            · simp [hQf] at h2
          have hpb : bd.queue.pop = some (none, bd.queue) := by
            rcases IHeap.rep_pop hi.rb.queue with ⟨h1, _⟩ | ⟨x, qq, h1, h2, _⟩
            · exact h1
            · simp [hQb] at h2
          obtain ⟨fuel', rfl⟩ : ∃ f, fuel = f + 1 := ⟨fuel - 1, by omega⟩
          obtain ⟨r, g1, g2⟩ := finish_spec hc.set hsn htn hi (by
            intro d hd h3 h4
            rcases hi.mid d hd h3 h4 with g | g | g | g
            · exact .inl g
            · exact .inr (.inl g)
            · exact .inr (.inr g)
            · exact .inl (hno d hd h3 h4 g))
          have hst2 : BiD.stopCheck zeroBi ch (ch.choose k none none).2 fd bd (min c.1 cap) = some true := by
            simp [BiD.stopCheck, hm2, zeroBi, hf0]
          have hl2 : loop zeroBi ch n ⟨fl, deg⟩ ⟨bl, deg⟩ s t cap (fuel' + 1) (ch.choose k none none).2 fd bd c = some r := by
            simp [loop, hst2, g1]
          refine ⟨r, ?_, g2⟩
          rw [loop]
          cases hd : (ch.choose k none none).1 with
          | true => simp only [hst, hf0, hb0, hd, Topo.settleNext, hpf, Option.bind_eq_bind, Option.bind_some]; simpa using hl2
          | false => simp only [hst, hf0, hb0, hd, Topo.settleNext, hpb, Option.bind_eq_bind, Option.bind_some]; simpa using hl2
    | some kf =>
      cases hb0 : bd.peekKey with
      | none =>
        cases hm : ch.mayStop k with
        | true =>
          refine hstop (by simp [BiD.stopCheck, hm, zeroBi, hf0, hb0]) ?_
          intro d _ _ _ h
          obtain ⟨κ, g1, _⟩ := hmidb d h; rw [hb0] at g1; simp at g1
        | false => exact hfwd kf hf0 (by simp [BiD.stopCheck, hm]) (by rw [hf0, hb0]; exact hch.bw k kf)
      | some kb =>
        cases hm : ch.mayStop k with
        | false => exact hdir kf kb hf0 hb0 (by simp [BiD.stopCheck, hm])
        | true =>
          have h1 := hkF kf hf0
          have h2 := hkB kb hb0
          have hadd : add32 kf kb = some (kf + kb) := add32_of_lt (by simp only [INFINITY, U32] at *; omega)
          have hsc : BiD.stopCheck zeroBi ch k fd bd (min c.1 cap) = some (decide (kf + kb ≥ min c.1 cap)) := by
            simp [BiD.stopCheck, hm, zeroBi, hf0, hb0, hadd]
          by_cases hle : kf + kb ≥ min c.1 cap
          · refine hstop (by rw [hsc]; simp; omega) ?_
            intro d hd h3 h4 h
            obtain ⟨x, y, α, β, γ, g1, g2, g3, g4, g5, g6, g7, g8, g9, g10⟩ := h
            have hkf : kf ≤ α := by
              cases hq : a.Q x with
              | none => exact absurd hq g7
              | some κ =>
                have := BiA.qmin_spec hi.rf hq
                simp only [qmin, hf0, Option.getD_some] at this
                have := (hi.sf.key0 hnI hq).1
                omega
            have hkb : kb ≤ γ := by
              cases hq : b.Q y with
              | none => exact absurd hq g10
              | some κ =>
                have := BiA.qmin_spec hi.rb hq
                simp only [qmin, hb0, Option.getD_some] at this
                have := (hi.sb.key0 hnI hq).1
                omega
            omega
          · exact hdir kf kb hf0 hb0 (by rw [hsc]; simp; omega)

/-- The invariant holds before the first step. -/
theorem Inv.start {BK Z meet : Nat} (hsn : s < n) (htn : t < n) {Pf Pb : Nat → Nat × Unit}
    (h2 : Refines n fd ⟨fupd (fun _ => INFINITY) s 0, fupd (fun _ => none) s (some 0), Pf⟩)
    (h4 : Refines n bd ⟨fupd (fun _ => INFINITY) t 0, fupd (fun _ => none) t (some 0), Pb⟩) :
    Inv n fl bl deg s t pf pb ov BK Z cap IF IB fd bd (INFINITY, meet)
      ⟨fupd (fun _ => INFINITY) s 0, fupd (fun _ => none) s (some 0), Pf⟩
      ⟨fupd (fun _ => INFINITY) t 0, fupd (fun _ => none) t (some 0), Pb⟩ (fun x => x = s) (fun x => x = t) [] [] 0 0 where
  rf := h2
  rb := h4
  sf := GInv.start hsn
  sb := GInv.start htn
  j := by
    refine ⟨Nat.le_refl _, fun x h _ _ h' => absurd h h', fun h => absurd h (Nat.lt_irrefl _), fun h => absurd h (Nat.lt_irrefl _), ?_⟩
    intro h k hk
    simp only [fupd_of_ne _ _ h] at hk
    simp at hk
  jb := by
    refine ⟨Nat.le_refl _, fun x h _ _ h' => absurd h h', fun h => absurd h (Nat.lt_irrefl _), fun h => absurd h (Nat.lt_irrefl _), ?_⟩
    intro h k hk
    simp only [fupd_of_ne _ _ h] at hk
    simp at hk
  mid := by
    intro d hd _ _
    right; right; right
    exact ⟨s, t, 0, d, 0, .nil _, hd.1, .nil _, by omega, by simp, rfl, by simp, by simp, rfl, by simp⟩
  phase := by
    intro _
    right; right
    refine ⟨rfl, ?_, ?_⟩ <;>
    · intro x hx
      simp only [fupd] at hx ⊢
      split at hx
      · rename_i h; simp [h]
      · simp at hx

theorem query_sym {imp : Bool}
    (hc : Ctx n fl bl deg s t pf pb ov R C P X cap (pruneInternal imp (opt pf) (opt pb)) (pruneInternal imp (opt pb) (opt pf)) IF IB)
    (hsn : s < n) (htn : t < n) (meet : Nat) (hrf : Refines n fd a) (hrb : Refines n bd b) :
    ∃ r, distance (symmetricBi imp (opt pf) (opt pb)) minKeyDir n ⟨fl, deg⟩ ⟨bl, deg⟩ fd bd meet s t cap = some r ∧ BiA.Fin n fl s t cap r := by
  obtain ⟨fd', h1, h2⟩ := init_refines hrf hsn 0
  obtain ⟨bd', h3, h4⟩ := init_refines hrb htn 0
  obtain ⟨r, h5, h6⟩ := loop_sym hc hsn htn (4 * n + 6) fd' bd' (INFINITY, meet) _ _ _ _ [] [] 0 0 (by simp; omega) (Inv.start hsn htn h2 h4)
  exact ⟨r, by simp only [distance, h1, h3, Option.bind_eq_bind, Option.bind_some]; exact h5, h6⟩

theorem query_zero {δ : Type} {ch : Chooser δ} (hch : ch.OK) (hc : Ctx0 n fl bl deg s t cap) (hsn : s < n) (htn : t < n) (meet : Nat)
    (hrf : Refines n fd a) (hrb : Refines n bd b) :
    ∃ r, distance zeroBi ch n ⟨fl, deg⟩ ⟨bl, deg⟩ fd bd meet s t cap = some r ∧ BiA.Fin n fl s t cap r := by
  obtain ⟨fd', h1, h2⟩ := init_refines hrf hsn 0
  obtain ⟨bd', h3, h4⟩ := init_refines hrb htn 0
  obtain ⟨r, h5, h6⟩ := loop_zero hch hc hsn htn (4 * n + 6) ch.init fd' bd' (INFINITY, meet) _ _ _ _ [] [] 0 0 (by simp; omega) (Inv.start hsn htn h2 h4)
  exact ⟨r, by simp only [distance, h1, h3, Option.bind_eq_bind, Option.bind_some]; exact h5, h6⟩

/-! #### the contexts -/

theorem ctx_zero (hs : BiD.Setting n fl bl) (hf : Topo.DegOK (staticProb n fl (fun _ => 0)) deg) (hb : Topo.DegOK (staticProb n bl (fun _ => 0)) deg) :
    Ctx0 n fl bl deg s t cap where
  set := hs
  fw := ⟨fun M qo L _ _ => ⟨hs.fw, hf, by simp, by simp, by simp, by simp, by simp, fun x l _ _ => ⟨false, rfl, by simp⟩⟩,
    by simp, by simp, by simp, by simp, by simp⟩
  bw := ⟨fun M qo L _ _ => ⟨hs.bw, hb, by simp, by simp, by simp, by simp, by simp, fun x l _ _ => ⟨false, rfl, by simp⟩⟩,
    by simp, by simp, by simp, by simp, by simp⟩
  target := rfl
  source := rfl
  capX := by simp
  twice := by simp
  small := by simp
  distF := by simp
  distB := by simp

theorem prune_spec {imp : Bool} {pi po : Nat → Nat} (h1 : ∀ v, pi v ≤ INFINITY) (h2 : ∀ v, po v ≤ INFINITY) {x l qo M : Nat}
    (hl : l < INFINITY) (hov : imp = true → l + qo < U32) :
    ∃ b, pruneInternal imp (opt pi) (opt po) x l qo M = some b ∧ (b = true ↔ BiA.Irr imp M qo pi po x l) := by
  cases imp with
  | true => exact BiA.prune_spec h1 h2 hl (fun _ => hov rfl)
  | false =>
    unfold pruneInternal BiA.Irr
    by_cases hM : M < INFINITY
    · have hp := h1 x
      have e1 : add32 l (pi x) = some (l + pi x) := add32_of_lt (by simp only [INFINITY, U32] at *; omega)
      simp only [hM, if_true, BiA.opt_getD h1, e1, Option.bind_eq_bind, Option.bind_some, true_and]
      by_cases h3 : l + pi x ≥ M
      · exact ⟨true, by simp [h3], by simp; exact h3⟩
      · exact ⟨false, by simp [h3], by simp; omega⟩
    · exact ⟨false, by simp [hM], by simp [hM]⟩

theorem oneSide {imp : Bool} {links : Nat → Option (List Link)} {pi po : Nat → Nat} {Lm : Nat} (hl : LinksOK n links)
    (hd : Topo.DegOK (staticProb n links (fun _ => 0)) deg) (harc : ∀ u v w, LArc links u v w → pi u ≤ w + pi v)
    (harc' : ∀ u v w, LArc links u v w → po v ≤ w + po u) (h1 : ∀ v, pi v ≤ INFINITY) (h2 : ∀ v, po v ≤ INFINITY)
    (hP : imp = true → ∀ v, pi v < INFINITY → pi v ≤ P) (hC : imp = true → ChainsWithin (LArc links) deg C) (hov : imp = true → 2 * Lm + P < U32) :
    OneSide n links deg pi po (imp = true) Lm C P (pruneInternal imp (opt pi) (opt po)) (fun M qo => BiA.Irr imp M qo pi po) where
  fix := fun M qo L hL hqo => ⟨hl, hd, harc, h1, hP, hC, fun u v w l ha => BiA.Irr.arc (harc u v w ha) (harc' u v w ha), fun x l hx hx' =>
    prune_spec h1 h2 hx (fun hi => by
      have := hL hi; have := hqo hi; have := hov hi; have := hx' hi
      have : max INFINITY (Lm + P) = INFINITY ∨ max INFINITY (Lm + P) = Lm + P := by omega
      simp only [INFINITY, U32] at *
      omega)⟩
  mono := fun M M' qo qo' x l hM hq h => h.mono hM hq
  inf := fun M qo x l h => h.1
  cut := fun M qo x l h => h.2.imp id (fun h => h.2)
  arc := harc
  arc' := harc'


end
end BiT
end Verif
