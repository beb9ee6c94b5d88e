import Verif.Model.MultiMetric
import Verif.Proof.CCHPotential
import Verif.Proof.PerfectQuery
set_option linter.unusedSimpArgs false
set_option linter.unusedVariables false
/- Timed paths in a customized hierarchy: parts whose inner nodes are lower than their ends are covered by an edge. -/
namespace Verif
namespace MultiMetric
open Spec CCH

theorem first_max (p : Nat → Nat) (i : Nat) : ∀ d, ∃ z, i ≤ z ∧ z ≤ i + d ∧ (∀ l, i ≤ l → l ≤ i + d → p l ≤ p z) ∧ ∀ l, i ≤ l → l < z → p l < p z
  | 0 => ⟨i, by omega, by omega, fun l h1 h2 => by rw [show l = i by omega], fun l h1 h2 => by omega⟩
  | d + 1 => by
    obtain ⟨z, h1, h2, h3, h4⟩ := first_max p i d
    by_cases h : p z < p (i + d + 1)
    · refine ⟨i + d + 1, by omega, by omega, ?_, ?_⟩
      · intro l l1 l2
        by_cases hl : l = i + d + 1
        · rw [hl]
        · have := h3 l l1 (by omega); omega
      · intro l l1 l2
        have := h3 l l1 (by omega); omega
    · refine ⟨z, h1, by omega, ?_, h4⟩
      intro l l1 l2
      by_cases hl : l = i + d + 1
      · rw [hl]; omega
      · exact h3 l l1 (by omega)

theorem last_max (p : Nat → Nat) (i : Nat) : ∀ d, ∃ z, i ≤ z ∧ z ≤ i + d ∧ (∀ l, i ≤ l → l ≤ i + d → p l ≤ p z) ∧ ∀ l, z < l → l ≤ i + d → p l < p z
  | 0 => ⟨i, by omega, by omega, fun l h1 h2 => by rw [show l = i by omega], fun l h1 h2 => by omega⟩
  | d + 1 => by
    obtain ⟨z, h1, h2, h3, h4⟩ := last_max p i d
    by_cases h : p z ≤ p (i + d + 1)
    · refine ⟨i + d + 1, by omega, by omega, ?_, ?_⟩
      · intro l l1 l2
        by_cases hl : l = i + d + 1
        · rw [hl]
        · have := h3 l l1 (by omega); omega
      · intro l l1 l2; omega
    · refine ⟨z, h1, by omega, ?_, ?_⟩
      · intro l l1 l2
        by_cases hl : l = i + d + 1
        · rw [hl]; omega
        · exact h3 l l1 (by omega)
      · intro l l1 l2
        by_cases hl : l = i + d + 1
        · rw [hl]; omega
        · exact h4 l l1 (by omega)

/-- the nodes between positions `i` and `j` are lower than the nodes at `i` and `j` -/
def Inner (p : Nat → Nat) (i j : Nat) : Prop := ∀ l, i < l → l < j → p l < p i ∧ p l < p j

theorem mono_le {a : Nat → Nat} {i j : Nat} (hij : i ≤ j) (h : ∀ l, i ≤ l → l < j → a l ≤ a (l + 1)) : a i ≤ a j := by
  obtain ⟨d, rfl⟩ := Nat.exists_eq_add_of_le hij
  induction d with
  | zero => exact Nat.le_refl _
  | succ d ih =>
    have := ih (by omega) (fun l h1 h2 => h l h1 (by omega))
    have := h (i + d) (by omega) (by omega)
    rw [show i + (d + 1) = i + d + 1 by omega]; omega

/-- A part with lower inner nodes is covered by an edge. -/
theorem seg {O A : Nat → Nat → Nat → Prop} (hT : TriOK A) (hC : Covers O A) {p a : Nat → Nat} : ∀ (d i j : Nat), j ≤ i + d → i < j →
    (∀ l, i ≤ l → l < j → ∃ w, O (p l) (p (l + 1)) w ∧ a l + w ≤ a (l + 1)) → Inner p i j → p i ≠ p j → ∃ w, A (p i) (p j) w ∧ a i + w ≤ a j := by
  intro d
  induction d with
  | zero => intro i j h1 h2; omega
  | succ d ih =>
    intro i j hd hij harc hin hne
    by_cases h1 : j = i + 1
    · subst h1
      obtain ⟨w, h2, h3⟩ := harc i (Nat.le_refl _) (by omega)
      obtain ⟨w', h4, h5⟩ := hC _ _ _ h2 hne
      exact ⟨w', h5, by omega⟩
    · have hm : ∀ l, i ≤ l → l < j → a l ≤ a (l + 1) := by
        intro l h2 h3; obtain ⟨w, _, h4⟩ := harc l h2 h3; omega
      obtain ⟨x, x1, x2, x3, x4⟩ := first_max p (i + 1) (j - 2 - i)
      obtain ⟨y, y1, y2, y3, y4⟩ := last_max p (i + 1) (j - 2 - i)
      have hxy : p x = p y := Nat.le_antisymm (y3 x x1 x2) (x3 y y1 y2)
      have hle : x ≤ y := by
        by_contra hc
        have := y4 x (by omega) x2; omega
      obtain ⟨e1, e2⟩ := hin x (by omega) (by omega)
      obtain ⟨w1, k1, k2⟩ := ih i x (by omega) (by omega) (fun l h2 h3 => harc l h2 (by omega)) (by
        intro l h2 h3
        have := x4 l (by omega) h3
        exact ⟨by omega, this⟩) (by omega)
      obtain ⟨w2, k3, k4⟩ := ih y j (by omega) (by omega) (fun l h2 h3 => harc l (by omega) h3) (by
        intro l h2 h3
        have := y4 l h2 (by omega)
        exact ⟨this, by omega⟩) (by omega)
      rw [← hxy] at k3
      obtain ⟨w, k5, k6⟩ := hT _ _ _ _ _ k1 k3 e1 e2 hne
      have := mono_le (a := a) hle (fun l h2 h3 => hm l (by omega) (by omega))
      exact ⟨w, k6, by omega⟩

/-- A path to `t` with the times at its nodes, from `dep` or later until `latest` or earlier; parts with lower inner nodes are covered by the
arcs that the hierarchy has for metric `m`, `KF m` upwards and `KB m` downwards (from the lower to the higher end), if they begin at `S m` or
later. -/
structure TPath (n dep latest t : Nat) (S : Nat → Nat) (M : Nat) (KF KB : Nat → Nat → Nat → Nat → Prop) (k : Nat) (p a : Nat → Nat) : Prop where
  last : p k = t
  lt : ∀ i, i ≤ k → p i < n
  mono : ∀ i, i < k → a i ≤ a (i + 1)
  dep : dep ≤ a 0
  arr : a k ≤ latest
  up : ∀ m i j, m < M → S m ≤ a i → i < j → j ≤ k → Inner p i j → p i < p j → ∃ w, KF m (p i) (p j) w ∧ a i + w ≤ a j
  down : ∀ m i j, m < M → S m ≤ a i → i < j → j ≤ k → Inner p i j → p j < p i → ∃ w, KB m (p j) (p i) w ∧ a i + w ≤ a j

section
variable {n dep latest t M : Nat} {S : Nat → Nat} {KF KB : Nat → Nat → Nat → Nat → Prop} {k : Nat} {p a : Nat → Nat}

theorem TPath.le (h : TPath n dep latest t S M KF KB k p a) {i j : Nat} (hij : i ≤ j) (hj : j ≤ k) : a i ≤ a j :=
  mono_le hij (fun l h1 h2 => h.mono l (by omega))

/-- The distances of the search from the target are lower bounds for nodes that are highest. -/
theorem TPath.bw (h : TPath n dep latest t S M KF KB k p a) (hM : 0 < M) (hS : S 0 ≤ dep) {b : Nat → Nat} {ub : Nat} (hub : latest ≤ dep + ub) (hb0 : b t = 0)
    (hb : ∀ y x w, KB 0 y x w → b y + w ≤ ub → b x ≤ b y + w) : ∀ d i, k ≤ i + d → i ≤ k → (∀ l, i ≤ l → l ≤ k → p l ≤ p i) → a i + b (p i) ≤ a k := by
  intro d
  induction d with
  | zero =>
    intro i h1 h2 _
    have : i = k := by omega
    subst this; rw [h.last, hb0]; exact Nat.le_refl _
  | succ d ih =>
    intro i h1 h2 h3
    obtain ⟨y, y1, y2, y3, y4⟩ := last_max p i (k - i)
    have hpy : p y = p i := Nat.le_antisymm (h3 y y1 (by omega)) (y3 i (Nat.le_refl _) (by omega))
    have hiy := h.le y1 (by omega)
    by_cases hyk : y = k
    · subst hyk
      rw [← hpy, h.last, hb0]; omega
    · obtain ⟨x, x1, x2, x3, x4⟩ := first_max p (y + 1) (k - (y + 1))
      have hxy : p x < p y := y4 x (by omega) (by omega)
      have hdep : dep ≤ a y := by have := h.le (show 0 ≤ y by omega) (by omega); have := h.dep; omega
      obtain ⟨w, k1, k2⟩ := h.down 0 y x hM (by omega) (by omega) (by omega) (by
        intro l h4 h5
        exact ⟨y4 l h4 (by omega), x4 l (by omega) h5⟩) hxy
      have hih := ih x (by omega) (by omega) (fun l h4 h5 => x3 l (by omega) (by omega))
      have := h.arr
      have hax := h.le (show y ≤ x by omega) (by omega)
      have := hb _ _ _ k1 (by omega)
      rw [hpy] at this
      omega

/-- The value computed from the values of the heads is a lower bound. -/
theorem TPath.est (h : TPath n dep latest t S M KF KB k p a) {b : Nat → Nat} (hbw : ∀ i, i ≤ k → (∀ l, i ≤ l → l ≤ k → p l ≤ p i) → a i + b (p i) ≤ a k)
    {m i e : Nat} (hm : m < M) (hi : i ≤ k) (hS : S m ≤ a i) (heb : e ≤ b (p i))
    (he : ∀ j w, i < j → j ≤ k → p i < p j → KF m (p i) (p j) w → ∃ d, a j + d ≤ a k ∧ e ≤ w + d) : a i + e ≤ a k := by
  by_cases hex : ∃ j, i < j ∧ j ≤ k ∧ p i < p j
  · classical
    let j := Nat.find hex
    obtain ⟨h1, h2, h3⟩ := Nat.find_spec hex
    have hmin : ∀ l, i < l → l < j → p l ≤ p i := by
      intro l h4 h5
      have := Nat.find_min hex h5
      by_contra hc
      exact this ⟨h4, by have : j ≤ k := h2; omega, by omega⟩
    change i < j at h1; change j ≤ k at h2; change p i < p j at h3
    obtain ⟨y, y1, y2, y3, y4⟩ := last_max p i (j - 1 - i)
    have hpy : p y = p i := by
      apply Nat.le_antisymm _ (y3 i (Nat.le_refl _) (by omega))
      by_cases hy : y = i
      · rw [hy]
      · exact hmin y (by omega) (by omega)
    have hiy := h.le y1 (by omega)
    obtain ⟨w, k1, k2⟩ := h.up m y j hm (by omega) (by omega) h2 (by
      intro l h4 h5
      have := y4 l h4 (by omega)
      exact ⟨this, by omega⟩) (by omega)
    rw [hpy] at k1
    obtain ⟨d, k3, k4⟩ := he j w h1 h2 h3 k1
    omega
  · have := hbw i hi (by
      intro l h1 h2
      by_contra hc
      have : l ≠ i := fun e => by subst e; omega
      exact hex ⟨l, by omega, h2, by omega⟩)
    omega
end

end MultiMetric
end Verif
