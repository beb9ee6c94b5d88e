import Verif.Proof.DijkstraStatic
set_option linter.unusedSimpArgs false
set_option linter.unusedVariables false
/- Proofs for `ranks` (C24). -/
namespace Verif.DData
open Spec

theorem trailingZeros_pow (k : Nat) : ∀ fuel, k < fuel → trailingZeros fuel (2 ^ k) = k := by
  induction k with
  | zero => intro fuel h; cases fuel with
    | zero => omega
    | succ f => simp [trailingZeros]
  | succ k ih =>
    intro fuel h
    cases fuel with
    | zero => omega
    | succ f =>
      have h1 : 2 ^ (k + 1) % 2 = 0 := by rw [Nat.pow_succ]; omega
      have h2 : 2 ^ (k + 1) / 2 = 2 ^ k := by rw [Nat.pow_succ]; omega
      simp [trailingZeros, h1, h2, ih f (by omega)]

/-- The callbacks expected for the nodes `vs`, settled as number `i + 1`, `i + 2`, ... -/
def Calls (D : Nat → Nat) : Nat → List Nat → List (Nat × Nat × Nat) → Prop
  | _, [], cs => cs = []
  | i, v :: vs, cs => (∃ k rest, i + 1 = 2 ^ k ∧ cs = (v, D v, k) :: rest ∧ Calls D (i + 1) vs rest) ∨
    ((¬ ∃ k, i + 1 = 2 ^ k) ∧ Calls D (i + 1) vs cs)

theorem Calls.mem {D : Nat → Nat} (vs : List Nat) : ∀ {i cs}, Calls D i vs cs →
    ∀ v x k, (v, x, k) ∈ cs ↔ x = D v ∧ ∃ j, vs[j]? = some v ∧ i + 1 + j = 2 ^ k := by
  induction vs with
  | nil => intro i cs h v x k; simp [Calls] at h; simp [h]
  | cons u vs ih =>
    intro i cs h v x k
    unfold Calls at h
    rcases h with ⟨k', rest, h1, rfl, h3⟩ | ⟨hn, h⟩
    · have := ih h3 v x k
      simp only [List.mem_cons, this]
      constructor
      · rintro (h | ⟨h, j, h4, h5⟩)
        · simp at h; obtain ⟨rfl, rfl, rfl⟩ := h; exact ⟨rfl, 0, by simp, by omega⟩
        · exact ⟨h, j + 1, by simpa using h4, by omega⟩
      · rintro ⟨h, j, h4, h5⟩
        cases j with
        | zero =>
          left
          simp at h4; subst h4
          have : k = k' := Nat.pow_right_inj (a := 2) (by decide) |>.1 (by omega)
          simp [h, this]
        | succ j => right; exact ⟨h, j, by simpa using h4, by omega⟩
    · have := ih h v x k
      rw [this]
      constructor
      · rintro ⟨h, j, h4, h5⟩; exact ⟨h, j + 1, by simpa using h4, by omega⟩
      · rintro ⟨h, j, h4, h5⟩
        cases j with
        | zero => exact absurd ⟨k, by omega⟩ hn
        | succ j => exact ⟨h, j, by simpa using h4, by omega⟩

theorem Calls.sorted {D : Nat → Nat} (vs : List Nat) : ∀ {i cs}, Calls D i vs cs →
    cs.Pairwise (fun a b => a.2.2 < b.2.2) := by
  induction vs with
  | nil => intro i cs h; simp [Calls] at h; simp [h]
  | cons u vs ih =>
    intro i cs h
    unfold Calls at h
    rcases h with ⟨k', rest, h1, rfl, h3⟩ | ⟨hn, h⟩
    · refine List.pairwise_cons.2 ⟨?_, ih h3⟩
      rintro ⟨v, x, k⟩ hm
      obtain ⟨_, j, _, h5⟩ := (Calls.mem vs h3 v x k).1 hm
      show k' < k
      exact (Nat.pow_lt_pow_iff_right (by decide : 1 < 2)).1 (by omega)
    · exact ih h

variable {g : FOGraph}

abbrev rp (g : FOGraph) := staticProb g.numNodes g.linkIter (fun _ => 0)

theorem label_min (hp : (rp g).OK) {s v y : Nat} {a : Abs Unit} {S : List Nat} (hi : DInv (rp g) s 0 (fun _ _ => False) a S)
    (hv : v ∈ S) (hw : TWalk (rp g).F s 0 v y) : a.D v ≤ y := by
  by_cases hy : y < INFINITY
  · have hre : (rp g).Reach v := by intro u b x _ _; show (0:Nat) < INFINITY; decide
    exact settled_min hp hi hv (Prob.walkG hre hw hy) hy (by show (0:Nat) < INFINITY; decide)
  · have := hi.ub v; omega

theorem label_eq (hp : (rp g).OK) {s v : Nat} {a a' : Abs Unit} {S S' : List Nat}
    (hi : DInv (rp g) s 0 (fun _ _ => False) a S) (hi' : DInv (rp g) s 0 (fun _ _ => False) a' S')
    (hv : v ∈ S) (hv' : v ∈ S') : a.D v = a'.D v :=
  Nat.le_antisymm (label_min hp hi hv (hi'.walk v (hi'.sett v hv').2.1)) (label_min hp hi' hv' (hi.walk v (hi.sett v hv).2.1))

theorem calls_step {D : Nat → Nat} {i v : Nat} {vs : List Nat} {rest : List (Nat × Nat × Nat)} (h : Calls D (i + 1) vs rest) :
    Calls D i (v :: vs) (if (i + 1) &&& (i + 1 - 1) = 0 then (v, D v, trailingZeros (i + 1) (i + 1)) :: rest else rest) := by
  have hiff := Nat.and_sub_one_eq_zero_iff_isPowerOfTwo (n := i + 1) (by omega)
  unfold Calls
  by_cases hk : ∃ k, i + 1 = 2 ^ k
  · left
    obtain ⟨k, hk⟩ := hk
    have h0 : (i + 1) &&& (i + 1 - 1) = 0 := hiff.2 ⟨k, hk⟩
    rw [if_pos h0]
    refine ⟨k, rest, hk, ?_, h⟩
    rw [hk, trailingZeros_pow k _ Nat.lt_two_pow_self]
  · right
    have h0 : ¬ ((i + 1) &&& (i + 1 - 1) = 0) := fun h => hk (hiff.1 h)
    rw [if_neg h0]; exact ⟨hk, h⟩

theorem ranksLoop_spec (hp : (rp g).OK) {s : Nat} :
    ∀ (fuel : Nat) (S : List Nat) (a : Abs Unit) (d : DData Unit), g.numNodes < fuel + S.length → Refines g.numNodes d a →
      DInv (rp g) s 0 (fun _ _ => False) a S →
    ∃ cs d' a' new, ranksLoop g fuel S.length d = some (cs, d') ∧ Refines g.numNodes d' a' ∧
      DInv (rp g) s 0 (fun _ _ => False) a' (new.reverse ++ S) ∧ (∀ v, a'.Q v = none) ∧ Calls a'.D S.length new cs := by
  intro fuel
  induction fuel with
  | zero => intro S a d hf hr hi; have := hi.length_le; simp [rp, staticProb] at this; omega
  | succ fuel ih =>
    intro S a d hf hr hi
    rcases settle_spec (c := ()) (J := fun _ _ => True) hp plainCb_ok hr hi trivial with
      ⟨h1, h2⟩ | ⟨v, k, d', c', a', h1, h2, h3, h4, h5, h6, h7, h8, h9⟩
    · exact ⟨[], d, a, [], by simp only [staticProb] at h1; simp [ranksLoop, h1], hr, by simpa using hi, h2, by simp [Calls]⟩
    · obtain ⟨cs, d2, a2, new, h10, h11, h12, h13, h14⟩ := ih (v :: S) a' d' (by simp; omega) h2 h3
      have hD : a'.D v = a2.D v := label_eq hp h3 h12 (by simp) (by simp)
      have hget : d'.dist.get v = some (a2.D v) := by rw [← hD]; exact h2.get (h3.sett v (by simp)).1
      refine ⟨_, d2, a2, v :: new, ?_, h11, by simpa using h12, h13, calls_step (by simpa using h14)⟩
      simp only [staticProb] at h1
      simp only [List.length_cons] at h10
      simp only [ranksLoop, h1, Option.bind_eq_bind, Option.bind_some, hget, h10]
      split <;> rfl

theorem ranks_spec (hg : g.WF) (hw : ∀ w ∈ g.weight, w ≤ INFINITY) {d0 : DData Unit} {a0 : Abs Unit}
    (hr : Refines g.numNodes d0 a0) {s : Nat} (hs : s < g.numNodes) :
    ∃ cs d' a' order, ranks g d0 s = some (cs, d') ∧ Refines g.numNodes d' a' ∧
      DInv (rp g) s 0 (fun _ _ => False) a' order.reverse ∧ (∀ v, a'.Q v = none) ∧ Calls a'.D 0 order cs := by
  have hp := staticProb_ok (hg.linksOK hw) (zero_feasible _)
  obtain ⟨d1, h1, _, d', c', a', h3, h4, h5, h6⟩ :=
    first_spec (p := rp g) (τ := 0) (c := ()) (J := fun _ _ => True) hp plainCb_ok hr hs (by show 0 < INFINITY; decide) trivial
  obtain ⟨cs, d2, a2, new, h10, h11, h12, h13, h14⟩ := ranksLoop_spec hp g.numNodes [s] a' d' (by simp) h4 h5
  have hD : a'.D s = a2.D s := label_eq hp h5 h12 (by simp) (by simp)
  have hget : d'.dist.get s = some (a2.D s) := by rw [← hD]; exact h4.get hs
  refine ⟨_, d2, a2, s :: new, ?_, h11, by simpa using h12, h13, calls_step (by simpa using h14)⟩
  simp only [rp, staticProb] at h3
  simp only [List.length_cons, List.length_nil] at h10
  simp only [ranks, ranksLoop, h1, h3, Option.bind_eq_bind, Option.bind_some, hget, h10]
  split <;> rfl

theorem label_isDist (hp : (rp g).OK) {s v : Nat} {a : Abs Unit} {S : List Nat} (hi : DInv (rp g) s 0 (fun _ _ => False) a S)
    (hv : v ∈ S) : IsDist g.Arc s v (a.D v) := by
  obtain ⟨y, h1, h2⟩ := static_walk.1 (hi.walk v (hi.sett v hv).2.1)
  refine ⟨by have : a.D v = y := by omega
             rw [this]; exact h1, ?_⟩
  intro x hx
  exact label_min hp hi hv (static_walk.2 ⟨x, hx, by omega⟩)

end Verif.DData
