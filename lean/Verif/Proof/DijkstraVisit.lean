import Verif.Model.DijkstraVisit
import Verif.Proof.CHPotential
set_option linter.unusedSimpArgs false
set_option linter.unusedVariables false
/- Loops over the settled nodes of a search with fixed weights. -/
namespace Verif
open Spec CCH

theorem exists_capMin (P : Nat → Prop) : ∃ x, CapMin P x := by
  by_cases h : ∃ d, d < INFINITY ∧ P d
  · obtain ⟨d, hd⟩ := h
    induction d using Nat.strongRecOn with
    | _ d ih =>
      by_cases h' : ∃ e, e < d ∧ P e
      · obtain ⟨e, h1, h2⟩ := h'
        exact ih e h1 ⟨by omega, h2⟩
      · refine ⟨d, by omega, fun _ => hd.2, fun e he => ?_⟩
        apply Classical.byContradiction
        intro hn
        exact h' ⟨e, by omega, he⟩
  · refine ⟨INFINITY, Nat.le_refl _, fun hlt => absurd hlt (Nat.lt_irrefl _), fun e he => ?_⟩
    apply Classical.byContradiction
    intro hn
    exact h ⟨e, by omega, he⟩

theorem CapMin.unique {P : Nat → Prop} {x y : Nat} (hx : CapMin P x) (hy : CapMin P y) : x = y := by
  have h1 := hx.ub; have h2 := hy.ub
  by_cases h3 : x < INFINITY
  · have := hy.le x (hx.sound h3)
    have := hx.le y (hy.sound (by omega))
    omega
  · by_cases h4 : y < INFINITY
    · have := hx.le y (hy.sound h4); omega
    · omega

namespace DData

/-- What is known when a node has been settled: `δ` are the distances from the source, `S` the nodes settled before. -/
structure Settled (n : Nat) (δ : Nat → Nat) (S : List Nat) (v : Nat) (d : DData Unit) : Prop where
  lt : v < n
  new : v ∉ S
  fin : δ v < INFINITY
  get : d.dist.get v = some (δ v)
  below : ∀ u ∈ S, δ u ≤ δ v
  above : ∀ u, u ∉ S → δ v ≤ δ u

/-- The loop. `K S x` holds after the nodes `S` were visited (latest first). -/
theorem visit_inv {ξ : Type} {g : FOGraph} (hg : g.WF) (hw : g.Bounded) {s : Nat} (hs : s < g.numNodes) {δ : Nat → Nat} (hδ : ∀ v, CapMin (Walk g.Arc s v) (δ v))
    {vis : ξ → DData Unit → Nat → Option (ξ × Bool)} {K Z : List Nat → ξ → Prop}
    (hvis : ∀ S x v d, K S x → S.Nodup → Settled g.numNodes δ S v d →
      ∃ x' b, vis x d v = some (x', b) ∧ (b = true → Z (v :: S) x') ∧ (b = false → K (v :: S) x')) {d0 : DData Unit} {a0 : Abs Unit}
    (hr : Refines g.numNodes d0 a0) {x0 : ξ} (h0 : K [] x0) :
    ∃ d x a S, (do let d ← d0.init s 0; visitLoop g.linkIter vis (g.numNodes + 1) d x0) = some (d, x) ∧ Refines g.numNodes d a ∧
      (DInv (staticProb g.numNodes g.linkIter (fun _ => 0)) s 0 (fun _ _ => False) a S ∧ ∀ v ∈ S, a.D v = δ v) ∧
      S.Nodup ∧ (∀ v ∈ S, v < g.numNodes ∧ δ v < INFINITY) ∧ (∀ u ∈ S, ∀ v, v ∉ S → δ u ≤ δ v) ∧
      (Z S x ∨ (K S x ∧ ∀ v, δ v < INFINITY → v ∈ S)) := by
  have hp := staticProb_ok (hg.linksOK hw) (zero_feasible _)
  have hcb := plainCb_ok (n := g.numNodes) (links := g.linkIter) (s := s) (τ := 0)
  let p := staticProb g.numNodes g.linkIter (fun _ => 0)
  have hF : ∀ {v x}, TWalk p.F s 0 v x ↔ Walk g.Arc s v x := by
    intro v x
    rw [static_walk]
    constructor
    · rintro ⟨d, h1, rfl⟩; rw [Nat.zero_add]; exact h1
    · intro h; exact ⟨x, h, by omega⟩
  have hre : ∀ v, p.Reach v := by intro v u a x _ _; show (0:Nat) < INFINITY; decide
  have hlo : ∀ v, p.lo s v = 0 := by intro v; unfold Prob.lo; split <;> rfl
  -- facts about a state of the search
  have hD : ∀ {a : Abs Unit} {S : List Nat}, DInv p s 0 (fun _ _ => False) a S → ∀ v ∈ S, a.D v = δ v := by
    intro a S hi v hv
    obtain ⟨_, h2, _⟩ := hi.sett v hv
    have h3 := (hδ v).le _ (hF.1 (hi.walk v h2))
    have h4 := settled_min hp hi hv (Prob.walkG (hre v) (hF.2 ((hδ v).sound (by omega))) (by omega)) (by omega) (by show (0:Nat) < INFINITY; decide)
    omega
  have hout : ∀ {a : Abs Unit} {S : List Nat}, DInv p s 0 (fun _ _ => False) a S → ∀ u, u ∉ S → δ u < INFINITY → ∃ y k, a.Q y = some k ∧ k ≤ δ u := by
    intro a S hi u hu hlt
    rcases frontier hp hi (Prob.walkG (hre u) (hF.2 ((hδ u).sound hlt)) hlt) hlt (by show (0:Nat) < INFINITY; decide) with ⟨h, _⟩ | ⟨y, k, h1, h2⟩
    · exact absurd h hu
    · exact ⟨y, k, h1, h2⟩
  have hsep : ∀ {a : Abs Unit} {S : List Nat}, DInv p s 0 (fun _ _ => False) a S → ∀ u ∈ S, ∀ v, v ∉ S → δ u ≤ δ v := by
    intro a S hi u hu v hv
    by_cases hlt : δ v < INFINITY
    · obtain ⟨y, k, h1, h2⟩ := hout hi v hv hlt
      have := hi.ord u hu y k h1
      rw [hlo, hD hi u hu] at this
      omega
    · have := (hδ u).ub; omega
  have hset : ∀ {a : Abs Unit} {S : List Nat} {v : Nat} {d : DData Unit}, DInv p s 0 (fun _ _ => False) a (v :: S) → Refines g.numNodes d a → v ∉ S →
      (∀ u, u ∉ v :: S → δ v ≤ δ u) → Settled g.numNodes δ S v d := by
    intro a S v d hi hr hv hab
    obtain ⟨h1, h2, _⟩ := hi.sett v (by simp)
    have h3 := hD hi v (by simp)
    refine ⟨h1, hv, by omega, by rw [hr.get h1, h3], ?_, ?_⟩
    · intro u hu
      have := hi.sorted
      rw [List.pairwise_cons] at this
      have := this.1 u hu
      rw [hlo, hlo, hD hi u (by simp [hu]), h3] at this
      omega
    · intro u hu
      by_cases huv : u = v
      · subst huv; omega
      · exact hab u (by simp [huv, hu])
  have hres : ∀ {a : Abs Unit} {S : List Nat} {d : DData Unit} {x : ξ}, DInv p s 0 (fun _ _ => False) a S → Refines g.numNodes d a →
      (Z S x ∨ (K S x ∧ ∀ v, a.Q v = none)) → ∃ a S', Refines g.numNodes d a ∧ (DInv p s 0 (fun _ _ => False) a S' ∧ ∀ v ∈ S', a.D v = δ v) ∧ S'.Nodup ∧ (∀ v ∈ S', v < g.numNodes ∧ δ v < INFINITY) ∧
      (∀ u ∈ S', ∀ v, v ∉ S' → δ u ≤ δ v) ∧ (Z S' x ∨ (K S' x ∧ ∀ v, δ v < INFINITY → v ∈ S')) := by
    intro a S d x hi hr h
    refine ⟨a, S, hr, ⟨hi, hD hi⟩, hi.nodup, fun v hv => ⟨(hi.sett v hv).1, by have := (hi.sett v hv).2.1; rw [hD hi v hv] at this; exact this⟩, hsep hi, ?_⟩
    rcases h with h | ⟨h1, h2⟩
    · exact .inl h
    · refine .inr ⟨h1, fun v hv => ?_⟩
      apply Classical.byContradiction
      intro hn
      obtain ⟨y, k, h3, _⟩ := hout hi v hn hv
      rw [h2] at h3; simp at h3
  have hloop : ∀ (fuel : Nat) (S : List Nat) (a : Abs Unit) (d : DData Unit) (x : ξ), g.numNodes < fuel + S.length → Refines g.numNodes d a →
      DInv p s 0 (fun _ _ => False) a S → K S x → ∃ d' x' a' S', visitLoop g.linkIter vis fuel d x = some (d', x') ∧ Refines g.numNodes d' a' ∧
      (DInv p s 0 (fun _ _ => False) a' S' ∧ ∀ v ∈ S', a'.D v = δ v) ∧ S'.Nodup ∧ (∀ v ∈ S', v < g.numNodes ∧ δ v < INFINITY) ∧ (∀ u ∈ S', ∀ v, v ∉ S' → δ u ≤ δ v) ∧ (Z S' x' ∨ (K S' x' ∧ ∀ v, δ v < INFINITY → v ∈ S')) := by
    intro fuel
    induction fuel with
    | zero =>
      intro S a d x hf hr hi _
      have := hi.length_le
      have h2 : p.n = g.numNodes := rfl
      omega
    | succ fuel ih =>
      intro S a d x hf hr hi hk
      rcases settle_spec hp hcb (c := ()) (d := d) (a := a) hr hi trivial with ⟨h1, h2⟩ | ⟨v, k, d', c', a', h1, h2, h3, h4, h5, h6, h7, h8, h9⟩
      · obtain ⟨a', S', e⟩ := hres hi hr (.inr ⟨hk, h2⟩)
        refine ⟨d, x, a', S', ?_, e⟩
        have h1' : settleNext g.linkIter defaultOps plainCb d () = some (none, d, ()) := h1
        simp [visitLoop, h1']
      · have h1' : settleNext g.linkIter defaultOps plainCb d () = some (some v, d', ()) := h1
        have hst := hset h3 h2 h8 (fun u hu => hsep h3 v (by simp) u hu)
        obtain ⟨x', b, e1, e2, e3⟩ := hvis S x v d' hk hi.nodup hst
        cases b with
        | true =>
          obtain ⟨a2, S', e⟩ := hres h3 h2 (.inl (e2 rfl))
          exact ⟨d', x', a2, S', by simp [visitLoop, h1', e1], e⟩
        | false =>
          obtain ⟨d2, x2, a2, S2, f1, f2⟩ := ih (v :: S) a' d' x' (by simp; omega) h2 h3 (e3 rfl)
          exact ⟨d2, x2, a2, S2, by simp [visitLoop, h1', e1, f1], f2⟩
  obtain ⟨d1, h1, _, d', c', a', h3, h4, h5, _⟩ := first_spec hp hcb (c := ()) hr hs (by decide) trivial
  have h3' : settleNext g.linkIter defaultOps plainCb d1 () = some (some s, d', ()) := h3
  have hst : Settled g.numNodes δ [] s d' := hset h5 h4 (by simp) (fun u hu => hsep h5 s (by simp) u hu)
  obtain ⟨x', b, e1, e2, e3⟩ := hvis [] x0 s d' h0 (by simp) hst
  cases b with
  | true =>
    obtain ⟨a2, S', e⟩ := hres h5 h4 (.inl (e2 rfl))
    exact ⟨d', x', a2, S', by simp [h1, visitLoop, h3', e1], e⟩
  | false =>
    obtain ⟨d2, x2, a2, S2, f1, f2⟩ := hloop g.numNodes [s] a' d' x' (by simp) h4 h5 (e3 rfl)
    exact ⟨d2, x2, a2, S2, by simp [h1, visitLoop, h3', e1, f1], f2⟩

theorem visit_spec {ξ : Type} {g : FOGraph} (hg : g.WF) (hw : g.Bounded) {s : Nat} (hs : s < g.numNodes) {δ : Nat → Nat} (hδ : ∀ v, CapMin (Walk g.Arc s v) (δ v))
    {vis : ξ → DData Unit → Nat → Option (ξ × Bool)} {K Z : List Nat → ξ → Prop}
    (hvis : ∀ S x v d, K S x → S.Nodup → Settled g.numNodes δ S v d →
      ∃ x' b, vis x d v = some (x', b) ∧ (b = true → Z (v :: S) x') ∧ (b = false → K (v :: S) x')) {d0 : DData Unit} {a0 : Abs Unit}
    (hr : Refines g.numNodes d0 a0) {x0 : ξ} (h0 : K [] x0) :
    ∃ d x a S, (do let d ← d0.init s 0; visitLoop g.linkIter vis (g.numNodes + 1) d x0) = some (d, x) ∧ Refines g.numNodes d a ∧
      S.Nodup ∧ (∀ v ∈ S, v < g.numNodes ∧ δ v < INFINITY) ∧ (∀ u ∈ S, ∀ v, v ∉ S → δ u ≤ δ v) ∧
      (Z S x ∨ (K S x ∧ ∀ v, δ v < INFINITY → v ∈ S)) := by
  obtain ⟨d, x, a, S, h1, h2, _, h3⟩ := visit_inv hg hw hs hδ hvis hr h0
  exact ⟨d, x, a, S, h1, h2, h3⟩

end DData
end Verif
