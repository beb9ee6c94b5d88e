import Verif.Proof.FtdInit
set_option linter.unusedSimpArgs false
set_option linter.unusedVariables false
/- Bounds and what shortcuts stand for. -/
namespace Verif.Ftd
open Spec Fl Catchup

variable {c : Cfg} {arcs : List (Nat × Nat)} {roads : List (Nat × Nat × (Rat → Rat))} {fwd bwd : List (List Nat)} {n : Nat} {par : Nat → Option Nat}

/-- roads of arcs -/
theorem road_of (hr : RoadsOK roads c.ttf arcs fwd bwd) {dir : Bool} {i e : Nat} {es : List Nat} {r : Nat × Nat × (Rat → Rat)} (h : (side (fwd, bwd) dir)[i]? = some es) (he : e ∈ es)
    (hre : roads[e]? = some r) : ∃ a p, arcs[i]? = some a ∧ origOf fwd bwd dir i = some e ∧ c.ttf e = some p ∧ ∀ t, r.2.2 t = fn p t := by
  obtain ⟨h1, h2⟩ := roads_list hr dir i es h
  obtain ⟨r', a, _, h4, _⟩ := h2 e he
  obtain ⟨p, q1, _, q3⟩ := roads_fn hr e r hre
  refine ⟨a, p, h4, ?_, q1, q3⟩
  unfold origOf
  rw [h]
  match es, he, h1 with
  | [e'], he, _ => simp at he; rw [he]; rfl
  | _ :: _ :: _, _, h1 => simp at h1

theorem stands_low (hr : RoadsOK roads c.ttf arcs fwd bwd) {R : Network} {L U P : Bool → Nat → Rat} (hF : Facts c R arcs (origOf fwd bwd) L U P) {dir : Bool} {i : Nat} {τ y : Rat}
    (h : StandsFor roads arcs fwd bwd dir i τ y) : τ + L dir i ≤ y := by
  induction h with
  | @up i e es r τ h1 h2 h3 =>
    obtain ⟨a, p, q1, q2, q3, q4⟩ := road_of hr (dir := true) h1 h2 h3
    have := hF.lroad true i a e p q1 q2 q3 τ
    rw [q4]; linarith
  | @down i e es r τ h1 h2 h3 =>
    obtain ⟨a, p, q1, q2, q3, q4⟩ := road_of hr (dir := false) h1 h2 h3
    have := hF.lroad false i a e p q1 q2 q3 τ
    rw [q4]; linarith
  | @triangle dir i d u z a τ x y h1 h2 h3 _ _ ih1 ih2 =>
    have := hF.ltri dir i d u z a h1 h2 h3
    linarith

/-- constant arcs stand for something with their travel time -/
theorem stands_const (hT : HierarchyOK arcs n par) (hr : RoadsOK roads c.ttf arcs fwd bwd) {R : Network} {L U P : Bool → Nat → Rat} (hF : Facts c R arcs (origOf fwd bwd) L U P) :
    ∀ (i : Nat) (a : Nat × Nat), arcs[i]? = some a → ∀ dir, U dir i = L dir i → L dir i < INF → ∀ τ, StandsFor roads arcs fwd bwd dir i τ (τ + L dir i) := by
  refine arc_induction (arcs := arcs) (Q := fun i => ∀ dir, U dir i = L dir i → L dir i < INF → ∀ τ, StandsFor roads arcs fwd bwd dir i τ (τ + L dir i)) ?_
  intro i a ha ih dir hUL hlt τ
  rcases hF.att dir i a ha (by rw [hUL]; exact hlt) with ⟨e, p, e1, e2, e3⟩ | ⟨d, u, z, e1, e2, e3⟩
  · have hlo := hF.lroad dir i a e p ha e1 e2 τ
    have hup := e3 τ
    have heq : fn p τ = L dir i := by linarith
    rw [← heq]
    unfold origOf at e1
    rw [Option.bind_eq_some_iff] at e1
    obtain ⟨es, q1, q2⟩ := e1
    have hm := List.mem_of_mem_head? q2
    obtain ⟨r, a', q3, _⟩ := (roads_list hr dir i es q1).2 e hm
    obtain ⟨p', q4, _, q5⟩ := roads_fn hr e r q3
    rw [e2] at q4; injection q4 with q4; subst q4
    rw [← q5]
    cases dir
    · exact .down q1 hm q3
    · exact .up q1 hm q3
  · have l1 := hF.lu false d _ e1
    have l2 := hF.lu true u _ e2
    have l3 := hF.ltri dir i d u z a ha e1 e2
    have z1 := hF.lo0 false d _ e1
    have z2 := hF.lo0 true u _ e2
    have hz := leg_lt hT (hT.up _ _ ha).1 e1 e2
    have hsum : L dir i = L false d + L true u := by linarith
    rw [hsum, ← add_assoc]
    exact .triangle ha e1 e2 (ih d _ e1 (by simp only; omega) false (by linarith) (by linarith) τ) (ih u _ e2 (by simp only; omega) true (by linarith) (by linarith) _)

end Verif.Ftd
