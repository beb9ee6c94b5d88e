import Verif.Proof.MinMax
set_option linter.unusedSimpArgs false
set_option linter.unusedVariables false
/- Property C88: bounds on travel times that get tighter once live traffic is over. -/
namespace Verif
open Spec CCH MinMax

/-- One direction of a hierarchy with bounds: well-formed arrays, arcs lead to ancestors in the elimination tree, the predicted upper bound is
not above the live one. -/
structure BoundedHierarchy (n : Nat) (tree : List (Option Nat)) (g : BGraph) : Prop where
  wf : (g.proj Bounds.lower).WF
  nodes : g.firstOut.length = n + 1
  up : ∀ u v b, BArc g u v b → u < v ∧ Anc (fun x => (tree[x]?).getD none) u v
  small : ∀ u v b, BArc g u v b → b.lower ≤ INFINITY ∧ b.liveUpper ≤ INFINITY ∧ b.predictedUpper ≤ b.liveUpper

private theorem BoundedHierarchy.dok {n : Nat} {tree : List (Option Nat)} {g : BGraph} (h : BoundedHierarchy n tree g) : DOK n tree g := by
  refine ⟨⟨h.wf, ?_, ?_, ?_, ?_⟩, fun u v b hb => ⟨(h.small u v b hb).1, (h.small u v b hb).2.1, (h.small u v b hb).2.2⟩⟩
  · have := h.nodes; simp only [FOGraph.numNodes, BGraph.proj]; omega
  · intro u v w ha; obtain ⟨b, h1, _⟩ := arc_proj.1 ha; exact (h.up u v b h1).1
  · intro u v w ha; obtain ⟨b, h1, _⟩ := arc_proj.1 ha; exact (h.up u v b h1).2
  · intro u v w ha; obtain ⟨b, h1, rfl⟩ := arc_proj.1 ha; exact (h.small u v b h1).1

/-- A call within the graph, with a departure that is not before `now` and does not overflow. -/
def CallOK (n now : Nat) : IntervalCall → Prop
  | .start s t => s < n ∧ now ≤ t ∧ t ≤ INFINITY
  | .ask v => v < n

/-- **C88.** Any history of starts and questions is answered without a panic, and every answer bounds the travel times from the source and
departure of the last start. `htrips`: the bounds of every arc hold, the live ones from `now` on and the predicted ones from their time on.
`hcov`: for every trip there is an up-down path whose lower bounds it does not beat. -/
theorem C88_interval (n : Nat) (tree : List (Option Nat)) (hlen : tree.length = n) (htree : ∀ x p : Nat, tree[x]? = some (some p) → x < p ∧ p < n)
    (fw bw : BGraph) (hF : BoundedHierarchy n tree fw) (hB : BoundedHierarchy n tree bw)
    (trip : Nat → Nat → Nat → Nat → Prop) (htr : Traffic trip) (hstay : ∀ x t, trip x x t t) (now : Nat)
    (hfw : ∀ u v b, BArc fw u v b → Means trip now u v b) (hbw : ∀ u v b, BArc bw u v b → Means trip now v u b)
    (hcov : ∀ s v t a, s < n → v < n → now ≤ t → trip s v t a →
      ∃ d, UpDown (fw.proj Bounds.lower).Arc (bw.proj Bounds.lower).Arc s v d ∧ t + d ≤ a)
    (source departure : Nat) (cs : List IntervalCall) (hcs : ∀ c ∈ IntervalCall.start source departure :: cs, CallOK n now c) :
    ∃ outs, run fw bw tree (State.new n) (.start source departure :: cs) = some outs ∧
      List.Forall₂ (fun q o => IntervalOK trip (UpDown (fw.proj Bounds.lower).Arc (bw.proj Bounds.lower).Arc)
        (UpDown (fw.proj Bounds.liveUpper).Arc (bw.proj Bounds.liveUpper).Arc) q.1.1 q.1.2 q.2 o) (intervalsAsked source departure cs) outs := by
  have ht : TreeOK n tree := ⟨hlen, by
    intro x p hp
    apply htree
    unfold par at hp
    cases h : tree[x]? with
    | none => rw [h] at hp; exact nomatch hp
    | some o => rw [h] at hp; simp at hp; rw [hp]⟩
  have key : ∀ (cs : List IntervalCall), (∀ c ∈ cs, CallOK n now c) → ∀ (s t : Nat) (S : State) (s1 s2 : PotState), s < n → now ≤ t → t ≤ INFINITY →
      Full n tree fw bw trip s t S s1 s2 → ∃ outs, run fw bw tree S cs = some outs ∧
      List.Forall₂ (fun q o => IntervalOK trip (UpDown (fw.proj Bounds.lower).Arc (bw.proj Bounds.lower).Arc)
        (UpDown (fw.proj Bounds.liveUpper).Arc (bw.proj Bounds.liveUpper).Arc) q.1.1 q.1.2 q.2 o) (intervalsAsked s t cs) outs := by
    intro cs
    induction cs with
    | nil => intro _ s t S s1 s2 _ _ _ _; exact ⟨[], rfl, .nil⟩
    | cons c cs ih =>
      intro hc s t S s1 s2 hs hn hd hS
      have hc0 := hc c List.mem_cons_self
      have hc' : ∀ c ∈ cs, CallOK n now c := fun c' h' => hc c' (List.mem_cons_of_mem _ h')
      cases c with
      | start s' t' =>
        obtain ⟨k1, k2, k3⟩ := hc0
        obtain ⟨S', s1', s2', e1, e2⟩ := init_sim (B := bw) ht hF.dok htr hstay k2 k3 hfw hS.fresh k1
        obtain ⟨outs, e3, e4⟩ := ih hc' s' t' S' s1' s2' k1 k2 k3 e2
        exact ⟨outs, by simp only [run, e1, Option.bind_eq_bind, Option.bind_some]; exact e3, e4⟩
      | ask v =>
        have hv : v < n := hc0
        obtain ⟨S', s1', s2', c, e1, e2, e3, e4, d, e5, e6⟩ := potential_sim ht hB.dok htr hn hd hbw hS hv
        obtain ⟨outs, e7, e8⟩ := ih hc' s t S' s1' s2' hs hn hd e2
        refine ⟨(if c.1 < INFINITY then some c else none) :: outs, by simp only [run, e1, e7, Option.bind_eq_bind, Option.bind_some, Option.pure_def], .cons ?_ e8⟩
        refine ⟨?_, ?_, ?_, ?_⟩
        · intro a ha hlt
          obtain ⟨d', h1, h2⟩ := hcov s v t a hs hv hn ha
          have := e4.le d' h1
          simp only at *
          refine ⟨c.1, c.2, ?_, by omega⟩
          rw [if_pos (by omega)]
        · intro lo up ho hup
          split at ho
          · simp only [Option.some.injEq] at ho; subst ho; exact e3.way hup
          · exact nomatch ho
        · intro lo up ho
          split at ho
          · rename_i hlt; simp only [Option.some.injEq] at ho; subst ho; exact ⟨hlt, e4.sound hlt⟩
          · exact nomatch ho
        · intro d' hd' hlt
          have := e5.le d' hd'
          obtain ⟨a, _, h1, h2⟩ := e3.way (by omega)
          refine ⟨c.1, c.2, ?_, by omega⟩
          rw [if_pos (by omega)]
  obtain ⟨k1, k2, k3⟩ := hcs _ List.mem_cons_self
  obtain ⟨S', s1', s2', e1, e2⟩ := init_sim (B := bw) ht hF.dok htr hstay k2 k3 hfw fresh_new k1
  obtain ⟨outs, e3, e4⟩ := key cs (fun c' h' => hcs c' (List.mem_cons_of_mem _ h')) source departure S' s1' s2' k1 k2 k3 e2
  exact ⟨outs, by simp only [run, e1, Option.bind_eq_bind, Option.bind_some]; exact e3, e4⟩

/-! ### An example: from 0 up to 2 and down to 1 -/

namespace MinMaxExample

def fw : BGraph := ⟨[0, 1, 1, 1], [2], [⟨5, 9, 7, 100⟩]⟩
def bw : BGraph := ⟨[0, 0, 1, 1], [2], [⟨3, 8, 4, 50⟩]⟩
def tree : List (Option Nat) := [some 2, some 2, none]

/-- leaving at 48 the prediction holds on the second arc: nobody gets there before 53 -/
example : run fw bw tree (State.new 3) [.start 0 48, .ask 1, .ask 2, .start 0 40, .ask 1, .start 0 100, .ask 0, .ask 1, .start 1 40, .ask 0] =
    some [some (8, 13), some (5, 9), some (8, 17), some (0, 0), some (8, 11), none] := by decide

def A (x y w : Nat) : Prop := (x = 0 ∧ y = 2 ∧ w = 5) ∨ (x = 2 ∧ y = 1 ∧ w = 4)
/-- traffic in which the first arc takes 5 and the second one 4 -/
def trip (x y t a : Nat) : Prop := ∃ d, Walk A x y d ∧ a = t + d

theorem fwArc {u v : Nat} {b : Bounds} : BArc fw u v b ↔ u = 0 ∧ v = 2 ∧ b = ⟨5, 9, 7, 100⟩ := by
  unfold BArc BGraph.links fw
  rcases u with _ | _ | _ | u <;> simp [slice]
theorem bwArc {u v : Nat} {b : Bounds} : BArc bw u v b ↔ u = 1 ∧ v = 2 ∧ b = ⟨3, 8, 4, 50⟩ := by
  unfold BArc BGraph.links bw
  rcases u with _ | _ | _ | u <;> simp [slice]

/-- The hypotheses can be met. -/
example : ∃ outs, run fw bw tree (State.new 3) [.start 0 48, .ask 1] = some outs ∧ List.Forall₂ (fun q o => IntervalOK trip
    (UpDown (fw.proj Bounds.lower).Arc (bw.proj Bounds.lower).Arc) (UpDown (fw.proj Bounds.liveUpper).Arc (bw.proj Bounds.liveUpper).Arc) q.1.1 q.1.2 q.2 o)
    [((0, 48), 1)] outs := by
  have anc : ∀ x, x < 2 → Anc (fun x => (tree[x]?).getD none) x 2 := by
    intro x hx
    refine .step (p := 2) ?_ (.refl 2)
    have : x = 0 ∨ x = 1 := by omega
    rcases this with rfl | rfl <;> rfl
  apply C88_interval 3 tree rfl ?_ fw bw ?_ ?_ trip ?_ ?_ 10 ?_ ?_ ?_ 0 48 [.ask 1] ?_
  · intro x p h
    rcases x with _ | _ | _ | x <;> simp [tree] at h <;> omega
  · refine ⟨⟨by decide, rfl, rfl, rfl, ?_, by decide⟩, rfl, ?_, ?_⟩
    · intro i a b h1 h2
      simp only [fw, BGraph.proj] at h1 h2
      rcases i with _ | _ | _ | i <;> simp at h1 h2 <;> omega
    · intro u v b h; obtain ⟨rfl, rfl, rfl⟩ := fwArc.1 h; exact ⟨by omega, anc 0 (by omega)⟩
    · intro u v b h; obtain ⟨rfl, rfl, rfl⟩ := fwArc.1 h; decide
  · refine ⟨⟨by decide, rfl, rfl, rfl, ?_, by decide⟩, rfl, ?_, ?_⟩
    · intro i a b h1 h2
      simp only [bw, BGraph.proj] at h1 h2
      rcases i with _ | _ | _ | i <;> simp at h1 h2 <;> omega
    · intro u v b h; obtain ⟨rfl, rfl, rfl⟩ := bwArc.1 h; exact ⟨by omega, anc 1 (by omega)⟩
    · intro u v b h; obtain ⟨rfl, rfl, rfl⟩ := bwArc.1 h; decide
  · constructor
    · rintro x y t a ⟨d, _, rfl⟩; omega
    · rintro x y z t a b ⟨d, h1, rfl⟩ ⟨e, h2, rfl⟩; exact ⟨d + e, h1.append h2, by omega⟩
  · intro x t; exact ⟨0, .nil x, rfl⟩
  · intro u v b h
    obtain ⟨rfl, rfl, rfl⟩ := fwArc.1 h
    have : ∀ t, trip 0 2 t (t + 5) := fun t => ⟨5 + 0, .cons (.inl ⟨rfl, rfl, rfl⟩) (.nil 2), rfl⟩
    exact ⟨fun _ t _ => ⟨t + 5, this t, by simp, by simp⟩, fun _ t _ => ⟨t + 5, this t, by simp, by simp⟩⟩
  · intro u v b h
    obtain ⟨rfl, rfl, rfl⟩ := bwArc.1 h
    have : ∀ t, trip 2 1 t (t + 4) := fun t => ⟨4 + 0, .cons (.inr ⟨rfl, rfl, rfl⟩) (.nil 1), rfl⟩
    exact ⟨fun _ t _ => ⟨t + 4, this t, by simp, by simp⟩, fun _ t _ => ⟨t + 4, this t, by simp, by simp⟩⟩
  · rintro s v t a _ _ _ ⟨d, hw, rfl⟩
    have f1 : UpWalk (fw.proj Bounds.lower).Arc 0 2 (5 + 0) := .cons (arc_proj.2 ⟨_, fwArc.2 ⟨rfl, rfl, rfl⟩, rfl⟩) (by omega) (.nil 2)
    have b1 : UpWalk (bw.proj Bounds.lower).Arc 1 2 (3 + 0) := .cons (arc_proj.2 ⟨_, bwArc.2 ⟨rfl, rfl, rfl⟩, rfl⟩) (by omega) (.nil 2)
    cases hw with
    | nil => exact ⟨0, ⟨s, 0, 0, .nil s, .nil s, rfl⟩, by omega⟩
    | cons ha hw =>
      rcases ha with ⟨rfl, rfl, rfl⟩ | ⟨rfl, rfl, rfl⟩
      · cases hw with
        | nil => exact ⟨5, ⟨2, 5, 0, f1, .nil 2, rfl⟩, by omega⟩
        | cons ha hw =>
          rcases ha with ⟨h, _⟩ | ⟨_, rfl, rfl⟩
          · omega
          · cases hw with
            | nil => exact ⟨8, ⟨2, 5, 3, f1, b1, rfl⟩, by omega⟩
            | cons ha hw => rcases ha with ⟨h, _⟩ | ⟨h, _⟩ <;> omega
      · cases hw with
        | nil => exact ⟨3, ⟨2, 0, 3, .nil 2, b1, rfl⟩, by omega⟩
        | cons ha hw => rcases ha with ⟨h, _⟩ | ⟨h, _⟩ <;> omega
  · intro c hc
    simp at hc
    rcases hc with rfl | rfl
    · exact ⟨by omega, by omega, by decide⟩
    · show 1 < 3; omega

end MinMaxExample
end Verif
