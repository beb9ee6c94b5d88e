import Verif.Proof.FtdPreOK
set_option linter.unusedSimpArgs false
set_option linter.unusedVariables false
/- Shortcuts made from the roads. -/
namespace Verif.Ftd
open Spec Fl Catchup

theorem mapM_some {α β : Type} {f : α → Option β} : ∀ {l : List α}, (∀ x ∈ l, ∃ y, f x = some y) → ∃ L, l.mapM f = some L ∧ L.length = l.length ∧
    ∀ (k : Nat) (x : α), l[k]? = some x → ∃ y, f x = some y ∧ L[k]? = some y
  | [], _ => ⟨[], rfl, rfl, fun k x h => by simp at h⟩
  | a :: l, h => by
    obtain ⟨y, hy⟩ := h a (by simp)
    obtain ⟨L, h1, h2, h3⟩ := mapM_some (l := l) (fun x hx => h x (by simp [hx]))
    refine ⟨y :: L, by simp [List.mapM_cons, hy, h1], by simp [h2], ?_⟩
    intro k x hk
    cases k with
    | zero => simp at hk; subst hk; exact ⟨y, hy, rfl⟩
    | succ k => simp at hk; simpa using h3 k x hk

/-- the road of an arc -/
def origOf (fwd bwd : List (List Nat)) (dir : Bool) (i : Nat) : Option Nat := ((side (fwd, bwd) dir)[i]?).bind List.head?

variable {c : Cfg} {arcs : List (Nat × Nat)} {roads : List (Nat × Nat × (Rat → Rat))} {fwd bwd : List (List Nat)}

theorem roads_list (hr : RoadsOK roads c.ttf arcs fwd bwd) : ∀ (dir : Bool) (i : Nat) (es : List Nat), (side (fwd, bwd) dir)[i]? = some es → es.length ≤ 1 ∧
      ∀ e ∈ es, ∃ r a, roads[e]? = some r ∧ arcs[i]? = some a ∧ r.1 = a0 dir a ∧ r.2.1 = a1 dir a := by
  intro dir i es h
  cases dir with
  | true => exact hr.upward i es h
  | false => exact hr.downward i es h

theorem roads_fn (hr : RoadsOK roads c.ttf arcs fwd bwd) : ∀ (e : Nat) (r : Nat × Nat × (Rat → Rat)), roads[e]? = some r → ∃ p, c.ttf e = some p ∧ ValidTtf p ∧ ∀ t, r.2.2 t = fn p t := by
  intro e r h
  obtain ⟨p, q1, q2, q3⟩ := hr.road e r h
  exact ⟨p, q1, q2, fun t => (fn_iff q2).1 (q3 t)⟩

theorem init_ok (hr : RoadsOK roads c.ttf arcs fwd bwd) : ∃ l1 l0, applyWeights c.ttf fwd = some l1 ∧ applyWeights c.ttf bwd = some l0 ∧ InitOK c (roadNet roads) arcs (origOf fwd bwd) (l1, l0) := by
  have hlist := roads_list hr
  have hro := roads_fn hr
  have happ : ∀ (dir : Bool), ∃ l, applyWeights c.ttf (side (fwd, bwd) dir) = some l ∧ l.length = arcs.length ∧
      ∀ (i : Nat) (s : Shortcut), l[i]? = some s → newShortcut c.ttf (origOf fwd bwd dir i) = some s := by
    intro dir
    unfold applyWeights
    have hone : ∀ (i : Nat) (es : List Nat), (side (fwd, bwd) dir)[i]? = some es → ∃ s, newShortcut c.ttf es.head? = some s ∧
        (match es with
          | [] => newShortcut c.ttf none
          | [e] => newShortcut c.ttf (some e)
          | _ => none) = some s := by
      intro i es hi
      obtain ⟨h1, h2⟩ := hlist dir i es hi
      match es, h1, h2 with
      | [], _, _ => exact ⟨_, rfl, rfl⟩
      | [e], _, h2 =>
        obtain ⟨r, a, h3, h4, _⟩ := h2 e (by simp)
        obtain ⟨p, q1, q2, _⟩ := hr.road e r h3
        obtain ⟨lo, up, l1, l2, _⟩ := bounds q2
        have : newShortcut c.ttf (some e) = some ⟨[(0, .orig e)], none, lo, up, false, true⟩ := by
          simp only [newShortcut, q1, l1, l2, Option.bind_eq_bind, Option.bind_some]
        exact ⟨_, this, this⟩
      | _ :: _ :: _, h1, _ => simp at h1
    obtain ⟨L, h1, h2, h3⟩ := mapM_some (l := side (fwd, bwd) dir) (f := fun es => (match es with
          | [] => newShortcut c.ttf none
          | [e] => newShortcut c.ttf (some e)
          | _ => none)) (by
      intro es hes
      obtain ⟨i, hi⟩ := List.mem_iff_getElem?.1 hes
      obtain ⟨s, _, h⟩ := hone i es hi
      exact ⟨s, h⟩)
    refine ⟨L, h1, ?_, ?_⟩
    · rw [h2]; cases dir
      · exact hr.len.2
      · exact hr.len.1
    · intro i s hs
      have hl : i < (side (fwd, bwd) dir).length := by rw [← h2]; exact (List.getElem?_eq_some_iff.1 hs).1
      have hi := List.getElem?_eq_getElem hl
      obtain ⟨y, q1, q2⟩ := h3 i _ hi
      rw [hs] at q2; injection q2 with q2; subst q2
      obtain ⟨s', r1, r2⟩ := hone i _ hi
      rw [r2] at q1; injection q1 with q1; subst q1
      simp only [origOf, hi, Option.bind_some]
      exact r1
  obtain ⟨l1, w1, w2, w3⟩ := happ true
  obtain ⟨l0, v1, v2, v3⟩ := happ false
  refine ⟨l1, l0, w1, v1, ?_⟩
  constructor
  · intro dir; cases dir
    · exact v2
    · exact w2
  · intro dir i s hs
    cases dir
    · exact v3 i s hs
    · exact w3 i s hs
  · intro dir i a e ha ho
    simp only [origOf, Option.bind_eq_some_iff] at ho
    obtain ⟨es, h1, h2⟩ := ho
    obtain ⟨r, a', q1, q2, q3, q4⟩ := (hlist dir i es h1).2 e (List.mem_of_mem_head? h2)
    rw [ha] at q2; injection q2 with q2; subst q2
    obtain ⟨p, p1, p2, p3⟩ := hro e r q1
    exact ⟨p, p1, p2, fun t => ⟨r, List.mem_of_getElem? q1, q3, q4, by rw [p3]⟩⟩

theorem modest {W : Bool → Nat → Rat} (h : TimesBelow INF c.ttf arcs fwd bwd W) : Modest c arcs (origOf fwd bwd) W := by
  refine ⟨h.below, ?_, h.triangle⟩
  intro dir i e p ho hp q hq
  simp only [origOf, Option.bind_eq_some_iff] at ho
  obtain ⟨es, h1, h2⟩ := ho
  cases dir
  · exact h.downward i e es p h1 (List.mem_of_mem_head? h2) hp q hq
  · exact h.upward i e es p h1 (List.mem_of_mem_head? h2) hp q hq

/-- the state before the main customization -/
theorem before_main {n : Nat} {par : Nat → Option Nat} (htl : c.tl = Tol.exact) (hT : HierarchyOK arcs n par) {R : Network} {init : Both} (hI : InitOK c R arcs (origOf fwd bwd) init)
    (hpre : PreReady c.pre c.ttf arcs fwd bwd) : ∃ L st, prepare c arcs n init = some st ∧ PreOK c R arcs (origOf fwd bwd) L st := by
  unfold prepare
  rcases Bool.eq_false_or_eq_true c.pre with h | h
  · obtain ⟨h1, W, h2⟩ := hpre h
    have he : c.tl.eps = 0 := by rw [htl]; rfl
    rw [if_pos h, he]
    exact preOK_pre hT h1 h hI (modest h2)
  · rw [if_neg (by simp [h])]
    exact ⟨_, init, rfl, preOK_none h hI⟩

end Verif.Ftd
