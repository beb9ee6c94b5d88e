import Verif.Proof.FixSubPathsLoop
import Verif.Proof.CCHPath
set_option linter.unusedSimpArgs false
set_option linter.unusedVariables false
/- Paths without violations. -/
namespace Verif.Traffic
open Spec UBS CCH

variable {A : Nat → Nat → Nat → Prop}

theorem cut {p : List Nat} {r : Rng} {D x y : Nat} (h : PathOf A p D) (h1 : r.start < r.stop) (hx : p[r.start]? = some x) (hy : p[r.stop]? = some y) :
    ∃ d1 l d2, PathOf A (p.take r.start ++ [x]) d1 ∧ PathOf A (subPath p r) l ∧ PathOf A (y :: p.drop (r.stop + 1)) d2 ∧ D = d1 + l + d2 := by
  have e1 : p = p.take r.stop ++ y :: p.drop (r.stop + 1) := by
    have := (List.getElem?_eq_some_iff.1 hy)
    obtain ⟨h2, rfl⟩ := this
    simp
  rw [e1] at h
  obtain ⟨d1, d2, k1, k2, k3⟩ := PathOf.split h
  rw [← take_succ hy] at k1
  rw [take_stop hx h1] at k1
  obtain ⟨d3, d4, k4, k5, k6⟩ := PathOf.split k1
  exact ⟨d3, d4, d2, k4, by rw [subPath_cons hx]; exact k5, k2, by omega⟩

theorem pathWalk {p : List Nat} {d s t : Nat} (h : PathOf A p d) (hs : p.head? = some s) (ht : p.getLast? = some t) : Walk A s t d := by
  obtain ⟨s', t', h1, h2, h3⟩ := h.walk
  rw [hs] at h1
  rw [ht] at h2
  injection h1 with h1
  injection h2 with h2
  subst h1 h2
  exact h3

theorem walkPath {s t d : Nat} (h : Walk A s t d) : ∃ p, PathOf A p d ∧ p.head? = some s ∧ p.getLast? = some t := by
  induction h with
  | nil u => exact ⟨[u], .single u, rfl, rfl⟩
  | @cons u v t w d hA _ ih =>
    obtain ⟨p, h1, h2, h3⟩ := ih
    cases p with
    | nil => simp at h2
    | cons x p =>
      simp at h2
      subst h2
      exact ⟨u :: x :: p, .cons hA h1, rfl, by simpa using h3⟩

/-- replacing a part of a shortest path -/
theorem cut_walk {p : List Nat} {r : Rng} {D x y s t d : Nat} (h : PathOf A p D) (hs : p.head? = some s) (ht : p.getLast? = some t) (h1 : r.start < r.stop)
    (hx : p[r.start]? = some x) (hy : p[r.stop]? = some y) (hw : Walk A x y d) : ∃ d1 l d2, PathOf A (subPath p r) l ∧ D = d1 + l + d2 ∧ Walk A s t (d1 + d + d2) := by
  obtain ⟨d1, l, d2, k1, k2, k3, k4⟩ := cut h h1 hx hy
  refine ⟨d1, l, d2, k2, k4, ?_⟩
  have w1 : Walk A s x d1 := pathWalk k1 (by
    cases p with
    | nil => simp at hs
    | cons a p =>
      simp at hs
      subst hs
      cases hr : r.start with
      | zero => rw [hr] at hx; simp at hx; simp [hx]
      | succ k => simp) (by simp)
  have w2 : Walk A y t d2 := pathWalk k3 rfl (by
    rw [← ht]
    have hl := (List.getElem?_eq_some_iff.1 hy).1
    have e1 : p = p.take r.stop ++ y :: p.drop (r.stop + 1) := by
      obtain ⟨h2, rfl⟩ := (List.getElem?_eq_some_iff.1 hy)
      simp
    conv_rhs => rw [e1]
    rw [List.getLast?_append_of_ne_nil _ (by simp)])
  exact (w1.append hw).append w2

theorem subPath_two {p : List Nat} {r : Rng} (h1 : r.start < r.stop) (h2 : r.stop < p.length) : 2 ≤ (subPath p r).length := by
  simp only [subPath, List.length_take, List.length_drop]
  omega

theorem pathOf_pos (hpos : ∀ u v w, A u v w → 0 < w) {p : List Nat} {l : Nat} (h : PathOf A p l) : p.length ≤ l + 1 := by
  induction h with
  | single u => simp
  | cons ha _ ih => have := hpos _ _ _ ha; simp only [List.length_cons] at ih ⊢; omega

/-- A shortest path has no violations. -/
theorem exists_good (hpos : ∀ u v w, A u v w → 0 < w) {s t d : Nat} (h : Walk A s t d) (thr : Nat → Nat) :
    ∃ p l, PathOf A p l ∧ p.head? = some s ∧ p.getLast? = some t ∧ NoViolation A thr p := by
  obtain ⟨D, _, hD⟩ := exists_isDist h
  obtain ⟨p, h1, h2, h3⟩ := walkPath hD.1
  refine ⟨p, D, h1, h2, h3, ?_, ?_⟩
  · by_contra hn
    obtain ⟨r, e1, v, e2, e3, -⟩ := exists_loop hn
    obtain ⟨d1, l, d2, k1, k2, k3⟩ := cut_walk h1 h2 h3 e1 e2 e3 (.nil v)
    have := hD.2 _ k3
    have := pathOf_pos hpos k1
    have := subPath_two e1 (List.getElem?_eq_some_iff.1 e3).1
    omega
  · rintro r ⟨e1, x, y, len, d, e2, e3, e4, e5, e6⟩
    obtain ⟨d1, l, d2, k1, k2, k3⟩ := cut_walk h1 h2 h3 e1 e2 e3 e5.1
    have := hD.2 _ k3
    have := e4.2 _ k1
    omega

/-- the same nodes in another graph -/
theorem transfer {A' : Nat → Nat → Nat → Prop} {B : Nat} (h : ∀ u v w, A u v w → ∃ w', A' u v w' ∧ w' ≤ B) {p : List Nat} {d : Nat} (hp : PathOf A p d) :
    ∃ d', PathOf A' p d' ∧ d' ≤ (p.length - 1) * B := by
  induction hp with
  | single u => exact ⟨0, .single u, by simp⟩
  | @cons u v w d p ha _ ih =>
    obtain ⟨d', h1, h2⟩ := ih
    obtain ⟨w', h3, h4⟩ := h u v w ha
    refine ⟨w' + d', .cons h3 h1, ?_⟩
    simp only [List.length_cons, Nat.add_sub_cancel] at h2 ⊢
    rw [Nat.succ_mul]
    omega

theorem nodup_len {p : List Nat} {n : Nat} (h : p.Nodup) (hn : ∀ v ∈ p, v < n) : p.length ≤ n := by
  have := (List.subperm_of_subset h (fun x hx => List.mem_range.2 (hn x hx))).length_le
  simpa using this

theorem subPath_infix (p : List Nat) (r : Rng) : subPath p r <:+: p := (List.take_prefix _ _).isInfix.trans (List.drop_suffix _ _).isInfix

/-- every path with this part has a violation -/
def Bad (A : Nat → Nat → Nat → Prop) (thr : Nat → Nat) (f : List Nat) : Prop := ∀ q, f <:+: q → ¬ NoViolation A thr q

theorem tooLong_bad {thr : Nat → Nat} {p : List Nat} {r : Rng} (h : TooLong A thr p r) : Bad A thr (subPath p r) := by
  rintro q ⟨X, Y, rfl⟩ ⟨-, hq⟩
  obtain ⟨h1, x, y, len, d, h2, h3, h4, h5, h6⟩ := h
  have hl : (subPath p r).length = r.stop - r.start + 1 := by
    have := (List.getElem?_eq_some_iff.1 h3).1
    simp only [subPath, List.length_take, List.length_drop]
    omega
  have hg : ∀ i, i ≤ r.stop - r.start → (X ++ subPath p r ++ Y)[X.length + i]? = p[r.start + i]? := by
    intro i hi
    rw [List.append_assoc, List.getElem?_append_right (by omega), List.getElem?_append_left (by omega)]
    unfold subPath
    rw [List.getElem?_take_of_lt (by omega), List.getElem?_drop]
    congr 1
    omega
  refine hq ⟨X.length, X.length + (r.stop - r.start)⟩ ⟨by simp only; omega, x, y, len, d, ?_, ?_, ?_, h5, h6⟩
  · have := hg 0 (by omega)
    simpa [h2] using this
  · have := hg (r.stop - r.start) (by omega)
    rw [show r.start + (r.stop - r.start) = r.stop from by omega, h3] at this
    exact this
  · have : subPath (X ++ subPath p r ++ Y) ⟨X.length, X.length + (r.stop - r.start)⟩ = subPath p r := by
      generalize subPath p r = f at hl
      unfold subPath
      simp only [Nat.add_sub_cancel_left]
      rw [List.append_assoc, List.drop_left, ← hl, List.take_left]
    rw [this]
    exact h4

theorem loop_closed {p : List Nat} {r : Rng} (h : Loop p r) : ∃ v m, subPath p r = v :: (m ++ [v]) ∧ v ∉ m := by
  obtain ⟨h1, v, h2, h3, h4⟩ := h
  have hl := (List.getElem?_eq_some_iff.1 h3).1
  refine ⟨v, (p.drop (r.start + 1)).take (r.stop - r.start - 1), ?_, ?_⟩
  · rw [subPath_cons h2, show r.stop - r.start = r.stop - r.start - 1 + 1 from by omega, List.take_succ]
    simp only [Nat.add_sub_cancel, List.getElem?_drop]
    rw [show r.start + 1 + (r.stop - r.start - 1) = r.stop from by omega, h3]
    simp
  · intro hm
    obtain ⟨i, hi⟩ := List.mem_iff_getElem?.1 hm
    have hlt := (List.getElem?_eq_some_iff.1 hi).1
    simp only [List.length_take, List.length_drop] at hlt
    rw [List.getElem?_take_of_lt (by omega), List.getElem?_drop] at hi
    exact h4 _ (by omega) (by omega) hi

theorem loop_bad {thr : Nat → Nat} {p : List Nat} {r : Rng} (h : Loop p r) : Bad A thr (subPath p r) := by
  obtain ⟨v, m, h1, h2⟩ := loop_closed h
  rw [h1]
  rintro q hq ⟨hn, -⟩
  have := hn.sublist hq.sublist
  simp at this

/-- A violation that is reported. -/
theorem violation {thr : Nat → Nat} {p : List Nat} {out : List Rng} (h : UbsAnswer A thr p out) {r : Rng} (hr : r ∈ out) :
    r.start < r.stop ∧ r.stop < p.length ∧ Bad A thr (subPath p r) ∧ ((subPath p r).Nodup ∨ (subPath p r).head? = (subPath p r).getLast?) := by
  by_cases hn : p.Nodup
  · have h1 := (((h.1 hn).1 r).1 hr).1
    have h1' := h1
    obtain ⟨h2, x, y, len, d, -, h3, -⟩ := h1'
    exact ⟨h2, (List.getElem?_eq_some_iff.1 h3).1, tooLong_bad h1, .inl (hn.sublist (subPath_infix p r).sublist)⟩
  · have h1 := ((h.2 hn).1 r).1 hr
    obtain ⟨v, m, h5, -⟩ := loop_closed h1
    have h1' := h1
    obtain ⟨h2, v', h3, h4, -⟩ := h1'
    refine ⟨h2, (List.getElem?_eq_some_iff.1 h4).1, loop_bad h1, .inr ?_⟩
    rw [h5, ← List.cons_append, List.getLast?_append_of_ne_nil _ (by simp)]
    rfl

end Verif.Traffic
