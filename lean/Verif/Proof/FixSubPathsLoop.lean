import Verif.Proof.FixSubPaths
import Verif.Proof.SubPathsUbs
import Verif.Spec.FixSubPaths
set_option linter.unusedSimpArgs false
set_option linter.unusedVariables false
namespace Verif
namespace UBS
open Spec CCH

variable {n : Nat} {A : Nat → Nat → Nat → Prop}

theorem exists_minimal {thr : Nat → Nat} {p : List Nat} : ∀ (N : Nat) (r : Rng), r.stop - r.start ≤ N → TooLong A thr p r → ∃ r', MinimalTooLong A thr p r' := by
  intro N
  induction N with
  | zero => intro r h1 h2; have := h2.1; omega
  | succ N ih =>
    intro r h1 h2
    by_cases h : ∃ r', TooLong A thr p r' ∧ r.Contains r' ∧ r' ≠ r
    · obtain ⟨r', h3, h4, h5⟩ := h
      apply ih r' _ h3
      obtain ⟨a, b⟩ := r
      obtain ⟨a', b'⟩ := r'
      have := h3.1
      simp only [Rng.Contains, ne_eq, Rng.mk.injEq] at h4 h5 h1 this ⊢
      omega
    · refine ⟨r, h2, fun r' h3 h4 => ?_⟩
      by_contra h5
      exact h ⟨r', h3, h4, h5⟩

theorem exists_loop {p : List Nat} (h : ¬ p.Nodup) : ∃ r, Loop p r := by
  rw [List.nodup_iff_getElem?_ne_getElem?] at h
  push_neg at h
  obtain ⟨i, j, h1, h2, h3⟩ := h
  have hv : p[j]? = some p[j] := List.getElem?_eq_getElem h2
  have hex : ∃ j, i < j ∧ p[j]? = p[i]? := ⟨j, h1, h3.symm⟩
  classical
  have e := Nat.find_spec hex
  refine ⟨⟨i, Nat.find hex⟩, e.1, p[j], by rw [h3, hv], by rw [e.2, h3, hv], ?_⟩
  intro x hx1 hx2 hx3
  exact Nat.find_min hex hx2 ⟨hx1, by rw [hx3, h3, hv]⟩

theorem noViolation_iff {thr : Nat → Nat} {p : List Nat} {out : List Rng} (h : UbsAnswer A thr p out) : out = [] ↔ NoViolation A thr p := by
  constructor
  · rintro rfl
    have hn : p.Nodup := by
      by_contra hn
      obtain ⟨r, hr⟩ := exists_loop hn
      simpa using ((h.2 hn).1 r).2 hr
    refine ⟨hn, fun r hr => ?_⟩
    obtain ⟨r', hr'⟩ := exists_minimal _ r (Nat.le_refl _) hr
    simpa using ((h.1 hn).1 r').2 hr'
  · rintro ⟨hn, h'⟩
    rw [List.eq_nil_iff_forall_not_mem]
    intro r hr
    exact h' r (((h.1 hn).1 r).1 hr).1

theorem subPath_cons {p : List Nat} {r : Rng} {x : Nat} (hs : p[r.start]? = some x) : subPath p r = x :: (p.drop (r.start + 1)).take (r.stop - r.start) := by
  unfold subPath
  rw [← List.getElem_cons_drop (h := (List.getElem?_eq_some_iff.1 hs).1)]
  simp [(List.getElem?_eq_some_iff.1 hs).2]

theorem take_stop {p : List Nat} {r : Rng} {x : Nat} (hs : p[r.start]? = some x) (h : r.start < r.stop) :
    p.take (r.stop + 1) = p.take r.start ++ x :: (p.drop (r.start + 1)).take (r.stop - r.start) := by
  rw [show r.stop + 1 = (r.start + 1) + (r.stop - r.start) by omega, List.take_add, take_succ hs]
  simp

/-- a piece of a path is a path and not longer -/
theorem subPath_len {p : List Nat} {r : Rng} {len : Nat} (h : PathOf A p len) (h1 : r.start < r.stop) (h2 : r.stop < p.length) :
    ∃ l, l ≤ len ∧ PathOf A (subPath p r) l := by
  have hs : p[r.start]? = some p[r.start] := List.getElem?_eq_getElem (by omega)
  have ht : p[r.stop]? = some p[r.stop] := List.getElem?_eq_getElem h2
  have e1 : p = p.take r.stop ++ p[r.stop] :: p.drop (r.stop + 1) := by simp
  rw [e1] at h
  obtain ⟨d1, d2, k1, k2, k3⟩ := PathOf.split h
  rw [← take_succ ht] at k1
  rw [take_stop hs h1] at k1
  obtain ⟨d3, d4, k4, k5, k6⟩ := PathOf.split k1
  exact ⟨d4, by omega, by rw [subPath_cons hs]; exact k5⟩

theorem longer_of {thr : Nat → Nat} {p : List Nat} {out : List Rng} (h : UbsAnswer A thr p out) (hpos : ∀ u v l, A u v l → 0 < l) {len : Nat}
    (hp : PathOf A p len) (hfin : len < INFINITY) : ∀ r ∈ out, Longer A p r := by
  intro r hr
  by_cases hn : p.Nodup
  · obtain ⟨h1, s, t, l, d, h2, h3, h4, h5, h6⟩ := (((h.1 hn).1 r).1 hr).1
    obtain ⟨l', e1, e2⟩ := subPath_len hp h1 (List.getElem?_eq_some_iff.1 h3).1
    have := h4.2 _ e2
    exact ⟨h1, s, t, d, h2, h3, h5, by omega, fun x hx => by have := h4.2 _ hx; omega⟩
  · obtain ⟨h1, v, h2, h3, _⟩ := ((h.2 hn).1 r).1 hr
    refine ⟨h1, v, v, 0, h2, h3, ⟨.nil v, fun _ _ => Nat.zero_le _⟩, by decide, ?_⟩
    intro x hx
    have hl : 2 ≤ (subPath p r).length := by
      have := (List.getElem?_eq_some_iff.1 h3).1
      simp only [subPath, List.length_take, List.length_drop]
      omega
    generalize subPath p r = q at hx hl
    cases hx with
    | single _ => simp at hl
    | cons ha _ => have := hpos _ _ _ ha; omega

theorem pathOf_mem {p : List Nat} {len : Nat} (h : PathOf A p len) (hA : ∀ u v w, A u v w → u < n ∧ v < n) (hh : ∀ v, p.head? = some v → v < n) : ∀ v ∈ p, v < n := by
  induction h with
  | single u => simpa using hh
  | cons ha _ ih =>
    intro x hx
    rcases List.mem_cons.1 hx with rfl | hx
    · exact (hA _ _ _ ha).1
    · exact ih (by intro y hy; simp at hy; subst hy; exact (hA _ _ _ ha).2) x hx

theorem exists_cheapest {p : List Nat} {len : Nat} (h : PathOf A p len) : ∃ l, l ≤ len ∧ CheapestLen A p l := by
  classical
  have hex : ∃ l, PathOf A p l := ⟨len, h⟩
  exact ⟨Nat.find hex, Nat.find_min' hex h, Nat.find_spec hex, fun l hl => Nat.find_min' hex hl⟩

theorem Saves.shorter {p q : List Nat} {k len : Nat} (h : Saves A k p q) (hk : 0 < k) (hp : PathOf A p len) (h1 : q.head? = p.head?)
    (h2 : q.getLast? = p.getLast?) : ShorterPath A p q := by
  obtain ⟨a, _, ha⟩ := exists_cheapest hp
  obtain ⟨l, e1, e2⟩ := h a ha.1
  obtain ⟨b, e3, hb⟩ := exists_cheapest e1
  exact ⟨h1, h2, a, b, ha, hb, by omega⟩

theorem Saves.trans {p q r : List Nat} {k l : Nat} (h : Saves A k p q) (h' : Saves A l q r) : Saves A (k + l) p r := by
  intro len hl
  obtain ⟨a, e1, e2⟩ := h len hl
  obtain ⟨b, e3, e4⟩ := h' a e1
  exact ⟨b, e3, by omega⟩

/-- the result of one repair -/
structure Repaired (A : Nat → Nat → Nat → Prop) (path q : List Nat) : Prop where
  head : q.head? = path.head?
  last : q.getLast? = path.getLast?
  saves : Saves A 1 path q

theorem Repaired.trans {p q r : List Nat} (h : Repaired A p q) (h' : Repaired A q r) : Repaired A p r :=
  ⟨h'.head.trans h.head, h'.last.trans h.last, (h.saves.trans h'.saves).weaken (by omega)⟩

end UBS
end Verif
