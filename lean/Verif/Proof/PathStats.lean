import Verif.Model.FixSubPaths
import Verif.Spec.FixSubPaths
import Verif.Proof.PathPotRanks
import Verif.Proof.SubPathsUbs
import Mathlib.Tactic.Linarith
set_option linter.unusedSimpArgs false
set_option linter.unusedVariables false
/- The statistics of a path. -/
namespace Verif
namespace UBS
open Spec CCH

section
variable {n : Nat} {A : Nat → Nat → Nat → Prop} {ranks : List (Option Nat)} {full dists : List Nat} {p D : Nat → Nat} {dd : Nat → Nat → Nat}

theorem Whole.subLen (h : Whole n A ranks full dists p D dd) {r : Rng} {len d : Nat} :
    SubLen A full r len d ↔ r.start < r.stop ∧ r.stop < full.length ∧ len = D r.stop - D r.start ∧ d = dd r.start r.stop := by
  obtain ⟨i, j⟩ := r
  simp only [SubLen]
  constructor
  · rintro ⟨h1, s, t, h2, h3, h4, h5⟩
    have hj : j < full.length := (List.getElem?_eq_some_iff.1 h3).1
    rw [h.get i (by omega)] at h2; simp at h2; subst h2
    rw [h.get j (by omega)] at h3; simp at h3; subst h3
    rw [subPath_eq h (by omega) hj] at h4
    have hc := h.cheapest (j - i) i (by omega)
    rw [show i + (j - i) = j by omega] at hc
    have e1 := h4.2 _ hc.1
    have e2 := hc.2 _ h4.1
    exact ⟨h1, hj, by omega, h5.unique (h.dist i j (by omega) hj)⟩
  · rintro ⟨h1, hj, rfl, rfl⟩
    have hc := h.cheapest (j - i) i (by omega)
    rw [show i + (j - i) = j by omega, ← subPath_eq h (by omega) hj] at hc
    exact ⟨h1, p i, p j, h.get i (by omega), h.get j hj, hc, h.dist i j (by omega) hj⟩

/-- what the calls of the closure tell -/
structure Told (A : Nat → Nat → Nat → Prop) (full : List Nat) (l : List (Rng × Nat × Nat × Bool)) : Prop where
  sound : ∀ x ∈ l, SubLen A full x.1 x.2.1 x.2.2.1
  complete : ∀ V, Monotone V → (∀ x ∈ l, x.2.2.2 = true → V x.2.1 x.2.2.1) → ∀ r len d, SubLen A full r len d → V len d → ∃ x ∈ l, x.2.1 ≤ len ∧ V x.2.1 x.2.2.1

end

section
variable {n : Nat} {A : Nat → Nat → Nat → Prop}
variable {σ τ κ : Type} {T : Oracle σ} {S : Oracle τ} {RT : σ → Prop} {OT : Nat → List Nat → σ → Prop} {GT : Nat → σ → Nat → Prop}
  {RS : τ → Prop} {OS : Nat → List Nat → τ → Prop} {GS : Nat → τ → Nat → Prop}

theorem told_spec (hT : OracleOK T n A RT OT GT) (hS : OracleOK S n (Rev A) RS OS GS) {dbg : Bool} {cb : κ → Rng → Nat → Nat → Option (κ × Bool)} {nodes dists : List Nat}
    (hlt : ∀ v ∈ nodes, v < n) (hnd : nodes.Nodup) (hd : Steps A nodes dists)
    (hcb : ∀ r len d, SubLen A nodes r len d → d ≤ len → ∀ k, ∃ k' b, cb k r len d = some (k', b)) {st : Find σ τ κ} (hst : FOK n RT RS st) :
    ∃ mr, markPath (List.replicate n none) nodes = some (mr, []) ∧ unmark mr nodes = some (List.replicate n none) ∧
      ∃ st' l, treeFind dbg T S mr nodes dists cb (nodes.length + 1) 0 nodes.length st = some st' ∧ FOK n RT RS st' ∧ Calls cb st.cb l st'.cb ∧ Told A nodes l := by
  obtain ⟨⟨mr, mv⟩, e1, e2⟩ := markPath_spec hlt
  have hun := unmark_spec hlt e2
  have hmv := e2.nodup.2 hnd
  simp only at hmv hun
  subst hmv
  obtain ⟨dd, hw⟩ := whole_of hnd hlt e2 hd
  obtain ⟨f, l, f1, f2, f3, f4, f5⟩ := treeFind_spec hT hS hw dbg (cb := cb) (fun i j h1 h2 k => hcb ⟨i, j⟩ _ _ (hw.subLen.2 ⟨h1, h2, rfl, rfl⟩) (hw.le (Nat.le_of_lt h1) h2) k)
    (nodes.length + 1) 0 nodes.length (by omega) (by omega) (by omega) st hst
  refine ⟨mr, e1, hun, f, l, f1, f2, f3, ?_, ?_⟩
  · intro x hx
    obtain ⟨k1, k2, k3, k4, k5⟩ := f4 x hx
    exact hw.subLen.2 ⟨k2, k3, k4, k5⟩
  · intro V hV hfl r len d hr hv
    obtain ⟨k1, k2, rfl, rfl⟩ := hw.subLen.1 hr
    obtain ⟨x, m1, m2, m3, m4⟩ := f5 V hV hfl r.start r.stop (by omega) k1 k2 trivial hv
    obtain ⟨k1', k2', k3', k4', _⟩ := f4 x m1
    have h1 := (hw.mono (i := r.start) (j := x.1.start) m2 (by omega)).1
    have h2 := (hw.mono (i := x.1.stop) (j := r.stop) m3 k2).1
    simp only at h1 h2 k4'
    exact ⟨x, m1, by rw [k4']; omega, m4⟩

end

/-! ### In terms of the graph -/

section
variable {n : Nat} {A : Nat → Nat → Nat → Prop} {order : NodeOrder}

theorem subLen_iff (ho : order.OK n) (hA : ∀ u v w, A u v w → u < n ∧ v < n) {p : List Nat} (hp : ∀ x ∈ p, x < n) {r : Rng} {len d : Nat} :
    SubLen (InRanks A order.node) p r len d ↔ SubLen A (p.map (nd order)) r len d := by
  have hsub : ∀ d, PathOf (InRanks A order.node) (subPath p r) d ↔ PathOf A (subPath (p.map (nd order)) r) d := by
    intro d
    rw [pathOf_iff ho _ _ (fun x hx => hp x (subPath_mem hx))]
    simp [subPath, List.map_take, List.map_drop]
  have hch : CheapestLen (InRanks A order.node) (subPath p r) len ↔ CheapestLen A (subPath (p.map (nd order)) r) len := by
    unfold CheapestLen; simp only [hsub]
  unfold SubLen
  simp only [hch]
  refine and_congr_right fun _ => ?_
  constructor
  · rintro ⟨s, t, h1, h2, h3, h4⟩
    exact ⟨_, _, by rw [List.getElem?_map, h1]; rfl, by rw [List.getElem?_map, h2]; rfl, h3,
      (isDist_iff ho hA (hp s (List.mem_of_getElem? h1)) (hp t (List.mem_of_getElem? h2))).1 h4⟩
  · rintro ⟨s, t, h1, h2, h3, h4⟩
    rw [List.getElem?_map, Option.map_eq_some_iff] at h1 h2
    obtain ⟨x, h1, rfl⟩ := h1
    obtain ⟨y, h2, rfl⟩ := h2
    exact ⟨x, y, h1, h2, h3, (isDist_iff ho hA (hp x (List.mem_of_getElem? h1)) (hp y (List.mem_of_getElem? h2))).2 h4⟩

theorem Told.ranks (ho : order.OK n) (hA : ∀ u v w, A u v w → u < n ∧ v < n) {p : List Nat} (hp : ∀ x ∈ p, x < n) {l : List (Rng × Nat × Nat × Bool)}
    (h : Told (InRanks A order.node) p l) : Told A (p.map (nd order)) l :=
  ⟨fun x hx => (subLen_iff ho hA hp).1 (h.sound x hx), fun V hV hf r len d hr hv => h.complete V hV hf r len d ((subLen_iff ho hA hp).2 hr) hv⟩

end

/-! ### The closures -/

section
variable {A : Nat → Nat → Nat → Prop} {full : List Nat} {l : List (Rng × Nat × Nat × Bool)}

theorem localOpt_calls {k k' : Nat} (h : Calls localOpt k l k') :
    (k' = k ∨ ∃ x ∈ l, x.2.1 = k' ∧ x.2.1 ≠ x.2.2.1) ∧ k' ≤ k ∧ ∀ x ∈ l, (x.2.2.2 = true ↔ x.2.1 ≠ x.2.2.1) ∧ (x.2.1 ≠ x.2.2.1 → k' ≤ x.2.1) := by
  induction h with
  | nil => simp
  | @cons k k1 k2 r pd sd b l h1 h2 ih =>
    obtain ⟨i1, i2, i3⟩ := ih
    unfold localOpt at h1
    by_cases hne : pd ≠ sd
    · rw [if_pos hne] at h1
      simp only [Option.some.injEq, Prod.mk.injEq] at h1
      obtain ⟨rfl, rfl⟩ := h1
      refine ⟨?_, by omega, ?_⟩
      · rcases i1 with h | ⟨x, hx, hh⟩
        · rcases Nat.le_total k pd with h' | h'
          · left; omega
          · exact .inr ⟨(r, pd, sd, true), by simp, by simp; omega, hne⟩
        · exact .inr ⟨x, by simp [hx], hh⟩
      · intro x hx
        rcases List.mem_cons.1 hx with rfl | hx
        · exact ⟨by simpa using hne, fun _ => by simp only; omega⟩
        · exact i3 x hx
    · rw [if_neg hne] at h1
      simp only [Option.some.injEq, Prod.mk.injEq] at h1
      obtain ⟨rfl, rfl⟩ := h1
      refine ⟨?_, i2, ?_⟩
      · rcases i1 with h | ⟨x, hx, hh⟩
        · exact .inl h
        · exact .inr ⟨x, by simp [hx], hh⟩
      · intro x hx
        rcases List.mem_cons.1 hx with rfl | hx
        · exact ⟨by simpa using hne, fun h => absurd h hne⟩
        · exact i3 x hx

theorem subLen_le {r : Rng} {len d : Nat} (h : SubLen A full r len d) : d ≤ len := by
  obtain ⟨h1, s, t, h2, h3, h4, h5⟩ := h
  apply h5.2
  have hw : ∀ {p : List Nat} {l : Nat}, PathOf A p l → ∀ {x y}, p.head? = some x → p.getLast? = some y → Walk A x y l := by
    intro p l h
    induction h with
    | single u => intro x y h1 h2; simp at h1 h2; subst h1 h2; exact .nil _
    | cons ha _ ih => intro x y h1 h2; simp at h1; subst h1; exact .cons ha (ih (by simp) (by simpa using h2))
  have hl := (List.getElem?_eq_some_iff.1 h3).1
  apply hw h4.1
  · rw [List.head?_eq_getElem?, subPath, List.getElem?_take_of_lt (by omega), List.getElem?_drop]; simpa using h2
  · rw [List.getLast?_eq_getElem?]
    have : (subPath full r).length = r.stop - r.start + 1 := by simp [subPath]; omega
    rw [this, subPath, List.getElem?_take_of_lt (by omega), List.getElem?_drop, ← h3]
    congr 1; omega

theorem mono_ne : Monotone (fun pd sd => sd < pd) := fun pd sd h => ⟨h, fun x hx => by show sd - x < pd - x; omega⟩

theorem localOpt_spec {base lo : Nat} (h : Calls localOpt base l lo) (ht : Told A full l) (hb : full = [] ∧ base = 0 ∨ CheapestLen A full base) :
    LocalOptimality A full base lo := by
  obtain ⟨h1, h2, h3⟩ := localOpt_calls h
  refine ⟨hb, ?_, h2, ?_⟩
  · rcases h1 with h | ⟨x, hx, rfl, hne⟩
    · exact .inl h
    · have := ht.sound x hx
      exact .inr ⟨x.1, _, this, by have := subLen_le this; omega⟩
  · intro r len d hr hlt
    obtain ⟨x, hx, hc, hv⟩ := ht.complete _ mono_ne (fun x hx hf => by
      have := subLen_le (ht.sound x hx)
      have := (h3 x hx).1.1 hf
      omega) r len d hr hlt
    have hlo := (h3 x hx).2 (by omega)
    omega

theorem subOpt_calls {dbg : Bool} {k k' : Nat × Nat × Nat} (h : Calls (subOpt dbg) k l k') (hle : ∀ x ∈ l, 0 < x.2.2.1) (hk : 0 < k.2.2) :
    (k'.1 = k.1 ∨ ∃ x ∈ l, x.2.1 = k'.1 ∧ x.2.1 ≠ x.2.2.1) ∧ k'.1 ≤ k.1 ∧ (∀ x ∈ l, x.2.2.2 = false ∧ (x.2.1 ≠ x.2.2.1 → k'.1 ≤ x.2.1)) ∧
      0 < k'.2.2 ∧ (k'.2 = k.2 ∨ ∃ x ∈ l, k'.2 = (x.2.1 - x.2.2.1, x.2.2.1) ∧ x.2.2.1 < x.2.1) ∧ k.2.1 * k'.2.2 ≤ k'.2.1 * k.2.2 ∧
      ∀ x ∈ l, (x.2.1 - x.2.2.1) * k'.2.2 ≤ k'.2.1 * x.2.2.1 := by
  induction h with
  | nil => simp [hk]
  | @cons k k1 k2 r pd sd b l h1 h2 ih =>
    obtain ⟨lo, num, den⟩ := k
    have hsd : 0 < sd := hle (r, pd, sd, b) (by simp)
    simp only at hk
    cases hc : check dbg (decide (sd ≠ 0)) with
    | none => simp only [subOpt, hc, Option.bind_eq_bind, Option.bind_none] at h1; exact absurd h1 (by simp)
    | some _ =>
      simp only [subOpt, hc, Option.bind_eq_bind, Option.bind_some] at h1
      by_cases hne : pd ≠ sd
      · rw [if_pos hne] at h1
        by_cases hle' : sd ≤ pd
        · simp only [minus, if_pos hle', Option.bind_some, Option.pure_def, Option.some.injEq, Prod.mk.injEq] at h1
          obtain ⟨rfl, rfl⟩ := h1
          have hltp : sd < pd := by omega
          have hpos' : 0 < (if (pd - sd) * den > num * sd then (pd - sd, sd) else (num, den)).2 := by split <;> assumption
          obtain ⟨i1, i2, i3, i4, i5, i6, i7⟩ := ih (fun x hx => hle x (by simp [hx])) hpos'
          obtain ⟨klo, kn, kd⟩ := k2
          simp only at i1 i2 i3 i4 i5 i6 i7 ⊢
          refine ⟨?_, by omega, ?_, i4, ?_, ?_, ?_⟩
          · rcases i1 with h | ⟨x, hx, hh⟩
            · rcases Nat.le_total lo pd with h' | h'
              · left; omega
              · exact .inr ⟨(r, pd, sd, false), by simp, by simp; omega, hne⟩
            · exact .inr ⟨x, by simp [hx], hh⟩
          · intro x hx
            rcases List.mem_cons.1 hx with rfl | hx
            · exact ⟨rfl, fun _ => by simp only; omega⟩
            · exact i3 x hx
          · rcases i5 with h | ⟨x, hx, hh⟩
            · split at h
              · exact .inr ⟨(r, pd, sd, false), by simp, h, hltp⟩
              · exact .inl h
            · exact .inr ⟨x, by simp [hx], hh⟩
          · split at i6
            · rename_i hgt
              simp only at i6
              have e1 : num * sd * kd ≤ (pd - sd) * den * kd := Nat.mul_le_mul_right _ (Nat.le_of_lt hgt)
              have e2 : (pd - sd) * kd * den ≤ kn * sd * den := Nat.mul_le_mul_right _ i6
              have : sd * (num * kd) ≤ sd * (kn * den) := by nlinarith
              exact Nat.le_of_mul_le_mul_left this hsd
            · exact i6
          · intro x hx
            rcases List.mem_cons.1 hx with rfl | hx
            · simp only
              split at i6
              · exact i6
              · rename_i hgt
                simp only at i6
                have e1 : (pd - sd) * den * kd ≤ num * sd * kd := Nat.mul_le_mul_right _ (by omega)
                have e2 : num * kd * sd ≤ kn * den * sd := Nat.mul_le_mul_right _ i6
                have : den * ((pd - sd) * kd) ≤ den * (kn * sd) := by nlinarith
                exact Nat.le_of_mul_le_mul_left this hk
            · exact i7 x hx
        · simp [minus, hle'] at h1
      · rw [if_neg hne] at h1
        simp only [Option.pure_def, Option.some.injEq, Prod.mk.injEq] at h1
        obtain ⟨rfl, rfl⟩ := h1
        obtain ⟨i1, i2, i3, i4, i5, i6, i7⟩ := ih (fun x hx => hle x (by simp [hx])) hk
        refine ⟨?_, i2, ?_, i4, ?_, i6, ?_⟩
        · rcases i1 with h | ⟨x, hx, hh⟩
          · exact .inl h
          · exact .inr ⟨x, by simp [hx], hh⟩
        · intro x hx
          rcases List.mem_cons.1 hx with rfl | hx
          · exact ⟨rfl, fun h => absurd h hne⟩
          · exact i3 x hx
        · rcases i5 with h | ⟨x, hx, hh⟩
          · exact .inl h
          · exact .inr ⟨x, by simp [hx], hh⟩
        · intro x hx
          rcases List.mem_cons.1 hx with rfl | hx
          · have : pd = sd := by omega
            simp [this]
          · exact i7 x hx

theorem mono_ratio (a b : Nat) : Monotone (fun pd sd => sd < pd ∧ a * sd < (pd - sd) * b) := by
  rintro pd sd ⟨h1, h2⟩
  refine ⟨h1, fun x hx => ⟨by show sd - x < pd - x; omega, ?_⟩⟩
  show a * (sd - x) < (pd - x - (sd - x)) * b
  have : pd - x - (sd - x) = pd - sd := by omega
  rw [this]
  exact Nat.lt_of_le_of_lt (Nat.mul_le_mul_left _ (by omega)) h2

theorem subOpt_spec {dbg : Bool} {base : Nat} {k : Nat × Nat × Nat} (h : Calls (subOpt dbg) (base, 0, 1) l k) (ht : Told A full l)
    (hpos : ∀ r len d, SubLen A full r len d → 0 < d) (hb : full = [] ∧ base = 0 ∨ CheapestLen A full base) :
    LocalOptimality A full base k.1 ∧ MaxDetour A full k.2.1 k.2.2 := by
  obtain ⟨h1, h2, h3, h4, h5, h6, h7⟩ := subOpt_calls h (fun x hx => hpos _ _ _ (ht.sound x hx)) (by simp)
  have hno : ∀ x ∈ l, x.2.2.2 = true → False := by
    intro x hx hf
    rw [(h3 x hx).1] at hf
    exact absurd hf (by simp)
  refine ⟨⟨hb, ?_, h2, ?_⟩, h4, ?_, ?_⟩
  · rcases h1 with h | ⟨x, hx, he, hne⟩
    · exact .inl h
    · have := ht.sound x hx
      have h' := subLen_le this
      rw [← he]
      exact .inr ⟨x.1, _, this, by omega⟩
  · intro r len d hr hlt
    obtain ⟨x, hx, hc, hv⟩ := ht.complete _ mono_ne (fun x hx hf => (hno x hx hf).elim) r len d hr hlt
    have hlo := (h3 x hx).2 (by omega)
    omega
  · rcases h5 with h | ⟨x, hx, he, hlt⟩
    · left; rw [h]
    · right
      rw [he]
      exact ⟨x.1, x.2.1, ht.sound x hx, by simp only; omega⟩
  · intro r len d hr
    refine ⟨hpos r len d hr, ?_⟩
    apply Classical.byContradiction
    intro hgt
    have hlt : d < len := by
      apply Classical.byContradiction
      intro h'
      rw [show len - d = 0 by omega] at hgt
      simp at hgt
    obtain ⟨x, hx, hc, hv⟩ := ht.complete _ (mono_ratio k.2.1 k.2.2) (fun x hx hf => (hno x hx hf).elim) r len d hr ⟨hlt, by omega⟩
    have := h7 x hx
    omega

end

end UBS
end Verif
