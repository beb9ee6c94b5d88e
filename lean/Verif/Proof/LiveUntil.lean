import Verif.Model.LiveUntil
import Verif.Proof.FlPlf
import Mathlib.Tactic.Linarith
import Mathlib.Tactic.Ring
import Mathlib.Algebra.Order.Field.Rat
set_option linter.unusedSimpArgs false
set_option linter.unusedVariables false
/- Lemmas about from when on arcs are not affected by live traffic. -/
namespace Verif
namespace LiveUntil
open Spec

/-- When the `p`-th source of a list starts, counted from the first one on day 0 -/
def tm (l : List (Rat × Via)) (h : 0 < l.length) (p : Nat) : Rat := (l[p % l.length]'(Nat.mod_lt _ h)).1 + (p / l.length : Nat) * day
/-- what it is -/
def vi (l : List (Rat × Via)) (h : 0 < l.length) (p : Nat) : Via := (l[p % l.length]'(Nat.mod_lt _ h)).2
/-- the cursor there -/
def cu (l : List (Rat × Via)) (p : Nat) : Cursor := ⟨p % l.length, (p / l.length : Nat) * day⟩

theorem cmp_gt {eps x z : Rat} (he : 0 ≤ eps) (hx : Fl.cmp eps x z = .gt) : z < x := by
  simp only [Fl.cmp, Fl.feq, Bool.and_eq_true, decide_eq_true_eq] at hx
  by_cases c1 : x - z ≤ eps ∧ z - x ≤ eps
  · rw [if_pos c1] at hx; simp at hx
  · rw [if_neg c1] at hx
    by_cases c2 : x < z
    · rw [if_pos c2] at hx; simp at hx
    · rcases lt_or_eq_of_le (not_lt.1 c2) with h | h
      · exact h
      · exfalso; apply c1; subst h; simp [he]

theorem cmp_le {eps x z : Rat} (he : 0 ≤ eps) (hx : Fl.cmp eps x z ≠ .gt) : x ≤ z + eps := by
  simp only [Fl.cmp, Fl.feq, Bool.and_eq_true, decide_eq_true_eq] at hx
  by_cases c1 : x - z ≤ eps ∧ z - x ≤ eps
  · linarith [c1.1]
  · rw [if_neg c1] at hx
    by_cases c2 : x < z
    · linarith
    · rw [if_neg c2] at hx; simp at hx

theorem cmp_sorted {eps a b z : Rat} (hab : a < b) : (Fl.cmp eps b z = .lt → Fl.cmp eps a z = .lt) ∧ (Fl.cmp eps a z = .gt → Fl.cmp eps b z = .gt) := by
  simp only [Fl.cmp, Fl.feq, Bool.and_eq_true, decide_eq_true_eq]
  constructor
  · intro hb
    by_cases c1 : b - z ≤ eps ∧ z - b ≤ eps
    · rw [if_pos c1] at hb; simp at hb
    · rw [if_neg c1] at hb
      by_cases c2 : b < z
      · rw [if_neg, if_pos (by linarith)]
        rintro ⟨q1, q2⟩
        exact c1 ⟨by linarith, by linarith⟩
      · rw [if_neg c2] at hb; simp at hb
  · intro ha
    by_cases c1 : a - z ≤ eps ∧ z - a ≤ eps
    · rw [if_pos c1] at ha; simp at ha
    · rw [if_neg c1] at ha
      by_cases c2 : a < z
      · rw [if_pos c2] at ha; simp at ha
      · have c3 := not_lt.1 c2
        rw [if_neg, if_neg (by linarith)]
        rintro ⟨q1, q2⟩
        exact c1 ⟨by linarith, by linarith⟩

variable {l : List (Rat × Via)} (h : 0 < l.length)
include h

theorem succ_cases (p : Nat) : (p % l.length + 1 = l.length ∧ (p + 1) % l.length = 0 ∧ (p + 1) / l.length = p / l.length + 1) ∨
    (p % l.length + 1 < l.length ∧ (p + 1) % l.length = p % l.length + 1 ∧ (p + 1) / l.length = p / l.length) := by
  have h1 := Nat.mod_lt p h
  have h2 := Nat.div_add_mod p l.length
  by_cases c : p % l.length + 1 = l.length
  · left
    have e : p + 1 = l.length * (p / l.length + 1) := by rw [Nat.mul_add]; omega
    refine ⟨c, by rw [e]; simp, by rw [e]; exact Nat.mul_div_cancel_left _ h⟩
  · right
    have e : p + 1 = (p % l.length + 1) + l.length * (p / l.length) := by omega
    refine ⟨by omega, ?_, ?_⟩
    · rw [e, Nat.add_mul_mod_self_left, Nat.mod_eq_of_lt (by omega)]
    · rw [e, Nat.add_mul_div_left _ _ h, Nat.div_eq_of_lt (by omega)]
      omega

theorem cur_eq (p : Nat) : (cu l p).cur l = some (tm l h p, vi l h p) := by
  simp [Cursor.cur, cu, tm, vi, Nat.mod_lt _ h]

theorem next_eq (p : Nat) : ∃ v, (cu l p).next l = some (tm l h (p + 1), v) := by
  rcases succ_cases h p with ⟨h1, h2, h3⟩ | ⟨h1, h2, h3⟩
  · refine ⟨vi l h (p + 1), ?_⟩
    simp only [Cursor.next, cu, h1, if_true, tm, vi, h2, h3]
    rw [List.getElem?_eq_getElem h]
    simp only [Option.bind_eq_bind, Option.bind_some, Option.pure_def, Option.some.injEq, Prod.mk.injEq, and_true]
    push_cast; ring
  · refine ⟨vi l h (p + 1), ?_⟩
    unfold Cursor.next
    rw [if_neg (show ¬ (cu l p).index + 1 = l.length from Nat.ne_of_lt h1)]
    simp only [cu, tm, vi, h2, h3]
    rw [List.getElem?_eq_getElem h1]
    simp only [Option.bind_eq_bind, Option.bind_some, Option.pure_def]

theorem advance_eq (p : Nat) : (cu l p).advance l = cu l (p + 1) := by
  rcases succ_cases h p with ⟨h1, h2, h3⟩ | ⟨h1, h2, h3⟩
  · simp only [Cursor.advance, cu, h1, if_true, h2, h3, Cursor.mk.injEq, true_and]
    push_cast; ring
  · unfold Cursor.advance
    rw [if_neg (show ¬ (cu l p).index + 1 = l.length from Nat.ne_of_lt h1)]
    simp only [cu, h2, h3]

variable (hs : SortedSources l)
include hs

theorem nonneg (i : Nat) (hi : i < l.length) : 0 ≤ l[i].1 := by
  have h0 : l[0].1 = 0 := hs.first l[0].1 l[0].2 (by rw [List.getElem?_eq_getElem h])
  rcases Nat.eq_zero_or_pos i with rfl | hp
  · rw [h0]
  · have := List.pairwise_iff_getElem.1 hs.sorted 0 i h hi hp
    linarith

theorem tm_step (p : Nat) : tm l h p ≤ tm l h (p + 1) := by
  rcases succ_cases h p with ⟨h1, h2, h3⟩ | ⟨h1, h2, h3⟩
  · simp only [tm, h2, h3]
    have k1 := hs.day (l[p % l.length]'(Nat.mod_lt _ h)) (List.getElem_mem _)
    have k2 := nonneg h hs 0 h
    push_cast; linarith
  · simp only [tm, h2, h3]
    have := List.pairwise_iff_getElem.1 hs.sorted (p % l.length) (p % l.length + 1) (Nat.mod_lt _ h) h1 (by omega)
    linarith

theorem tm_mono {p q : Nat} (hpq : p ≤ q) : tm l h p ≤ tm l h q := by
  induction hpq with
  | refl => exact le_refl _
  | step _ ih => exact le_trans ih (tm_step h hs _)

theorem tm_large {K p : Nat} (hp : l.length * K ≤ p) : (K : Rat) * day ≤ tm l h p := by
  have h1 : K ≤ p / l.length := (Nat.le_div_iff_mul_le h).2 (by rw [Nat.mul_comm]; exact hp)
  have h2 : (K : Rat) ≤ ((p / l.length : Nat) : Rat) := by exact_mod_cast h1
  have h3 := nonneg h hs (p % l.length) (Nat.mod_lt _ h)
  have h4 : (K : Rat) * day ≤ ((p / l.length : Nat) : Rat) * day := mul_le_mul_of_nonneg_right h2 (by simp [day])
  simp only [tm]; linarith

/-- What is active at some time is one of them. -/
theorem active_pos {t : Rat} {v : Via} (ha : ActiveAt l t v) : ∃ p, vi l h p = v ∧ tm l h p ≤ t ∧ t < tm l h (p + 1) := by
  obtain ⟨i, k, s, h1, h2, h3⟩ := ha
  obtain ⟨hi, h1⟩ := List.getElem?_eq_some_iff.1 h1
  have e1 : (i + l.length * k) % l.length = i := by rw [Nat.add_mul_mod_self_left, Nat.mod_eq_of_lt hi]
  have e2 : (i + l.length * k) / l.length = k := by rw [Nat.add_mul_div_left _ _ h, Nat.div_eq_of_lt hi]; omega
  refine ⟨i + l.length * k, ?_, ?_, ?_⟩
  · simp only [vi, e1, h1]
  · simp only [tm, e1, e2, h1]; exact h2
  · rcases succ_cases h (i + l.length * k) with ⟨q1, q2, q3⟩ | ⟨q1, q2, q3⟩
    · rw [e1] at q1
      rw [e2] at q3
      rcases h3 with ⟨s', v', a1, a2⟩ | ⟨_, s', v', a1, a2⟩
      · have := (List.getElem?_eq_some_iff.1 a1).1; omega
      · obtain ⟨_, a1⟩ := List.getElem?_eq_some_iff.1 a1
        simp only [tm, q2, q3, a1]
        push_cast; exact a2
    · rw [e1] at q1 q2
      rw [e2] at q3
      rcases h3 with ⟨s', v', a1, a2⟩ | ⟨a0, _⟩
      · obtain ⟨_, a1⟩ := List.getElem?_eq_some_iff.1 a1
        simp only [tm, q2, q3, a1]
        exact a2
      · omega

omit hs in
theorem entry_holds (p : Nat) : EntryHolds l (p % l.length) (p / l.length) (vi l h p) (tm l h p) (tm l h (p + 1)) := by
  rcases succ_cases h p with ⟨q1, q2, q3⟩ | ⟨q1, q2, q3⟩
  · refine ⟨_, l[0].1, l[0].2, by rw [List.getElem?_eq_getElem (Nat.mod_lt _ h)]; rfl, rfl, .inr ⟨q1, List.getElem?_eq_getElem h, ?_⟩⟩
    simp only [tm, q2, q3]; push_cast; rfl
  · refine ⟨_, l[p % l.length + 1].1, l[p % l.length + 1].2, by rw [List.getElem?_eq_getElem (Nat.mod_lt _ h)]; rfl, rfl,
      .inl ⟨List.getElem?_eq_getElem q1, ?_⟩⟩
    simp only [tm, q2, q3]

/-- The cursor starts at a source that has started, up to the tolerance. -/
theorem validAt_ok {bs : Search} (hbs : SearchesBy bs) {eps t : Rat} (he : 0 ≤ eps) (ht : 0 ≤ t) :
    ∃ p, Cursor.validAt bs eps l t = some (cu l p) ∧ tm l h p ≤ t + eps := by
  obtain ⟨k, e, k1, k2⟩ := Fl.splitDay_spec t
  have hk : 0 ≤ k := by
    by_contra hneg
    have : k ≤ -1 := by omega
    have h2 : (k : Rat) ≤ -1 := by exact_mod_cast this
    simp only [day] at k1 k2
    linarith
  obtain ⟨K, rfl⟩ := Int.eq_ofNat_of_zero_le hk
  have pos : ∀ i, i < l.length → (i + l.length * K) % l.length = i ∧ (i + l.length * K) / l.length = K := by
    intro i hi
    exact ⟨by rw [Nat.add_mul_mod_self_left, Nat.mod_eq_of_lt hi], by rw [Nat.add_mul_div_left _ _ h, Nat.div_eq_of_lt hi]; omega⟩
  have hsorted : l.Pairwise (fun a b => (Fl.cmp eps b.1 (t - (K : Int) * day) = .lt → Fl.cmp eps a.1 (t - (K : Int) * day) = .lt) ∧
      (Fl.cmp eps a.1 (t - (K : Int) * day) = .gt → Fl.cmp eps b.1 (t - (K : Int) * day) = .gt)) := hs.sorted.imp cmp_sorted
  obtain ⟨hok, herr⟩ := hbs (fun p => Fl.cmp eps p.1 (t - (K : Int) * day)) l hsorted
  have fin : ∀ (i : Nat) (hi : i < l.length), Fl.cmp eps l[i].1 (t - (K : Int) * day) ≠ .gt →
      (⟨i, ((K : Int) : Rat) * day⟩ : Cursor) = cu l (i + l.length * K) ∧ tm l h (i + l.length * K) ≤ t + eps := by
    intro i hi hc
    obtain ⟨e1, e2⟩ := pos i hi
    have := cmp_le he hc
    refine ⟨?_, ?_⟩
    · simp only [cu, e1, e2, Int.cast_natCast]
    · simp only [tm, e1, e2]
      push_cast at this
      linarith
  simp only [Cursor.validAt, e]
  cases hb : bs (fun p => Fl.cmp eps p.1 (t - (K : Int) * day)) l with
  | ok i =>
    obtain ⟨x, q1, q2⟩ := hok i hb
    obtain ⟨hi, q1⟩ := List.getElem?_eq_some_iff.1 q1
    obtain ⟨f1, f2⟩ := fin i hi (by rw [q1, q2]; simp)
    exact ⟨_, by simp only [f1], f2⟩
  | error i =>
    obtain ⟨q1, q2, q3⟩ := herr i hb
    have hi0 : i ≠ 0 := by
      rintro rfl
      have := cmp_gt he (q3 0 l[0] (Nat.le_refl _) (List.getElem?_eq_getElem h))
      have h0 : l[0].1 = 0 := hs.first l[0].1 l[0].2 (by rw [List.getElem?_eq_getElem h])
      rw [h0] at this
      linarith
    obtain ⟨f1, f2⟩ := fin (i - 1) (by omega) (by rw [q2 (i - 1) l[i - 1] (by omega) (List.getElem?_eq_getElem (by omega))]; simp)
    exact ⟨_, by simp only [if_neg hi0, f1], f2⟩

/-- The loop: the result is at least what each source asks for. -/
theorem scan_ok {eps longest : Rat} (he : 0 ≤ eps) {live : Via → Option Nat} (hlive : ∀ x ∈ l, ∃ u, live x.2 = some u ∧ u < U32) {E : Nat}
    (hE : ∀ p, E ≤ p → longest ≤ tm l h p) (fuel : Nat) : ∀ (p v : Nat), E < fuel + p → 0 < fuel → v < U32 →
    ∃ v', scan eps longest live l fuel (cu l p) v = some v' ∧ v ≤ v' ∧ v' < U32 ∧
      (∀ q, p ≤ q → tm l h q < longest - eps → ∃ u, live (vi l h q) = some u ∧ min u (ceilMs (tm l h (q + 1))) ≤ v') ∧
      (v' = v ∨ ∃ q u, tm l h q < longest - eps ∧ live (vi l h q) = some u ∧ v' ≤ u ∧ v' ≤ ceilMs (tm l h (q + 1))) := by
  induction fuel with
  | zero => intro p v _ h0; omega
  | succ fuel ih =>
    intro p v hf _ hv
    obtain ⟨nx, hnx⟩ := next_eq h p
    by_cases c : tm l h p < longest - eps
    · obtain ⟨u, u1, u2⟩ := hlive (l[p % l.length]'(Nat.mod_lt _ h)) (List.getElem_mem _)
      have hpE : p < E := by
        by_contra hc
        have := hE p (by omega)
        linarith
      obtain ⟨v', a1, a2, a3, a4, a5⟩ := ih (p + 1) (max v (min u (ceilMs (tm l h (p + 1))))) (by omega) (by omega) (by omega)
      refine ⟨v', ?_, by omega, a3, ?_, ?_⟩
      · rw [scan]
        simp only [cur_eq h, Option.bind_eq_bind, Option.bind_some]
        have : Fl.flt eps (tm l h p) longest = true := by simp only [Fl.flt, decide_eq_true_eq]; linarith
        rw [if_pos this]
        have hu : live (vi l h p) = some u := u1
        simp only [hu, hnx, Option.bind_some, advance_eq h]
        exact a1
      · intro q hq hlt
        rcases Nat.eq_or_lt_of_le hq with rfl | hq
        · exact ⟨u, u1, le_trans (Nat.le_max_right _ _) a2⟩
        · exact a4 q hq hlt
      · rcases a5 with a5 | a5
        · rcases Nat.le_total v (min u (ceilMs (tm l h (p + 1)))) with q | q
          · exact .inr ⟨p, u, c, u1, by omega, by omega⟩
          · exact .inl (by omega)
        · exact .inr a5
    · refine ⟨v, ?_, Nat.le_refl _, hv, ?_, .inl rfl⟩
      · rw [scan]
        simp only [cur_eq h, Option.bind_eq_bind, Option.bind_some]
        have : ¬ Fl.flt eps (tm l h p) longest = true := by
          simp only [Fl.flt, decide_eq_true_eq]
          intro hc; apply c; linarith
        rw [if_neg this]
        rfl
      · intro q hq hlt
        have := tm_mono h hs hq
        exact absurd (lt_of_le_of_lt this hlt) c

omit h hs in
theorem ceilMs_ge {x : Rat} {v : Nat} (h0 : 0 < v) (h : v ≤ ceilMs x) : (v : Rat) < 1000 * x + 1 := by
  have h1 : v ≤ (x * 1000).ceil.toNat := by simp only [ceilMs] at h; omega
  have h2 : (v : Int) ≤ (x * 1000).ceil := by omega
  have h3 : ((v : Int) : Rat) ≤ ((x * 1000).ceil : Rat) := by exact_mod_cast h2
  have h4 : ((x * 1000).ceil : Rat) < x * 1000 + 1 := Rat.ceil_lt
  push_cast at h3
  linarith

omit h hs in
theorem ceilMs_le {x t : Rat} {v : Nat} (hx : t < x) (hv : (v : Rat) ≤ 1000 * t) (hle : ceilMs x ≤ v) : U32 - 1 ≤ v := by
  simp only [ceilMs] at hle
  rcases Nat.le_total (x * 1000).ceil.toNat (U32 - 1) with h | h
  · rw [Nat.min_eq_left h] at hle
    have h1 : (x * 1000) ≤ ((x * 1000).ceil : Rat) := Rat.le_ceil
    have h2 : (x * 1000).ceil ≤ ((x * 1000).ceil.toNat : Int) := Int.self_le_toNat _
    have h3 : ((x * 1000).ceil : Rat) ≤ (((x * 1000).ceil.toNat : Int) : Rat) := by exact_mod_cast h2
    have h4 : (((x * 1000).ceil.toNat : Int) : Rat) ≤ (v : Rat) := by exact_mod_cast hle
    exfalso
    linarith
  · rw [Nat.min_eq_right h] at hle; exact hle

omit h hs

/-! ### arcs and nodes -/

section
variable (src : Bool → Nat → List (Rat × Via)) (travel : Nat → Rat → Rat → Prop) (ended : List Nat) (start0 eps : Rat)

/-- From `v` milliseconds on (and not before `start0`) no original edge on the arc is entered before its report has ended, up to `eps`. -/
def Holds (up : Bool) (e v : Nat) : Prop := v < U32 ∧
  (∀ t t' log, Drive src travel up e t t' log → ∀ x ∈ log, x.1 < ended.length) ∧
  ∀ t t' log, start0 ≤ t → (v : Rat) ≤ 1000 * t → Drive src travel up e t t' log →
  ∀ x ∈ log, ∃ a, ended[x.1]? = some a ∧ (a : Rat) ≤ 1000 * (x.2 + eps)

/-- Why an arc is affected until `v`. -/
def Cause (limit : Rat) (up : Bool) (e v : Nat) : Prop := 0 < v → ∃ i k via a b, EntryHolds (src up e) i k via a b ∧ a < limit ∧ (v : Rat) < 1000 * b + 1 ∧
  ∃ o x, Within src via o ∧ ended[o]? = some x ∧ v ≤ x

/-- The arcs in `D` have been processed. -/
structure LInv (m : Nat) (D : Bool → Nat → Prop) (r : Times) : Prop where
  len : ∀ up, (r.dir up).length = m
  small : ∀ (up : Bool) (e v : Nat), (r.dir up)[e]? = some v → v < U32
  why : ∀ (up : Bool) (e v : Nat), (r.dir up)[e]? = some v → Cause src ended ((longestLive ended : Rat) / 1000 - eps) up e v
  done : ∀ (up : Bool) (e v : Nat), D up e → (r.dir up)[e]? = some v → Holds src travel ended start0 eps up e v

end

theorem drive_forward {src : Bool → Nat → List (Rat × Via)} {travel : Nat → Rat → Rat → Prop} (ht : ∀ o t t', travel o t t' → t ≤ t') {up : Bool} {e : Nat} {t t' : Rat}
    {log : List (Nat × Rat)} (hd : Drive src travel up e t t' log) : t ≤ t' ∧ ∀ x ∈ log, t ≤ x.2 := by
  induction hd with
  | edge _ h => exact ⟨ht _ _ _ h, by simp⟩
  | pair _ _ _ i1 i2 =>
    refine ⟨le_trans i1.1 i2.1, fun x hx => ?_⟩
    rcases List.mem_append.1 hx with h | h
    · exact i1.2 x h
    · exact le_trans i1.1 (i2.2 x h)

theorem longest_ge {ended : List Nat} : ∀ a ∈ ended, a ≤ longestLive ended := by
  have key : ∀ (l : List Nat) (b : Nat), b ≤ l.foldl max b ∧ ∀ a ∈ l, a ≤ l.foldl max b := by
    intro l
    induction l with
    | nil => intro b; simp
    | cons x l ih =>
      intro b
      obtain ⟨h1, h2⟩ := ih (max b x)
      refine ⟨by simp only [List.foldl_cons]; omega, ?_⟩
      intro a ha
      rcases List.mem_cons.1 ha with rfl | ha
      · simp only [List.foldl_cons]; omega
      · exact h2 a ha
  exact (key ended 0).2

theorem write_times (r : Times) (up : Bool) {e : Nat} (x : Nat) (h : e < (r.dir up).length) : ∃ r', r.write up e x = some r' ∧
    (∀ up', (r'.dir up').length = (r.dir up').length) ∧ ∀ up' e', (r'.dir up')[e']? = if up' = up ∧ e' = e then some x else (r.dir up')[e']? := by
  cases up
  · refine ⟨{ r with bw := r.bw.set e x }, by simp only [Times.write]; simp only [Times.dir] at h; rw [upd_of_lt _ h]; rfl, ?_, ?_⟩
    · intro up'; cases up' <;> simp [Times.dir]
    · intro up' e'
      cases up'
      · simp only [Times.dir] at h ⊢
        rw [List.getElem?_set]
        by_cases c : e = e'
        · subst c; simp [h]
        · simp [c, Ne.symm c]
      · simp [Times.dir]
  · refine ⟨{ r with fw := r.fw.set e x }, by simp only [Times.write]; simp only [Times.dir] at h; rw [upd_of_lt _ h]; rfl, ?_, ?_⟩
    · intro up'; cases up' <;> simp [Times.dir]
    · intro up' e'
      cases up'
      · simp [Times.dir]
      · simp only [Times.dir] at h ⊢
        rw [List.getElem?_set]
        by_cases c : e = e'
        · subst c; simp [h]
        · simp [c, Ne.symm c]

section
variable {src : Bool → Nat → List (Rat × Via)} {travel : Nat → Rat → Rat → Prop} {ended : List Nat} {eps : Rat} {tLive : Nat} {m : Nat} {bs : Search}
  {d : TimedArrays}

/-- what is assumed about the input -/
structure Input (src : Bool → Nat → List (Rat × Via)) (travel : Nat → Rat → Rat → Prop) (ended : List Nat) (eps : Rat) (m : Nat) (bs : Search)
    (d : TimedArrays) (fuel : Nat) : Prop where
  forward : ∀ o t t', travel o t t' → t ≤ t'
  small : ∀ a ∈ ended, a < U32
  eps : 0 ≤ eps
  bs : SearchesBy bs
  srcs : ∀ up e, e < m → d.sources up e = some (src up e) ∧ SortedSources (src up e)
  edges : ∀ up e t o, e < m → (t, Via.edge o) ∈ src up e → o < ended.length
  fuel : ∀ up e, e < m → (src up e).length * (longestLive ended + 1) < fuel

theorem edgeStep_ok {fuel : Nat} (hin : Input src travel ended eps m bs d fuel) {D : Bool → Nat → Prop} {r : Times}
    (hi : LInv src travel ended ((tLive : Rat) / 1000 + eps) eps m D r) {offset start : Nat} (hst : start ≤ m) {up : Bool} {e : Nat} (he : e < m)
    (hv : ∀ t a b, (t, Via.pair a b) ∈ src up e → offset ≤ a ∧ a < start ∧ D false a ∧ offset ≤ b ∧ b < start ∧ D true b) :
    ∃ r', edgeStep bs eps ended tLive fuel d offset start up r e = some r' ∧
      LInv src travel ended ((tLive : Rat) / 1000 + eps) eps m (fun up' e' => D up' e' ∨ (up' = up ∧ e' = e)) r' := by
  obtain ⟨s1, s2⟩ := hin.srcs up e he
  have heps := hin.eps
  have hlen : e < (r.dir up).length := by rw [hi.len]; exact he
  obtain ⟨v, hvv⟩ : ∃ v, (r.dir up)[e]? = some v := ⟨_, List.getElem?_eq_getElem hlen⟩
  have hsm := hi.small up e v hvv
  rcases Nat.eq_zero_or_pos (src up e).length with h0 | h0
  · have hnil : src up e = [] := List.length_eq_zero_iff.1 h0
    refine ⟨r, by simp [edgeStep, s1, hnil], hi.len, hi.small, hi.why, ?_⟩
    rintro up' e' v' (hD | ⟨rfl, rfl⟩) hv'
    · exact hi.done up' e' v' hD hv'
    · have no : ∀ {t t' log}, ¬ Drive src travel up' e' t t' log := by
        intro t t' log hd
        cases hd with
        | edge ha _ => obtain ⟨i, k, s, q, _⟩ := ha; rw [hnil] at q; simp at q
        | pair ha _ _ => obtain ⟨i, k, s, q, _⟩ := ha; rw [hnil] at q; simp at q
      exact ⟨hi.small _ _ _ hv', fun t t' log hd => absurd hd no, fun t t' log _ _ hd => absurd hd no⟩
  · obtain ⟨p0, c1, c2⟩ := validAt_ok h0 s2 hin.bs hin.eps (t := (tLive : Rat) / 1000) (div_nonneg (Nat.cast_nonneg _) (by norm_num))
    have hlive : ∀ x ∈ src up e, ∃ u, liveUntil ended offset start r x.2 = some u ∧ u < U32 := by
      rintro ⟨t, via⟩ hx
      cases via with
      | nothing => exact ⟨0, rfl, by decide⟩
      | edge o =>
        have := hin.edges up e t o he hx
        exact ⟨ended[o], by simp [liveUntil, this], hin.small _ (List.getElem_mem _)⟩
      | pair a b =>
        obtain ⟨k1, k2, k3, k4, k5, k6⟩ := hv t a b hx
        have hla := hi.len false
        have hlb := hi.len true
        simp only [Times.dir] at hla hlb
        have ga : r.bw[a]? = some (r.bw[a]'(by omega)) := List.getElem?_eq_getElem _
        have gb : r.fw[b]? = some (r.fw[b]'(by omega)) := List.getElem?_eq_getElem _
        have sa := hi.small false a _ ga
        have sb := hi.small true b _ gb
        refine ⟨max (r.bw[a]'(by omega)) (r.fw[b]'(by omega)), by simp only [liveUntil, belowN, k1, k2, k4, k5, and_self, if_true, ga, gb, Option.bind_eq_bind, Option.bind_some, Option.pure_def], by omega⟩
    have hE : ∀ p, (src up e).length * (longestLive ended + 1) ≤ p → (longestLive ended : Rat) / 1000 ≤ tm (src up e) h0 p := by
      intro p hp
      refine le_trans ?_ (tm_large h0 s2 hp)
      have : (0 : Rat) ≤ (longestLive ended : Rat) := Nat.cast_nonneg _
      simp only [day]
      push_cast
      linarith
    obtain ⟨v', a1, a2, a3, a4, a5⟩ := scan_ok h0 s2 hin.eps hlive hE fuel p0 v (by have := hin.fuel up e he; omega) (by have := hin.fuel up e he; omega) hsm
    obtain ⟨r', w1, w2, w3⟩ := write_times r up (e := e) v' hlen
    refine ⟨r', ?_, fun u => by rw [w2, hi.len], ?_, ?_, ?_⟩
    · have hne : (src up e).isEmpty = false := by
        cases hc : src up e with
        | nil => rw [hc] at h0; simp at h0
        | cons => rfl
      simp only [edgeStep, s1, hne, c1, hvv, a1, w1, Option.bind_eq_bind, Option.bind_some, Bool.false_eq_true, if_false]
    · intro up' e' x hx
      rw [w3] at hx
      split at hx
      · injection hx with hx; omega
      · exact hi.small up' e' x hx
    · intro up' e' x hx
      rw [w3] at hx
      by_cases c : up' = up ∧ e' = e
      · rw [if_pos c] at hx
        obtain ⟨rfl, rfl⟩ := c
        injection hx with hx
        subst hx
        rcases a5 with rfl | ⟨q, u, q1, q2, q3, q4⟩
        · exact hi.why up' e' _ hvv
        · intro hpos
          refine ⟨_, _, _, _, _, entry_holds h0 q, q1, ceilMs_ge hpos q4, ?_⟩
          have hmem : ((src up' e')[q % (src up' e').length]'(Nat.mod_lt _ h0)) ∈ src up' e' := List.getElem_mem _
          have hmem' : (((src up' e')[q % (src up' e').length]'(Nat.mod_lt _ h0)).1, vi (src up' e') h0 q) ∈ src up' e' := hmem
          revert q2 hmem'
          generalize vi (src up' e') h0 q = via
          intro q2 hmem'
          cases via with
          | nothing => simp [liveUntil] at q2; omega
          | edge o => exact ⟨o, u, .edge o, q2, q3⟩
          | pair a b =>
            obtain ⟨k1, k2, k3, k4, k5, k6⟩ := hv _ a b hmem'
            have hla := hi.len false
            have hlb := hi.len true
            simp only [Times.dir] at hla hlb
            have ga : r.bw[a]? = some (r.bw[a]'(by omega)) := List.getElem?_eq_getElem _
            have gb : r.fw[b]? = some (r.fw[b]'(by omega)) := List.getElem?_eq_getElem _
            simp only [liveUntil, belowN, k1, k2, k4, k5, and_self, if_true, ga, gb, Option.bind_eq_bind, Option.bind_some, Option.pure_def,
              Option.some.injEq] at q2
            rcases Nat.le_total (r.fw[b]'(by omega)) (r.bw[a]'(by omega)) with hle | hle
            · obtain ⟨_, _, _, _, _, ⟨_, _, _, g1, _⟩, _, _, o, x, g2, g3, g4⟩ := hi.why false a _ ga (by omega)
              exact ⟨o, x, .left (List.mem_of_getElem? g1) g2, g3, by omega⟩
            · obtain ⟨_, _, _, _, _, ⟨_, _, _, g1, _⟩, _, _, o, x, g2, g3, g4⟩ := hi.why true b _ gb (by omega)
              exact ⟨o, x, .right (List.mem_of_getElem? g1) g2, g3, by omega⟩
      · rw [if_neg c] at hx
        exact hi.why up' e' x hx
    · intro up' e' x hD hx
      rw [w3] at hx
      by_cases c : up' = up ∧ e' = e
      · rw [if_pos c] at hx
        obtain ⟨rfl, rfl⟩ := c
        injection hx with hx
        subst hx
        have hbound : ∀ t t' log, Drive src travel up' e' t t' log → ∀ x ∈ log, x.1 < ended.length := by
          intro t t' log hd
          have amem : ∀ via, ActiveAt (src up' e') t via → ∃ s, (s, via) ∈ src up' e' := by
            rintro via ⟨i, k, s, q, _⟩
            exact ⟨s, List.mem_of_getElem? q⟩
          cases hd with
          | @edge _ _ o _ _ ha htr =>
            obtain ⟨s, hmem⟩ := amem _ ha
            have := hin.edges up' e' s o he hmem
            simpa using this
          | @pair _ _ a b _ tm1 _ l1 l2 ha d1 d2 =>
            obtain ⟨s, hmem⟩ := amem _ ha
            obtain ⟨k1, k2, k3, k4, k5, k6⟩ := hv s a b hmem
            have hla := hi.len false
            have hlb := hi.len true
            obtain ⟨_, ha', _⟩ := hi.done false a _ k3 (List.getElem?_eq_getElem (by omega))
            obtain ⟨_, hb', _⟩ := hi.done true b _ k6 (List.getElem?_eq_getElem (by omega))
            intro x hx
            rcases List.mem_append.1 hx with hx | hx
            · exact ha' _ _ _ d1 x hx
            · exact hb' _ _ _ d2 x hx
        refine ⟨a3, hbound, ?_⟩
        intro t t' log h1 h2 hd
        have hbd := hbound t t' log hd
        obtain ⟨hf1, hf2⟩ := drive_forward hin.forward hd
        -- edges in the log have a report time
        have late : (longestLive ended : Rat) / 1000 - eps ≤ t → (∀ x ∈ log, x.1 < ended.length) → ∀ x ∈ log, ∃ a, ended[x.1]? = some a ∧ (a : Rat) ≤ 1000 * (x.2 + eps) := by
          intro hl hlog x hx
          refine ⟨ended[x.1]'(hlog x hx), List.getElem?_eq_getElem _, ?_⟩
          have q1 : (ended[x.1]'(hlog x hx)) ≤ longestLive ended := longest_ge _ (List.getElem_mem _)
          have q2 : ((ended[x.1]'(hlog x hx) : Nat) : Rat) ≤ (longestLive ended : Rat) := by exact_mod_cast q1
          have q3 := hf2 x hx
          linarith
        have active : ∀ via, ActiveAt (src up' e') t via → (∃ s, (s, via) ∈ src up' e') ∧ ((longestLive ended : Rat) / 1000 - eps ≤ t ∨
            ∃ u, liveUntil ended offset start r via = some u ∧ u ≤ v') := by
          intro via ha
          obtain ⟨p, p1, p2, p3⟩ := active_pos h0 s2 ha
          have hmem : ((src up' e')[p % (src up' e').length]'(Nat.mod_lt _ h0)) ∈ src up' e' := List.getElem_mem _
          refine ⟨⟨((src up' e')[p % (src up' e').length]'(Nat.mod_lt _ h0)).1, by rw [← p1]; exact hmem⟩, ?_⟩
          have hp : p0 ≤ p := by
            by_contra hc
            have := tm_mono h0 s2 (show p + 1 ≤ p0 by omega)
            linarith
          by_cases hl : tm (src up' e') h0 p < (longestLive ended : Rat) / 1000 - eps
          · right
            obtain ⟨u, u1, u2⟩ := a4 p hp hl
            rw [p1] at u1
            obtain ⟨_, hu⟩ := hlive _ hmem
            have hu2 : u < U32 := by
              obtain ⟨g1, g2⟩ := hu
              have : liveUntil ended offset start r (vi (src up' e') h0 p) = some _ := g1
              rw [p1, u1] at this
              injection this with this
              omega
            refine ⟨u, u1, ?_⟩
            rcases Nat.le_total u (ceilMs (tm (src up' e') h0 (p + 1))) with q | q
            · rw [Nat.min_eq_left q] at u2; exact u2
            · rw [Nat.min_eq_right q] at u2
              have := ceilMs_le p3 h2 u2
              omega
          · left; linarith
        cases hd with
        | @edge _ _ o _ _ ha htr =>
          obtain ⟨⟨s, hmem⟩, hcase⟩ := active _ ha
          have ho := hin.edges up' e' s o he hmem
          rcases hcase with hl | ⟨u, u1, u2⟩
          · exact late hl hbd
          · intro x hx
            simp at hx
            subst hx
            refine ⟨u, u1, ?_⟩
            have : (u : Rat) ≤ (v' : Rat) := by exact_mod_cast u2
            simp only
            linarith
        | @pair _ _ a b _ tm1 _ l1 l2 ha d1 d2 =>
          obtain ⟨⟨s, hmem⟩, hcase⟩ := active _ ha
          obtain ⟨k1, k2, k3, k4, k5, k6⟩ := hv s a b hmem
          have hla := hi.len false
          have hlb := hi.len true
          simp only [Times.dir] at hla hlb
          have ga : r.bw[a]? = some (r.bw[a]'(by omega)) := List.getElem?_eq_getElem _
          have gb : r.fw[b]? = some (r.fw[b]'(by omega)) := List.getElem?_eq_getElem _
          obtain ⟨sa, _, ha'⟩ := hi.done false a _ k3 ga
          obtain ⟨sb, _, hb'⟩ := hi.done true b _ k6 gb
          have m1 := (drive_forward hin.forward d1).1
          rcases hcase with hl | ⟨u, u1, u2⟩
          · exact late hl hbd
          · simp only [liveUntil, belowN, k1, k2, k4, k5, and_self, if_true, ga, gb, Option.bind_eq_bind, Option.bind_some, Option.pure_def,
              Option.some.injEq] at u1
            have qa : ((r.bw[a]'(by omega) : Nat) : Rat) ≤ (v' : Rat) := by
              have : (r.bw[a]'(by omega)) ≤ v' := by omega
              exact_mod_cast this
            have qb : ((r.fw[b]'(by omega) : Nat) : Rat) ≤ (v' : Rat) := by
              have : (r.fw[b]'(by omega)) ≤ v' := by omega
              exact_mod_cast this
            intro x hx
            rcases List.mem_append.1 hx with hx | hx
            · exact ha' _ _ _ h1 (by linarith) d1 x hx
            · exact hb' _ _ _ (by linarith) (by linarith) d2 x hx
      · rw [if_neg c] at hx
        exact hi.done up' e' x (hD.resolve_right c) hx

theorem edges_ok {fuel : Nat} (hin : Input src travel ended eps m bs d fuel) {offset start : Nat} (hst : start ≤ m) {up : Bool} (es : List Nat) :
    ∀ (D : Bool → Nat → Prop) (r : Times), LInv src travel ended ((tLive : Rat) / 1000 + eps) eps m D r →
    (∀ e ∈ es, e < m ∧ ∀ t x y, (t, Via.pair x y) ∈ src up e → offset ≤ x ∧ x < start ∧ D false x ∧ offset ≤ y ∧ y < start ∧ D true y) →
    ∃ r', es.foldlM (edgeStep bs eps ended tLive fuel d offset start up) r = some r' ∧
      LInv src travel ended ((tLive : Rat) / 1000 + eps) eps m (fun up' e' => D up' e' ∨ (up' = up ∧ e' ∈ es)) r' := by
  induction es with
  | nil => intro D r hi _; exact ⟨r, rfl, hi.len, hi.small, hi.why, fun up e v h => hi.done up e v (by simpa using h)⟩
  | cons e es ih =>
    intro D r hi h1
    obtain ⟨k1, k2⟩ := h1 e (by simp)
    obtain ⟨r1, a1, a2⟩ := edgeStep_ok hin hi hst k1 k2
    obtain ⟨r2, b1, b2⟩ := ih _ r1 a2 (by
      intro e' he'
      obtain ⟨l1, l2⟩ := h1 e' (by simp [he'])
      refine ⟨l1, fun t x y hxy => ?_⟩
      obtain ⟨q1, q2, q3, q4, q5, q6⟩ := l2 t x y hxy
      exact ⟨q1, q2, .inl q3, q4, q5, .inl q6⟩)
    refine ⟨r2, by rw [List.foldlM_cons, a1]; exact b1, b2.len, b2.small, b2.why, ?_⟩
    intro up' e' v h
    refine b2.done up' e' v ?_
    rcases h with h | ⟨h, h'⟩
    · exact .inl (.inl h)
    · rcases List.mem_cons.1 h' with h' | h'
      · exact .inl (.inr ⟨h, h'⟩)
      · exact .inr ⟨h, h'⟩

theorem nodeStep_ok {fuel : Nat} (hin : Input src travel ended eps m bs d fuel) {D : Bool → Nat → Prop} {r : Times}
    (hi : LInv src travel ended ((tLive : Rat) / 1000 + eps) eps m D r) {offset x a b : Nat} (ha : d.firstOut[x]? = some a)
    (hb : d.firstOut[x + 1]? = some b) (hab : a ≤ b) (hbm : b ≤ m) (ho : offset ≤ a)
    (hstep : ∀ up e, a ≤ e → e < b → ∀ t y z, (t, Via.pair y z) ∈ src up e → offset ≤ y ∧ y < a ∧ D false y ∧ offset ≤ z ∧ z < a ∧ D true z) :
    ∃ r', nodeStep bs eps ended tLive fuel d offset r x = some r' ∧
      LInv src travel ended ((tLive : Rat) / 1000 + eps) eps m (fun up e => D up e ∨ ArcOf d.firstOut x e) r' := by
  have hr : ∀ e, e ∈ List.range' a (b - a) ↔ a ≤ e ∧ e < b := by intro e; rw [List.mem_range'_1]; omega
  obtain ⟨r1, a1, a2⟩ := edges_ok hin (offset := offset) (start := a) (up := true) (by omega) (List.range' a (b - a)) D r hi (fun e he => by
    have := (hr e).1 he
    exact ⟨by omega, hstep true e this.1 this.2⟩)
  obtain ⟨r2, b1, b2⟩ := edges_ok hin (offset := offset) (start := a) (up := false) (by omega) (List.range' a (b - a)) _ r1 a2 (fun e he => by
    have := (hr e).1 he
    refine ⟨by omega, fun t y z h => ?_⟩
    obtain ⟨q1, q2, q3, q4, q5, q6⟩ := hstep false e this.1 this.2 t y z h
    exact ⟨q1, q2, .inl q3, q4, q5, .inl q6⟩)
  refine ⟨r2, ?_, b2.len, b2.small, b2.why, ?_⟩
  · simp only [nodeStep, ha, hb, Option.bind_eq_bind, Option.bind_some]
    rw [if_neg (by omega), a1]
    exact b1
  · intro up e v h hv
    refine b2.done up e v ?_ hv
    rcases h with h | ⟨a', b', h1, h2, h3, h4⟩
    · exact .inl (.inl h)
    · rw [ha] at h1; rw [hb] at h2
      injection h1 with h1; injection h2 with h2
      subst h1; subst h2
      have := (hr e).2 ⟨h3, h4⟩
      cases up
      · exact .inr ⟨rfl, this⟩
      · exact .inl (.inr ⟨rfl, this⟩)

theorem nodes_ok {fuel : Nat} (hin : Input src travel ended eps m bs d fuel) {n : Nat} (hn : d.firstOut.length = n + 1) (hm : d.firstOut[n]? = some m)
    (hmono : ∀ (i j a b : Nat), i ≤ j → d.firstOut[i]? = some a → d.firstOut[j]? = some b → a ≤ b) (offset : Nat → Nat)
    (ho : ∀ (x a : Nat), x < n → d.firstOut[x]? = some a → offset x ≤ a) (L : List Nat) : ∀ (done : List Nat) (r : Times), (∀ x ∈ L, x < n) →
      LInv src travel ended ((tLive : Rat) / 1000 + eps) eps m (fun _ e => ∃ x ∈ done, ArcOf d.firstOut x e) r →
      (∀ pre x post, L = pre ++ x :: post → ∀ up e, ArcOf d.firstOut x e → ∀ t a b, (t, Via.pair a b) ∈ src up e → ∀ c, c = a ∨ c = b →
        offset x ≤ c ∧ (∀ z, d.firstOut[x]? = some z → c < z) ∧ ∃ y ∈ done ++ pre, ArcOf d.firstOut y c) →
      ∃ r', L.foldlM (fun r x => nodeStep bs eps ended tLive fuel d (offset x) r x) r = some r' ∧
        LInv src travel ended ((tLive : Rat) / 1000 + eps) eps m (fun _ e => ∃ x ∈ done ++ L, ArcOf d.firstOut x e) r' := by
  induction L with
  | nil => intro done r _ hi _; exact ⟨r, rfl, by simpa using hi⟩
  | cons x L ih =>
    intro done r hL hi hord
    have hx := hL x (by simp)
    obtain ⟨a, ha⟩ : ∃ a, d.firstOut[x]? = some a := ⟨_, List.getElem?_eq_getElem (by omega)⟩
    obtain ⟨b, hb⟩ : ∃ b, d.firstOut[x + 1]? = some b := ⟨_, List.getElem?_eq_getElem (by omega)⟩
    have hab := hmono x (x + 1) a b (by omega) ha hb
    have hbm := hmono (x + 1) n b m (by omega) hb hm
    obtain ⟨r1, k1, k2⟩ := nodeStep_ok hin hi (offset := offset x) ha hb hab hbm (ho x a hx ha) (by
      intro up e h1 h2 t y z hyz
      have key : ∀ c, c = y ∨ c = z → offset x ≤ c ∧ c < a ∧ ∃ w ∈ done, ArcOf d.firstOut w c := by
        intro c hc
        obtain ⟨q1, q2, w, q3, q4⟩ := hord [] x L rfl up e ⟨a, b, ha, hb, h1, h2⟩ t y z hyz c hc
        rw [List.append_nil] at q3
        exact ⟨q1, q2 a ha, w, q3, q4⟩
      obtain ⟨p1, p2, p3⟩ := key y (.inl rfl)
      obtain ⟨p4, p5, p6⟩ := key z (.inr rfl)
      exact ⟨p1, p2, p3, p4, p5, p6⟩)
    obtain ⟨r2, l1, l2⟩ := ih (done ++ [x]) r1 (fun y hy => hL y (by simp [hy])) ⟨k2.len, k2.small, k2.why, by
        intro up e v h
        refine k2.done up e v ?_
        obtain ⟨y, hy, hye⟩ := h
        rcases List.mem_append.1 hy with h | h
        · exact .inl ⟨y, h, hye⟩
        · simp at h; subst h; exact .inr hye⟩ (by
        intro pre y post hp up e he t a b hab c hc
        have := hord (x :: pre) y post (by simp [hp]) up e he t a b hab c hc
        simpa using this)
    refine ⟨r2, ?_, by simpa using l2⟩
    simp only [List.foldlM_cons, k1, Option.bind_eq_bind, Option.bind_some]
    exact l1

end

end LiveUntil
end Verif
