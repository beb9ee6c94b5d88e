import Verif.Proof.FlLinkMain
import Verif.Proof.FlInverse
/- Property C72: travel time functions of CATCHUp, in exact arithmetic. -/
set_option linter.unusedSimpArgs false
set_option linter.unusedVariables false
namespace Verif
open Spec Fl

/-- Evaluating a travel time function at any time (also negative, also on later days) does not panic and returns the one value that the
function has there. Partial: exact arithmetic, `EPSILON` is zero. -/
theorem C72_evaluate_partial {bs : Search} (hbs : SearchBy bs) {f : List Pt} (hf : ValidTtf f) (t : Rat) :
    ∃ y, evaluate bs 0 f t = some y ∧ 0 ≤ y ∧ ∀ y', TravelTime f t y' ↔ y' = y := by
  rcases valid_cases hf with ⟨v, rfl, hv⟩ | h
  · exact ⟨v, rfl, hv, fun y' => tt_const⟩
  · obtain ⟨y, h1, h2⟩ := h.evaluate hbs t
    refine ⟨y, h1, ?_, fun y' => ⟨fun h' => h.tt_unique h' h2, fun e => e ▸ h2⟩⟩
    obtain ⟨k, _, _, A, p, q, B, e, hs⟩ := h.tt.1 h2
    exact seg_nonneg (ch_iff.1 h.ch A p q B e).1 (h.pos p (by rw [e]; simp)) (h.pos q (by rw [e]; simp)) hs

/-- Linking two travel time functions does not panic and returns a travel time function: first `f`, then `g` when `f` has arrived, at every
time. Partial: exact arithmetic, `EPSILON` is zero. -/
theorem C72_link_partial {bs : Search} (hbs : SearchBy bs) (co : Bool) {f g : List Pt} (hf : ValidTtf f) (hg : ValidTtf g) :
    ∃ r, link bs co 0 f g = some r ∧ ValidTtf r ∧ ∀ t y z, TravelTime f t y → TravelTime g (t + y) z → TravelTime r t (y + z) :=
  link_spec hbs co hf hg

/-- Who leaves later does not arrive earlier, on any day: what link and evaluate are used for keeps this. Partial: exact arithmetic. -/
theorem C72_fifo_partial {f : List Pt} (hf : ValidTtf f) {t y t' y' : Rat} (h : TravelTime f t y) (h' : TravelTime f t' y') (hle : t ≤ t') :
    t + y ≤ t' + y' := fifo hf h h' hle

/-- The departure for an arrival that belongs to a departure on the first day: who leaves then arrives in time. Partial: exact arithmetic, first
day only (`C72_inverse_later_day`). -/
theorem C72_inverse_partial {bs : Search} (hbs : SearchBy bs) {f : List Pt} (hf : ValidTtf f) {v a : Rat} (h0 : f.head? = some ⟨0, v⟩) (h1 : v ≤ a) (h2 : a < v + day) :
    ∃ t y, inverseEvaluate bs 0 f a = some t ∧ TravelTime f t y ∧ t + y = a := by
  rcases valid_cases hf with ⟨w, rfl, hw⟩ | h
  · exact ⟨a - w, w, rfl, tt_const.2 rfl, by ring⟩
  · obtain ⟨t, y, e1, e2, e3, _⟩ := h.inverse hbs (by rw [← List.head?_eq_getElem?]; exact h0) h1 h2
    exact ⟨t, y, e1, e2, e3⟩

namespace FlPlfExample

/-- a search: from the start -/
def linear : Search := fun c l =>
  match l.findIdx? (fun p => c p != .lt) with
  | none => .error l.length
  | some i =>
    match l[i]? with
    | some p => if c p = .eq then .ok i else .error i
    | none => .error i

theorem linear_ok : SearchBy linear := by
  intro c l hm
  cases hf : l.findIdx? (fun p => c p != .lt) with
  | none =>
    have hf0 := hf
    rw [List.findIdx?_eq_none_iff] at hf
    refine ⟨fun i h => by simp [linear, hf0] at h, ?_⟩
    intro i h
    have : i = l.length := by
      have e : l.findIdx? (fun p => c p != .lt) = none := List.findIdx?_eq_none_iff.2 hf
      simp [linear, e] at h; exact h.symm
    subst this
    refine ⟨le_refl _, fun j x hj hx => by simpa using hf x (List.mem_of_getElem? hx), ?_⟩
    intro j x hj hx
    rw [List.getElem?_eq_none hj] at hx; simp at hx
  | some i =>
    obtain ⟨hi, h1, h2⟩ := List.findIdx?_eq_some_iff_getElem.1 hf
    have hp : l[i]? = some l[i] := List.getElem?_eq_getElem hi
    by_cases he : c l[i] = .eq
    · have e : linear c l = .ok i := by simp only [linear, hf, hp, he, if_true]
      refine ⟨fun j h => ?_, fun j h => by rw [e] at h; simp at h⟩
      rw [e] at h; injection h with h; subst h
      exact ⟨_, hp, he⟩
    · have e : linear c l = .error i := by simp only [linear, hf, hp, he, if_false]
      refine ⟨fun j h => by rw [e] at h; simp at h, fun j h => ?_⟩
      rw [e] at h; injection h with h; subst h
      refine ⟨hi.le, ?_, ?_⟩
      · intro k x hk hx
        obtain ⟨hk', rfl⟩ := List.getElem?_eq_some_iff.1 hx
        simpa using h2 k hk
      · have hg : c l[i] = .gt := by
          cases hc : c l[i] with
          | lt => simp [hc] at h1
          | eq => exact absurd hc he
          | gt => rfl
        intro k x hk hx
        rcases Nat.eq_or_lt_of_le hk with rfl | hk
        · rw [hp] at hx; injection hx with hx; rw [← hx]; exact hg
        · exact (hm i k _ x hk hp hx).2 hg

/-- a rush hour in the morning -/
def f : List Pt := [⟨0, 600⟩, ⟨21600, 600⟩, ⟨28800, 1800⟩, ⟨36000, 600⟩, ⟨86400, 600⟩]

/-- at night the ferry takes longer -/
def g : List Pt := [⟨0, 3000⟩, ⟨18000, 1200⟩, ⟨72000, 1200⟩, ⟨86400, 3000⟩]

/-- a test for travel time functions -/
def valid (l : List Pt) : Bool :=
  match l with
  | [p] => decide (p.t = 0) && decide (0 ≤ p.v)
  | p :: q :: B => decide (p.t = 0) && ((q :: B).getLast? == some ⟨day, p.v⟩) && l.all (fun p => decide (0 ≤ p.v)) &&
      (l.zip (q :: B)).all (fun x => decide (x.1.t < x.2.t) && decide (x.1.t + x.1.v ≤ x.2.t + x.2.v))
  | [] => false

theorem valid_ok {l : List Pt} (h : valid l = true) : ValidTtf l := by
  match l, h with
  | [p], h =>
    simp [valid] at h
    exact .inl ⟨p.v, by cases p; simp at h ⊢; exact h.1, h.2⟩
  | p :: q :: B, h =>
    unfold valid at h
    simp only [Bool.and_eq_true, decide_eq_true_eq, beq_iff_eq] at h
    obtain ⟨⟨⟨h1, h2⟩, h3⟩, h4⟩ := h
    rw [List.all_eq_true] at h3 h4
    refine .inr ⟨⟨p.v, (q :: B).dropLast, ?_⟩, fun x hx => by simpa using h3 x hx, ?_⟩
    · rw [List.cons_append, List.dropLast_append_getLast? _ h2]
      cases p; simp at h1 ⊢; exact h1
    · intro A a b C e
      have hz : (a, b) ∈ (p :: q :: B).zip (q :: B) := by
        have ha : (p :: q :: B)[A.length]? = some a := by rw [e]; exact get_of_split.1
        have hb : (p :: q :: B)[A.length + 1]? = some b := by rw [e]; exact get_of_split.2
        rw [List.getElem?_cons_succ] at hb
        exact List.mem_iff_getElem?.2 ⟨A.length, List.getElem?_zip_eq_some.2 ⟨ha, hb⟩⟩
      simpa using h4 _ hz

theorem f_ok : ValidTtf f := valid_ok (by decide +kernel)
theorem g_ok : ValidTtf g := valid_ok (by decide +kernel)

/-- at 7:00 it takes 20 minutes -/
example : evaluate linear 0 f 25200 = some 1200 := by decide +kernel
/-- at 7:00 on the third day, too, with the EPSILON of the code -/
example : evaluate linear (1 / 1000000) f (25200 + 2 * 86400) = some 1200 := by decide +kernel

/-- the two functions one after the other, with the EPSILON of the code or without -/
example : link linear true 0 f g =
    some [⟨0, 3540⟩, ⟨17400, 1800⟩, ⟨21600, 1800⟩, ⟨28800, 3000⟩, ⟨36000, 1800⟩, ⟨71400, 1800⟩, ⟨85800, 3600⟩, ⟨86400, 3540⟩] := by decide +kernel
example : link linear true (1 / 1000000) f g =
    some [⟨0, 3540⟩, ⟨17400, 1800⟩, ⟨21600, 1800⟩, ⟨28800, 3000⟩, ⟨36000, 1800⟩, ⟨71400, 1800⟩, ⟨85800, 3600⟩, ⟨86400, 3540⟩] := by decide +kernel
example := C72_link_partial linear_ok true f_ok g_ok
/-- a constant first -/
example : link linear true 0 [⟨0, 3600⟩] g =
    some [⟨0, 3000 - 360 + 3600⟩, ⟨14400, 4800⟩, ⟨68400, 4800⟩, ⟨82800, 6600⟩, ⟨86400, 3000 - 360 + 3600⟩] := by decide +kernel
/-- the departure for an arrival -/
example : inverseEvaluate linear 0 f 26400 = some 25200 := by decide +kernel
example := C72_inverse_partial linear_ok f_ok (v := 600) (a := 26400) rfl (by norm_num) (by norm_num [day])

end FlPlfExample

open FlPlfExample in
/-- The departure for an arrival on a later day is wrong: `inverse_evaluate` adds the number of days, not their length. Who wants to arrive at
7:20 on the second day is told to leave one second after 7:00 on the first. -/
theorem C72_inverse_later_day : inverseEvaluate linear 0 f (26400 + day) = some 25201 ∧ TravelTime f (25200 + day) 1200 ∧
    ∀ y, TravelTime f 25201 y → 25201 + y ≠ 26400 + day := by
  have hok : Ok f := by
    rcases valid_cases f_ok with ⟨v, e, _⟩ | h
    · simp [f] at e
    · exact h
  have ev : ∀ t y, evaluate linear 0 f t = some y → TravelTime f t y := by
    intro t y h
    obtain ⟨y', h1, _, h2⟩ := C72_evaluate_partial linear_ok f_ok t
    rw [h] at h1; injection h1 with h1
    exact (h2 y).2 h1
  refine ⟨by decide +kernel, ev _ _ (by decide +kernel), ?_⟩
  intro y hy
  have := hok.tt_unique hy (ev 25201 (7201 / 6) (by decide +kernel))
  subst this
  norm_num [day]

end Verif
