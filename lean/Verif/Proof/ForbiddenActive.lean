import Verif.Model.ForbiddenPaths
/- The sets of active forbidden paths: helper lemmas. -/
set_option linter.unusedSimpArgs false
set_option linter.unusedVariables false
namespace Verif.Traffic
namespace Active

/-- bit `i` is set -/
def Has : Active → Nat → Prop
  | .one w, i => w.getLsbD i = true
  | .more ws, i => ∃ w, ws[i / 128]? = some w ∧ w.getLsbD (i % 128) = true

/-- inclusion of the sets of bits -/
def Sub (a b : Active) : Prop := ∀ i, a.Has i → b.Has i

theorem Sub.refl (a : Active) : Sub a a := fun _ h => h
theorem Sub.trans {a b c : Active} (h1 : Sub a b) (h2 : Sub b c) : Sub a c := fun i h => h2 i (h1 i h)

/-- number of bits -/
def cap : Active → Nat
  | .one _ => 128
  | .more ws => 128 * ws.length

/-- at least one word -/
def Good (a : Active) : Prop := 0 < a.cap

/-- the same representation -/
def Same : Active → Active → Prop
  | .one _, .one _ => True
  | .more a, .more b => a.length = b.length
  | _, _ => False

theorem Same.refl (a : Active) : Same a a := by cases a <;> simp [Same]
theorem Same.cap {a b : Active} (h : Same a b) : b.cap = a.cap := by
  cases a <;> cases b <;> simp_all [Same, Active.cap]

theorem new_cap (n : Nat) : n ≤ (new n).cap ∧ 0 < (new n).cap := by
  unfold new
  split
  · exact ⟨by simpa [cap], by simp [cap]⟩
  · simp only [cap, List.length_replicate]; omega

theorem has_new (n i : Nat) : ¬ (new n).Has i := by
  unfold new
  split
  · simp [Has]
  · simp only [Has, not_exists, not_and]
    intro w hw
    have := List.getElem?_eq_some_iff.1 hw
    obtain ⟨h1, h2⟩ := this
    simp at h2
    subst h2
    simp

theorem new_sub (n : Nat) (a : Active) : Sub (new n) a := fun i h => absurd h (has_new n i)

private theorem and_shl (w : BitVec 128) (i : Nat) (hi : i < 128) : (w &&& (1#128 <<< i) != 0) = w.getLsbD i := by
  cases hw : w.getLsbD i with
  | true =>
    rw [bne_iff_ne]
    intro h
    have := congrArg (fun x => BitVec.getLsbD x i) h
    simp only [BitVec.getLsbD_and, BitVec.getLsbD_shiftLeft, hw, hi] at this
    simp at this
  | false =>
    rw [bne_eq_false_iff_eq]
    apply BitVec.eq_of_getLsbD_eq
    intro j hj
    simp
    intro h1 h2 h3
    by_cases h : j = i
    · subst h; simp [hw] at h1
    · omega

theorem get_spec {a : Active} {i : Nat} (hi : i < a.cap) : ∃ x, a.get i = some x ∧ (x = true ↔ a.Has i) := by
  cases a with
  | one w =>
    simp only [cap] at hi
    refine ⟨_, by simp only [get, shl, if_pos hi, Option.bind_eq_bind, Option.bind_some, Option.pure_def]; rfl, ?_⟩
    rw [and_shl w i hi]; rfl
  | more ws =>
    simp only [cap] at hi
    have h1 : i / 128 < ws.length := by omega
    have h2 : i % 128 < 128 := Nat.mod_lt _ (by omega)
    have h3 : ws[i / 128]? = some ws[i / 128] := List.getElem?_eq_getElem h1
    refine ⟨_, by simp only [get, shl, h3, if_pos h2, Option.bind_eq_bind, Option.bind_some, Option.pure_def]; rfl, ?_⟩
    rw [and_shl _ _ h2]
    simp [Has, h3]

private theorem or_shl (w : BitVec 128) (i j : Nat) (hi : i < 128) : (w ||| (1#128 <<< i)).getLsbD j = true ↔ w.getLsbD j = true ∨ j = i := by
  rw [BitVec.getLsbD_or]
  simp
  constructor
  · rintro (h | ⟨⟨h1, h2⟩, h3⟩)
    · exact .inl h
    · right; omega
  · rintro (h | rfl)
    · exact .inl h
    · right; simp [hi]

theorem set_spec {a : Active} {i : Nat} (hi : i < a.cap) : ∃ b, a.set i = some b ∧ Same a b ∧ ∀ j, b.Has j ↔ a.Has j ∨ j = i := by
  cases a with
  | one w =>
    simp only [cap] at hi
    refine ⟨.one (w ||| (1#128 <<< i)), by simp only [set, shl, if_pos hi, Option.bind_eq_bind, Option.bind_some, Option.pure_def], trivial, ?_⟩
    intro j
    exact or_shl w i j hi
  | more ws =>
    simp only [cap] at hi
    have h1 : i / 128 < ws.length := by omega
    have h2 : i % 128 < 128 := Nat.mod_lt _ (by omega)
    have h3 : ws[i / 128]? = some ws[i / 128] := List.getElem?_eq_getElem h1
    refine ⟨.more (ws.set (i / 128) (ws[i / 128] ||| 1#128 <<< (i % 128))), by simp only [set, shl, h3, if_pos h2, upd_of_lt _ h1, Option.bind_eq_bind, Option.bind_some, Option.pure_def], by simp [Same], ?_⟩
    intro j
    simp only [Has]
    constructor
    · rintro ⟨w, hw, hb⟩
      by_cases hj : j / 128 = i / 128
      · rw [hj, List.getElem?_set_self h1] at hw
        injection hw with hw
        rw [← hw, or_shl _ _ _ h2] at hb
        rcases hb with hb | hb
        · exact .inl ⟨_, by rw [hj]; exact h3, hb⟩
        · right; omega
      · rw [List.getElem?_set_ne (fun h => hj h.symm)] at hw
        exact .inl ⟨w, hw, hb⟩
    · rintro (⟨w, hw, hb⟩ | rfl)
      · by_cases hj : j / 128 = i / 128
        · rw [hj, h3] at hw
          injection hw with hw
          refine ⟨_, by rw [hj]; exact List.getElem?_set_self h1, ?_⟩
          rw [or_shl _ _ _ h2]
          exact .inl (by rw [hw]; exact hb)
        · exact ⟨w, by rw [List.getElem?_set_ne (fun h => hj h.symm)]; exact hw, hb⟩
      · refine ⟨_, List.getElem?_set_self h1, ?_⟩
        rw [or_shl _ _ _ h2]
        exact .inr rfl

theorem sub_iff (a b : BitVec 128) : sub a b = true ↔ ∀ i, a.getLsbD i = true → b.getLsbD i = true := by
  unfold sub
  rw [beq_iff_eq]
  constructor
  · intro h i hi
    have hlt := BitVec.lt_of_getLsbD hi
    have := congrArg (fun x => BitVec.getLsbD x i) h
    simpa [hi, hlt] using this
  · intro h
    apply BitVec.eq_of_getLsbD_eq
    intro i hi
    cases ha : a.getLsbD i with
    | true => simp [ha, h i ha, hi]
    | false =>
      rw [BitVec.getLsbD_eq_getElem hi] at ha
      simp [ha, hi]

theorem subAll_iff (as bs : List (BitVec 128)) : subAll as bs = true ↔
    ∀ (k : Nat) (a : BitVec 128), as[k]? = some a → ∀ i : Nat, a.getLsbD i = true → ∃ b : BitVec 128, bs[k]? = some b ∧ b.getLsbD i = true := by
  induction as generalizing bs with
  | nil => simp [subAll]
  | cons a as ih =>
    cases bs with
    | nil =>
      simp only [subAll, Bool.and_eq_true, sub_iff, ih]
      constructor
      · rintro ⟨h1, h2⟩ k x hx i hi
        cases k with
        | zero => simp at hx; subst hx; exact absurd (h1 i hi) (by simp)
        | succ k => simp at hx; have := h2 k x hx i hi; simpa using this
      · intro h
        refine ⟨fun i hi => absurd (h 0 a rfl i hi) (by simp), fun k x hx i hi => ?_⟩
        have := h (k + 1) x (by simpa using hx) i hi
        simpa using this
    | cons b bs =>
      simp only [subAll, Bool.and_eq_true, sub_iff, ih]
      constructor
      · rintro ⟨h1, h2⟩ k x hx i hi
        cases k with
        | zero => simp at hx; subst hx; exact ⟨b, rfl, h1 i hi⟩
        | succ k => simp at hx; simpa using h2 k x hx i hi
      · intro h
        refine ⟨fun i hi => by simpa using h 0 a rfl i hi, fun k x hx i hi => ?_⟩
        simpa using h (k + 1) x (by simpa using hx) i hi

theorem isSubset_spec {a b : Active} (ha : a.Good) (hb : b.Good) : ∃ x, a.isSubset b = some x ∧ (x = true ↔ Sub a b) := by
  cases a with
  | one a =>
    cases b with
    | one b => exact ⟨_, rfl, sub_iff a b⟩
    | more bs =>
      simp only [Good, cap] at hb
      have h0 : bs[0]? = some (bs[0]'(by omega)) := List.getElem?_eq_getElem (by omega)
      refine ⟨_, by simp only [isSubset, h0, Option.bind_eq_bind, Option.bind_some, Option.pure_def]; rfl, ?_⟩
      rw [sub_iff]
      constructor
      · intro h i hi
        have hlt := BitVec.lt_of_getLsbD hi
        exact ⟨_, by rw [Nat.div_eq_of_lt hlt]; exact h0, by rw [Nat.mod_eq_of_lt hlt]; exact h i hi⟩
      · intro h i hi
        have hlt := BitVec.lt_of_getLsbD hi
        obtain ⟨w, h1, h2⟩ := h i hi
        rw [Nat.div_eq_of_lt hlt, h0] at h1
        rw [Nat.mod_eq_of_lt hlt] at h2
        injection h1 with h1
        rw [h1]; exact h2
  | more as =>
    cases b with
    | one b =>
      simp only [Good, cap] at ha
      have h0 : as[0]? = some (as[0]'(by omega)) := List.getElem?_eq_getElem (by omega)
      refine ⟨_, by simp only [isSubset, h0, Option.bind_eq_bind, Option.bind_some, Option.pure_def]; rfl, ?_⟩
      rw [Bool.and_eq_true, sub_iff, List.all_eq_true]
      constructor
      · rintro ⟨h1, h2⟩ i ⟨w, hw, hi⟩
        by_cases hlt : i < 128
        · rw [Nat.div_eq_of_lt hlt, h0] at hw
          rw [Nat.mod_eq_of_lt hlt] at hi
          injection hw with hw
          exact h1 i (by rw [hw]; exact hi)
        · have : w ∈ as.drop 1 := by
            refine List.mem_iff_getElem?.2 ⟨i / 128 - 1, ?_⟩
            rw [List.getElem?_drop, show 1 + (i / 128 - 1) = i / 128 from by omega]
            exact hw
          have hz := h2 w this
          simp at hz
          subst hz
          simp at hi
      · intro h
        refine ⟨fun i hi => ?_, fun w hw => ?_⟩
        · have hlt := BitVec.lt_of_getLsbD hi
          exact h i ⟨_, by rw [Nat.div_eq_of_lt hlt]; exact h0, by rw [Nat.mod_eq_of_lt hlt]; exact hi⟩
        · obtain ⟨k, hk⟩ := List.mem_iff_getElem?.1 hw
          rw [List.getElem?_drop] at hk
          rw [beq_iff_eq]
          apply BitVec.eq_of_getLsbD_eq
          intro i hi
          cases hwi : w.getLsbD i with
          | false => simp
          | true =>
            exfalso
            have := h (128 * (1 + k) + i) ⟨w, by rw [show (128 * (1 + k) + i) / 128 = 1 + k from by omega]; exact hk, by
              rw [show (128 * (1 + k) + i) % 128 = i from by omega]; exact hwi⟩
            have := BitVec.lt_of_getLsbD this
            omega
    | more bs =>
      refine ⟨_, rfl, ?_⟩
      rw [subAll_iff]
      constructor
      · rintro h i ⟨w, hw, hi⟩
        exact h _ w hw _ hi
      · intro h k a hk i hi
        have hlt := BitVec.lt_of_getLsbD hi
        have := h (128 * k + i) ⟨a, by rw [show (128 * k + i) / 128 = k from by omega]; exact hk, by
          rw [show (128 * k + i) % 128 = i from by omega]; exact hi⟩
        obtain ⟨w, h1, h2⟩ := this
        rw [show (128 * k + i) / 128 = k from by omega] at h1
        rw [show (128 * k + i) % 128 = i from by omega] at h2
        exact ⟨w, h1, h2⟩

end Active
end Verif.Traffic
