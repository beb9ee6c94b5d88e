import Verif.Model.Sources
set_option linter.unusedSimpArgs false
set_option linter.unusedVariables false
/- Lemmas about the removal of arcs that can no longer be unpacked. -/
namespace Verif
namespace Sources
open Spec

/-- a required flag is set -/
def Good (r : Required) (up : Bool) (e : Nat) : Prop := (r.dir up)[e]? = some true

/-- The arcs in `D` have been processed, the others not. -/
structure SInv (m : Nat) (src : Bool → Nat → List Via) (r0 : Required) (D : Bool → Nat → Prop) (r : Required) : Prop where
  len : ∀ up, (r.dir up).length = m
  done : ∀ up e, e < m → D up e → ((r.dir up)[e]? = some true ↔ Unpacks (Good r0) src up e)
  todo : ∀ up e, ¬ D up e → (r.dir up)[e]? = (r0.dir up)[e]?

variable {m : Nat} {src : Bool → Nat → List Via} {r0 : Required}

theorem unpacks_iff {good : Bool → Nat → Prop} {up : Bool} {e : Nat} : Unpacks good src up e ↔
    good up e ∧ ∃ v ∈ src up e, (∃ o, v = .edge o) ∨ ∃ a b, v = .pair a b ∧ Unpacks good src false a ∧ Unpacks good src true b := by
  constructor
  · intro h
    cases h with
    | edge h1 h2 => exact ⟨h1, _, h2, .inl ⟨_, rfl⟩⟩
    | pair h1 h2 h3 h4 => exact ⟨h1, _, h2, .inr ⟨_, _, rfl, h3, h4⟩⟩
  · rintro ⟨h1, v, h2, ⟨o, rfl⟩ | ⟨a, b, rfl, h3, h4⟩⟩
    · exact .edge h1 h2
    · exact .pair h1 h2 h3 h4

theorem below_ok {offset start : Nat} {l : List Bool} {e : Nat} (h1 : offset ≤ e) (h2 : e < start) (h3 : e < l.length) :
    ∃ x, below offset start l e = some x ∧ l[e]? = some x :=
  ⟨l[e], by simp [below, h1, h2, h3], by simp [h3]⟩

theorem any_ok {D : Bool → Nat → Prop} {r : Required} (hi : SInv m src r0 D r) {offset start : Nat} (hs : start ≤ m) (vs : List Via)
    (hv : ∀ a b, Via.pair a b ∈ vs → offset ≤ a ∧ a < start ∧ D false a ∧ offset ≤ b ∧ b < start ∧ D true b) :
    ∃ x, anyRequired offset start r vs = some x ∧ (x = true ↔ ∃ v ∈ vs, (∃ o, v = .edge o) ∨
      ∃ a b, v = .pair a b ∧ Unpacks (Good r0) src false a ∧ Unpacks (Good r0) src true b) := by
  induction vs with
  | nil => exact ⟨false, rfl, by simp⟩
  | cons v vs ih =>
    obtain ⟨x, h1, h2⟩ := ih (fun a b h => hv a b (by simp [h]))
    cases v with
    | edge o => exact ⟨true, rfl, by simp⟩
    | nothing =>
      refine ⟨x, by simp [anyRequired, h1], h2.trans ?_⟩
      simp
    | pair a b =>
      obtain ⟨k1, k2, k3, k4, k5, k6⟩ := hv a b (by simp)
      have hla := hi.len false
      have hlb := hi.len true
      obtain ⟨y, y1, y2⟩ := below_ok (l := r.bw) k1 k2 (by simp only [Required.dir] at hla; omega)
      obtain ⟨z, z1, z2⟩ := below_ok (l := r.fw) k4 k5 (by simp only [Required.dir] at hlb; omega)
      have q1 := hi.done false a (by omega) k3
      have q2 := hi.done true b (by omega) k6
      simp only [Required.dir, y2, z2, Option.some.injEq] at q1 q2
      cases y with
      | false =>
        refine ⟨x, by simp [anyRequired, y1, h1], h2.trans ?_⟩
        simp only [Bool.false_eq_true, false_iff] at q1
        simp [q1]
      | true =>
        cases z with
        | false =>
          refine ⟨x, by simp [anyRequired, y1, z1, h1], h2.trans ?_⟩
          simp only [Bool.false_eq_true, false_iff] at q2
          simp [q2]
        | true =>
          refine ⟨true, by simp [anyRequired, y1, z1], ?_⟩
          simp only [true_iff] at q1 q2
          simp only [true_iff]
          exact ⟨_, by simp, .inr ⟨a, b, rfl, q1, q2⟩⟩

theorem write_ok (r : Required) (up : Bool) {e : Nat} (x : Bool) (h : e < (r.dir up).length) : ∃ r', r.write up e x = some r' ∧
    (∀ up', (r'.dir up').length = (r.dir up').length) ∧ ∀ up' e', (r'.dir up')[e']? = if up' = up ∧ e' = e then some x else (r.dir up')[e']? := by
  cases up
  · refine ⟨{ r with bw := r.bw.set e x }, by simp only [Required.write]; simp only [Required.dir] at h; rw [upd_of_lt _ h]; rfl, ?_, ?_⟩
    · intro up'; cases up' <;> simp [Required.dir]
    · intro up' e'
      cases up'
      · simp only [Required.dir] at h ⊢
        rw [List.getElem?_set]
        by_cases c : e = e'
        · subst c; simp [h]
        · simp [c, Ne.symm c]
      · simp [Required.dir]
  · refine ⟨{ r with fw := r.fw.set e x }, by simp only [Required.write]; simp only [Required.dir] at h; rw [upd_of_lt _ h]; rfl, ?_, ?_⟩
    · intro up'; cases up' <;> simp [Required.dir]
    · intro up' e'
      cases up'
      · simp [Required.dir]
      · simp only [Required.dir] at h ⊢
        rw [List.getElem?_set]
        by_cases c : e = e'
        · subst c; simp [h]
        · simp [c, Ne.symm c]

theorem edgeStep_ok {d : Arrays} {D : Bool → Nat → Prop} {r : Required} (hi : SInv m src r0 D r) {offset start : Nat} (hs : start ≤ m) {up : Bool} {e : Nat}
    (he : e < m) (hD : ¬ D up e) (hsrc : d.sources up e = some (src up e))
    (hv : ∀ a b, Via.pair a b ∈ src up e → offset ≤ a ∧ a < start ∧ D false a ∧ offset ≤ b ∧ b < start ∧ D true b) :
    ∃ r', edgeStep d offset start up r e = some r' ∧ SInv m src r0 (fun up' e' => D up' e' ∨ (up' = up ∧ e' = e)) r' := by
  obtain ⟨x, h1, h2⟩ := any_ok hi hs (src up e) hv
  have hnow := hi.todo up e hD
  cases x with
  | true =>
    refine ⟨r, by simp [edgeStep, hsrc, h1], hi.len, ?_, ?_⟩
    · rintro up' e' he' (h | ⟨rfl, rfl⟩)
      · exact hi.done up' e' he' h
      · rw [unpacks_iff, hnow]
        exact ⟨fun h => ⟨h, h2.1 rfl⟩, fun h => h.1⟩
    · intro up' e' h
      exact hi.todo up' e' fun h' => h (.inl h')
  | false =>
    obtain ⟨r', w1, w2, w3⟩ := write_ok r up (e := e) false (by rw [hi.len]; exact he)
    refine ⟨r', by simp [edgeStep, hsrc, h1, w1], fun u => by rw [w2, hi.len], ?_, ?_⟩
    · intro up' e' he' h
      rw [w3]
      by_cases c : up' = up ∧ e' = e
      · obtain ⟨rfl, rfl⟩ := c
        rw [if_pos ⟨rfl, rfl⟩, unpacks_iff]
        constructor
        · intro h; simp at h
        · intro h; exact absurd (h2.2 h.2) (by simp)
      · rw [if_neg c]
        exact hi.done up' e' he' (h.resolve_right c)
    · intro up' e' h
      rw [w3, if_neg fun h' => h (.inr h')]
      exact hi.todo up' e' fun h' => h (.inl h')

theorem edges_ok {d : Arrays} {offset start : Nat} (hs : start ≤ m) {up : Bool} (k : Nat) : ∀ (a : Nat) (D : Bool → Nat → Prop) (r : Required), SInv m src r0 D r →
    start ≤ a → a + k ≤ m → (∀ e, a ≤ e → e < a + k → ¬ D up e ∧ d.sources up e = some (src up e) ∧
      ∀ x y, Via.pair x y ∈ src up e → offset ≤ x ∧ x < start ∧ D false x ∧ offset ≤ y ∧ y < start ∧ D true y) →
    ∃ r', (List.range' a k).foldlM (edgeStep d offset start up) r = some r' ∧
      SInv m src r0 (fun up' e' => D up' e' ∨ (up' = up ∧ a ≤ e' ∧ e' < a + k)) r' := by
  induction k with
  | zero =>
    intro a D r hi _ _ _
    refine ⟨r, rfl, ?_⟩
    have : (fun up' e' => D up' e' ∨ (up' = up ∧ a ≤ e' ∧ e' < a + 0)) = D := by
      funext up' e'; apply propext; constructor
      · rintro (h | h)
        · exact h
        · omega
      · exact .inl
    rw [this]; exact hi
  | succ k ih =>
    intro a D r hi h1 h2 h3
    obtain ⟨k1, k2, k3⟩ := h3 a (Nat.le_refl _) (by omega)
    obtain ⟨r1, a1, a2⟩ := edgeStep_ok hi hs (by omega) k1 k2 k3
    obtain ⟨r2, b1, b2⟩ := ih (a + 1) _ r1 a2 (by omega) (by omega) (by
      intro e he he'
      obtain ⟨l1, l2, l3⟩ := h3 e (by omega) (by omega)
      refine ⟨?_, l2, ?_⟩
      · rintro (h | ⟨_, h⟩)
        · exact l1 h
        · omega
      · intro x y hxy
        obtain ⟨q1, q2, q3, q4, q5, q6⟩ := l3 x y hxy
        exact ⟨q1, q2, .inl q3, q4, q5, .inl q6⟩)
    refine ⟨r2, by rw [List.range'_succ, List.foldlM_cons, a1]; exact b1, ?_⟩
    have : (fun up' e' => D up' e' ∨ (up' = up ∧ a ≤ e' ∧ e' < a + (k + 1))) =
        (fun up' e' => (D up' e' ∨ (up' = up ∧ e' = a)) ∨ (up' = up ∧ a + 1 ≤ e' ∧ e' < a + 1 + k)) := by
      funext up' e'; apply propext; constructor
      · rintro (h | ⟨h, h', h''⟩)
        · exact .inl (.inl h)
        · by_cases c : e' = a
          · exact .inl (.inr ⟨h, c⟩)
          · exact .inr ⟨h, by omega, by omega⟩
      · rintro ((h | ⟨h, h'⟩) | ⟨h, h', h''⟩)
        · exact .inl h
        · exact .inr ⟨h, by omega, by omega⟩
        · exact .inr ⟨h, by omega, by omega⟩
    rw [this]; exact b2

theorem nodeStep_ok {d : Arrays} {D : Bool → Nat → Prop} {r : Required} (hi : SInv m src r0 D r) {offset x a b : Nat} (ha : d.firstOut[x]? = some a)
    (hb : d.firstOut[x + 1]? = some b) (hab : a ≤ b) (hbm : b ≤ m) (ho : offset ≤ a) (hstep : ∀ up e, a ≤ e → e < b → ¬ D up e ∧ d.sources up e = some (src up e) ∧
      ∀ y z, Via.pair y z ∈ src up e → offset ≤ y ∧ y < a ∧ D false y ∧ offset ≤ z ∧ z < a ∧ D true z) :
    ∃ r', nodeStep d offset r x = some r' ∧ SInv m src r0 (fun up e => D up e ∨ ArcOf d.firstOut x e) r' := by
  obtain ⟨r1, a1, a2⟩ := edges_ok (d := d) (offset := offset) (start := a) (up := true) (by omega) (b - a) a D r hi (Nat.le_refl _) (by omega)
    (fun e h1 h2 => hstep true e h1 (by omega))
  obtain ⟨r2, b1, b2⟩ := edges_ok (d := d) (offset := offset) (start := a) (up := false) (by omega) (b - a) a _ r1 a2 (Nat.le_refl _) (by omega)
    (fun e h1 h2 => by
      obtain ⟨l1, l2, l3⟩ := hstep false e h1 (by omega)
      refine ⟨?_, l2, ?_⟩
      · rintro (h | ⟨h, _⟩)
        · exact l1 h
        · simp at h
      · intro y z h
        obtain ⟨q1, q2, q3, q4, q5, q6⟩ := l3 y z h
        exact ⟨q1, q2, .inl q3, q4, q5, .inl q6⟩)
  refine ⟨r2, ?_, ?_⟩
  · simp only [nodeStep, ha, hb, Option.bind_eq_bind, Option.bind_some]
    rw [if_neg (by omega), a1]
    exact b1
  · have : (fun up e => D up e ∨ ArcOf d.firstOut x e) =
        (fun up e => (D up e ∨ (up = true ∧ a ≤ e ∧ e < a + (b - a))) ∨ (up = false ∧ a ≤ e ∧ e < a + (b - a))) := by
      funext up e; apply propext
      have : ArcOf d.firstOut x e ↔ a ≤ e ∧ e < a + (b - a) := by
        simp only [ArcOf, ha, hb, Option.some.injEq]
        constructor
        · rintro ⟨_, _, rfl, rfl, h1, h2⟩; omega
        · intro h; exact ⟨a, b, rfl, rfl, h.1, by omega⟩
      rw [this]
      cases up <;> simp
    rw [this]; exact b2

theorem disable_ok {d : Arrays} {n : Nat} (hn : d.firstOut.length = n + 1) (hm : d.firstOut[n]? = some m)
    (hmono : ∀ (i j a b : Nat), i ≤ j → d.firstOut[i]? = some a → d.firstOut[j]? = some b → a ≤ b) (offset : Nat → Nat)
    (ho : ∀ (x a : Nat), x < n → d.firstOut[x]? = some a → offset x ≤ a) (hsrc : ∀ up e, e < m → d.sources up e = some (src up e))
    (L : List Nat) : ∀ (done : List Nat) (r : Required), (done ++ L).Nodup → (∀ x ∈ L, x < n) → (∀ x ∈ done, x < n) →
      SInv m src r0 (fun _ e => ∃ x ∈ done, ArcOf d.firstOut x e) r →
      (∀ pre x post, L = pre ++ x :: post → ∀ up e, ArcOf d.firstOut x e → ∀ a b, Via.pair a b ∈ src up e → ∀ c, c = a ∨ c = b →
        offset x ≤ c ∧ c < e ∧ ∃ y ∈ done ++ pre, ArcOf d.firstOut y c) →
      ∃ r', disable d offset L r = some r' ∧ SInv m src r0 (fun _ e => ∃ x ∈ done ++ L, ArcOf d.firstOut x e) r' := by
  induction L with
  | nil => intro done r _ _ _ hi _; exact ⟨r, rfl, by simpa using hi⟩
  | cons x L ih =>
    intro done r hnd hL hdn hi hord
    have hx := hL x (by simp)
    obtain ⟨a, ha⟩ : ∃ a, d.firstOut[x]? = some a := ⟨_, List.getElem?_eq_getElem (by omega)⟩
    obtain ⟨b, hb⟩ : ∃ b, d.firstOut[x + 1]? = some b := ⟨_, List.getElem?_eq_getElem (by omega)⟩
    have hab := hmono x (x + 1) a b (by omega) ha hb
    have hbm := hmono (x + 1) n b m (by omega) hb hm
    have huniq : ∀ y e, ArcOf d.firstOut y e → a ≤ e → e < b → y = x := by
      rintro y e ⟨a', b', h1, h2, h3, h4⟩ h5 h6
      rcases Nat.lt_trichotomy y x with h | h | h
      · have := hmono (y + 1) x b' a (by omega) h2 ha; omega
      · exact h
      · have := hmono (x + 1) y b a' (by omega) hb h1; omega
    have hxd : x ∉ done := by
      intro h
      rw [List.nodup_append] at hnd
      exact hnd.2.2 x h x (by simp) rfl
    obtain ⟨r1, k1, k2⟩ := nodeStep_ok hi (offset := offset x) ha hb hab hbm (ho x a hx ha) (by
      intro up e h1 h2
      refine ⟨?_, hsrc up e (by omega), ?_⟩
      · rintro ⟨y, hy, hye⟩
        exact hxd (huniq y e hye h1 h2 ▸ hy)
      · intro y z hyz
        have key : ∀ c, c = y ∨ c = z → offset x ≤ c ∧ c < a ∧ ∃ w ∈ done, ArcOf d.firstOut w c := by
          intro c hc
          obtain ⟨q1, q2, w, q3, q4⟩ := hord [] x L rfl up e ⟨a, b, ha, hb, h1, h2⟩ y z hyz c hc
          rw [List.append_nil] at q3
          refine ⟨q1, ?_, w, q3, q4⟩
          by_cases hca : c < a
          · exact hca
          · exact absurd (huniq w c q4 (by omega) (by omega) ▸ q3) hxd
        obtain ⟨p1, p2, p3⟩ := key y (.inl rfl)
        obtain ⟨p4, p5, p6⟩ := key z (.inr rfl)
        exact ⟨p1, p2, p3, p4, p5, p6⟩)
    have hD : (fun (up : Bool) e => (∃ y ∈ done, ArcOf d.firstOut y e) ∨ ArcOf d.firstOut x e) = (fun _ e => ∃ y ∈ done ++ [x], ArcOf d.firstOut y e) := by
      funext _ e; apply propext; simp only [List.mem_append, List.mem_singleton]
      constructor
      · rintro (⟨y, h, h'⟩ | h)
        · exact ⟨y, .inl h, h'⟩
        · exact ⟨x, .inr rfl, h⟩
      · rintro ⟨y, h | rfl, h'⟩
        · exact .inl ⟨y, h, h'⟩
        · exact .inr h'
    rw [hD] at k2
    obtain ⟨r2, l1, l2⟩ := ih (done ++ [x]) r1 (by simpa using hnd) (fun y hy => hL y (by simp [hy]))
      (by intro y hy; rcases List.mem_append.1 hy with h | h
          · exact hdn y h
          · simp at h; subst h; exact hx) k2 (by
        intro pre y post hp up e he a b hab c hc
        have := hord (x :: pre) y post (by simp [hp]) up e he a b hab c hc
        simpa using this)
    refine ⟨r2, ?_, by simpa using l2⟩
    simp only [disable, List.foldlM_cons, k1, Option.bind_eq_bind, Option.bind_some]
    exact l1

theorem dropAbove_spec (rs : List Bool) : ∀ (ls us : List Nat), ls.length = rs.length → us.length = rs.length →
    (dropAbove rs ls us).length = rs.length ∧ ∀ e : Nat, (dropAbove rs ls us)[e]? = some true ↔
      rs[e]? = some true ∧ ∃ l u, ls[e]? = some l ∧ us[e]? = some u ∧ l ≤ u := by
  induction rs with
  | nil => intro ls us _ _; cases ls <;> simp [dropAbove]
  | cons r rs ih =>
    intro ls us h1 h2
    cases ls with
    | nil => simp at h1
    | cons l ls =>
      cases us with
      | nil => simp at h2
      | cons u us =>
        obtain ⟨i1, i2⟩ := ih ls us (by simpa using h1) (by simpa using h2)
        refine ⟨by simp [dropAbove, i1], ?_⟩
        intro e
        cases e with
        | zero =>
          simp only [dropAbove, List.getElem?_cons_zero, Option.some.injEq]
          by_cases c : l > u
          · simp [c]
          · simp [c]; omega
        | succ e => simpa [dropAbove] using i2 e

end Sources
end Verif
