import Verif.Proof.CatchupAStar
set_option linter.unusedSimpArgs false
set_option linter.unusedVariables false
/- A triangulated hierarchy contains an up-down path for each earliest arrival. -/
namespace Verif.Catchup
open Spec

section
variable {R up down : Network} {s : Nat} {τ : Rat}

theorem earliest_unique {x : Nat} {a b : Rat} (h : EarliestTrip R s τ x a) (h2 : EarliestTrip R s τ x b) : a = b :=
  le_antisymm (h.2 _ h2.1) (h2.2 _ h.1)

/-- One more arc. -/
theorem add_arc {lim : Rat} (hT : Triangulated up down R lim) (hτ : 0 ≤ τ) (hu : ∀ u v τ y, up u v τ y → Trip R u τ v y) (hd : ∀ u v τ y, down u v τ y → Trip R u τ v y)
    (hR : NoOvertaking R) {u v : Nat} {a b : Rat} (hb : b < lim) (h : UpDownTight up down R s τ u a) : (up u v a b ∨ down u v a b) → EarliestTrip R s τ v b →
    UpDownTight up down R s τ v b := by
  induction h with
  | top h1 =>
    intro h hE
    rcases h with h | h
    · exact .top (.step h1 h hE)
    · exact .down (.top h1) h hE
  | @down x y a' a h1 h2 h3 ih =>
    intro h hE
    rcases h with h | h
    · by_cases e : x = v
      · subst e
        have := earliest_unique (UpDownTight.earliest hR h1) hE
        rw [← this]; exact h1
      · rcases hT.triangles x y v a' a b (le_trans hτ ((UpDownTight.earliest hR h1).1.forward hR)) hb h2 h e with ⟨b', g1, g2⟩ | ⟨b', g1, g2⟩
        swap
        · have := hE.2 _ ((UpDownTight.earliest hR h1).1.append g2)
          linarith
        have hb' : b' = b := by
          refine le_antisymm g1 (hE.2 _ ((UpDownTight.earliest hR h1).1.append ?_))
          rcases g2 with g2 | g2
          · exact hu _ _ _ _ g2
          · exact hd _ _ _ _ g2
        subst hb'
        exact ih g2 hE
    · exact .down (.down h1 h2 h3) h hE

/-- trips with a number of roads, the last road last -/
inductive Back (R : Network) (s : Nat) (τ : Rat) : Nat → Nat → Rat → Prop where
  | zero : Back R s τ 0 s τ
  | succ {k x z : Nat} {a b : Rat} : Back R s τ k x a → R x z a b → Back R s τ (k + 1) z b

theorem back_of {x z : Nat} {a b : Rat} (h : Trip R x a z b) : ∀ k, Back R s τ k x a → ∃ k, Back R s τ k z b := by
  induction h with
  | here => intro k h; exact ⟨k, h⟩
  | there h1 _ ih => intro k h; exact ih _ (.succ h h1)

theorem Back.trip {k z : Nat} {b : Rat} (h : Back R s τ k z b) : Trip R s τ z b := by
  induction h with
  | zero => exact .here _ _
  | succ _ h ih => exact ih.append (.there h (.here _ _))

open Classical in
theorem serves_of {lim : Rat} (hR : NoOvertaking R) (hT : Triangulated up down R lim) (hu : ∀ u v τ y, up u v τ y → Trip R u τ v y) (hd : ∀ u v τ y, down u v τ y → Trip R u τ v y)
    {n : Nat} (hn : ∀ u v τ y, R u v τ y → u < n) (hA : ∀ s τ x, (∃ a, Trip R s τ x a) → ∃ a, EarliestTrip R s τ x a) : Serves up down R lim := by
  intro s τ t y hτ hlim hE
  have H : ∀ m k x y, y < lim → EarliestTrip R s τ x y → (List.range n).countP (fun z => decide (∃ e, e < y ∧ EarliestTrip R s τ z e)) ≤ m → Back R s τ k x y →
      UpDownTight up down R s τ x y := by
    intro m
    induction m using Nat.strong_induction_on with
    | _ m ihm =>
      intro k
      induction k with
      | zero =>
        intro x y _ _ _ hB
        cases hB
        exact .top .start
      | succ k ihk =>
        intro x y hy hE hc hB
        cases hB with
        | @succ _ x' _ a _ hB hr =>
          obtain ⟨e, he⟩ := hA s τ x' ⟨a, hB.trip⟩
          have hea := he.2 a hB.trip
          have hay := hR.forward _ _ _ _ hr
          obtain ⟨y', f1, f2⟩ := hR.fifo _ _ _ _ e hr hea
          have hyy : y' = y := le_antisymm f1 (hE.2 _ (he.1.append (.there f2 (.here _ _))))
          subst hyy
          have hw : UpDownTight up down R s τ x' e := by
            by_cases hlt : e < y'
            · obtain ⟨k', hk'⟩ := back_of he.1 0 .zero
              have hx' := hn _ _ _ _ hr
              have := countP_lt (p := fun z => decide (∃ e, e < y' ∧ EarliestTrip R s τ z e)) (q := fun z => decide (∃ e', e' < e ∧ EarliestTrip R s τ z e')) (List.range n)
                (by
                  intro z _ hz
                  simp only [decide_eq_true_eq] at hz ⊢
                  obtain ⟨e', h1, h2⟩ := hz
                  exact ⟨e', lt_trans h1 hlt, h2⟩) ⟨x', List.mem_range.2 hx', by simp only [decide_eq_true_eq]; exact ⟨e, hlt, he⟩, by
                    simp only [decide_eq_false_iff_not]
                    rintro ⟨e', h1, h2⟩
                    have := earliest_unique h2 he
                    linarith⟩
              exact ihm _ (Nat.lt_of_lt_of_le this hc) k' x' e (lt_trans hlt hy) he (Nat.le_refl _) hk'
            · have h1 : e = y' := le_antisymm (le_trans hea hay) (not_lt.1 hlt)
              have h2 : a = e := le_antisymm (by rw [h1]; exact hay) hea
              subst h2
              exact ihk x' a (by rw [h1]; exact hy) he (by rw [h1]; exact hc) hB
          by_cases exx : x' = x
          · subst exx
            have := earliest_unique he hE
            rw [← this]; exact hw
          · rcases hT.roads _ _ _ _ (le_trans hτ (he.1.forward hR)) hy f2 exx with ⟨b, g1, g2⟩ | ⟨b, g1, g2⟩
            swap
            · have := hE.2 _ (he.1.append g2)
              linarith
            have hb : b = y' := by
              refine le_antisymm g1 (hE.2 _ (he.1.append ?_))
              rcases g2 with g2 | g2
              · exact hu _ _ _ _ g2
              · exact hd _ _ _ _ g2
            subst hb
            exact add_arc hT hτ hu hd hR hy hw g2 hE
  obtain ⟨k, hk⟩ := back_of hE.1 0 .zero
  exact H _ k t y hlim hE (Nat.le_refl _) hk

/-! ## Earliest arrivals exist in finite networks -/

/-- trips that enter no node of `B` -/
inductive TripA (R : Network) (B : List Nat) : Nat → Rat → Nat → Rat → Prop where
  | here (v : Nat) (τ : Rat) : TripA R B v τ v τ
  | there {u v w : Nat} {τ y z : Rat} : R u v τ y → v ∉ B → TripA R B v y w z → TripA R B u τ w z

theorem TripA.earlier (hR : NoOvertaking R) {B : List Nat} {u w : Nat} {τ z : Rat} (h : TripA R B u τ w z) : ∀ τ', τ' ≤ τ → ∃ z', z' ≤ z ∧ TripA R B u τ' w z' := by
  induction h with
  | here v τ => intro τ' h; exact ⟨τ', h, .here _ _⟩
  | there h1 h2 _ ih =>
    intro τ' h
    obtain ⟨y', g1, g2⟩ := hR.fifo _ _ _ _ τ' h1 h
    obtain ⟨z', g3, g4⟩ := ih y' g1
    exact ⟨z', g3, .there g2 h2 g4⟩

theorem TripA.loop (hR : NoOvertaking R) {B : List Nat} {u v w : Nat} {τ y z : Rat} (h : TripA R B v y w z) : τ ≤ y →
    TripA R (u :: B) v y w z ∨ ∃ z', z' ≤ z ∧ TripA R (u :: B) u τ w z' := by
  induction h with
  | here v y => intro _; exact .inl (.here _ _)
  | @there v v' w y y' z h1 h2 h3 ih =>
    intro hy
    have := hR.forward _ _ _ _ h1
    rcases ih (le_trans hy this) with h4 | h4
    · by_cases e : v' = u
      · subst e
        exact .inr (h4.earlier hR τ (le_trans hy this))
      · exact .inl (.there h1 (by simp only [List.mem_cons, not_or]; exact ⟨e, h2⟩) h4)
    · exact .inr h4

theorem TripA.start (hR : NoOvertaking R) {B : List Nat} {u w : Nat} {τ z : Rat} (h : TripA R B u τ w z) : ∃ z', z' ≤ z ∧ TripA R (u :: B) u τ w z' := by
  rcases h.loop hR (u := u) (le_refl τ) with h | h
  · exact ⟨z, le_refl _, h⟩
  · exact h

theorem TripA.drop {B : List Nat} {u v w : Nat} {τ z : Rat} (h : TripA R (v :: B) u τ w z) : TripA R B u τ w z := by
  induction h with
  | here => exact .here _ _
  | there h1 h2 _ ih => exact .there h1 (fun h => h2 (by simp [h])) ih

theorem TripA.forward (hR : NoOvertaking R) {B : List Nat} {u w : Nat} {τ z : Rat} (h : TripA R B u τ w z) : τ ≤ z := by
  induction h with
  | here => exact le_refl _
  | there h1 _ _ ih => exact le_trans (hR.forward _ _ _ _ h1) ih

theorem tripA_iff {u w : Nat} {τ z : Rat} : TripA R [] u τ w z ↔ Trip R u τ w z := by
  constructor
  · intro h
    induction h with
    | here => exact .here _ _
    | there h1 _ _ ih => exact .there h1 ih
  · intro h
    induction h with
    | here => exact .here _ _
    | there h1 _ ih => exact .there h1 (by simp) ih

theorem least_of {α : Type} (P : α → Rat → Prop) : ∀ (L : List α), (∀ r ∈ L, (∃ z, P r z) → ∃ z, P r z ∧ ∀ z', P r z' → z ≤ z') → (∃ r ∈ L, ∃ z, P r z) →
    ∃ z, (∃ r ∈ L, P r z) ∧ ∀ r ∈ L, ∀ z', P r z' → z ≤ z' := by
  intro L
  induction L with
  | nil => intro _ h; obtain ⟨r, h, _⟩ := h; simp at h
  | cons r L ih =>
    intro h1 h2
    by_cases hr : ∃ z, P r z
    · obtain ⟨z, g1, g2⟩ := h1 r (by simp) hr
      by_cases hL : ∃ r ∈ L, ∃ z, P r z
      · obtain ⟨z2, ⟨r2, g3, g4⟩, g5⟩ := ih (fun r hr => h1 r (by simp [hr])) hL
        rcases le_total z z2 with hle | hle
        · refine ⟨z, ⟨r, by simp, g1⟩, ?_⟩
          intro r' hr' z' hz'
          rw [List.mem_cons] at hr'
          rcases hr' with rfl | hr'
          · exact g2 _ hz'
          · exact le_trans hle (g5 _ hr' _ hz')
        · refine ⟨z2, ⟨r2, by simp [g3], g4⟩, ?_⟩
          intro r' hr' z' hz'
          rw [List.mem_cons] at hr'
          rcases hr' with rfl | hr'
          · exact le_trans hle (g2 _ hz')
          · exact g5 _ hr' _ hz'
      · refine ⟨z, ⟨r, by simp, g1⟩, ?_⟩
        intro r' hr' z' hz'
        rw [List.mem_cons] at hr'
        rcases hr' with rfl | hr'
        · exact g2 _ hz'
        · exact absurd ⟨r', hr', z', hz'⟩ hL
    · have hL : ∃ r ∈ L, ∃ z, P r z := by
        obtain ⟨r', h3, h4⟩ := h2
        rw [List.mem_cons] at h3
        rcases h3 with rfl | h3
        · exact absurd h4 hr
        · exact ⟨r', h3, h4⟩
      obtain ⟨z2, ⟨r2, g3, g4⟩, g5⟩ := ih (fun r hr => h1 r (by simp [hr])) hL
      refine ⟨z2, ⟨r2, by simp [g3], g4⟩, ?_⟩
      intro r' hr' z' hz'
      rw [List.mem_cons] at hr'
      rcases hr' with rfl | hr'
      · exact absurd ⟨z', hz'⟩ hr
      · exact g5 _ hr' _ hz'

theorem tripA_least {roads : List (Nat × Nat × (Rat → Rat))} (hR : NoOvertaking (roadNet roads)) {n : Nat} (hn : ∀ r ∈ roads, r.2.1 < n) {w : Nat} :
    ∀ (m : Nat) (B : List Nat) (u : Nat) (τ : Rat), (List.range n).countP (fun z => decide (z ∉ u :: B)) ≤ m → (∃ z, TripA (roadNet roads) B u τ w z) →
      ∃ z, TripA (roadNet roads) B u τ w z ∧ ∀ z', TripA (roadNet roads) B u τ w z' → z ≤ z' := by
  intro m
  induction m using Nat.strong_induction_on with
  | _ m ihm =>
    intro B u τ hc hex
    by_cases huw : u = w
    · subst huw
      exact ⟨τ, .here _ _, fun z' h => h.forward hR⟩
    let P : (Nat × Nat × (Rat → Rat)) → Rat → Prop := fun r z => r.1 = u ∧ r.2.1 ∉ u :: B ∧ TripA (roadNet roads) (u :: B) r.2.1 (τ + r.2.2 τ) w z
    have split : ∀ z, TripA (roadNet roads) (u :: B) u τ w z → ∃ r ∈ roads, P r z := by
      intro z h
      cases h with
      | here => exact absurd rfl huw
      | there h1 h2 h3 =>
        obtain ⟨r, g1, g2, g3, g4⟩ := h1
        subst g3; subst g4
        exact ⟨r, g1, g2, h2, h3⟩
    have hle := least_of P roads (by
      intro r hr hz
      by_cases hb : r.2.1 ∉ u :: B
      · have hlt := countP_lt (p := fun z => decide (z ∉ u :: B)) (q := fun z => decide (z ∉ r.2.1 :: u :: B)) (List.range n)
          (by
            intro z _ hz
            simp only [decide_eq_true_eq] at hz ⊢
            exact fun h => hz (by simp only [List.mem_cons] at h ⊢; exact .inr h)) ⟨r.2.1, List.mem_range.2 (hn r hr), by simp only [decide_eq_true_eq]; exact hb, by simp⟩
        obtain ⟨z, h1, _, h3⟩ := hz
        obtain ⟨z0, g1, g2⟩ := ihm _ (Nat.lt_of_lt_of_le hlt hc) (u :: B) r.2.1 (τ + r.2.2 τ) (Nat.le_refl _) ⟨z, h3⟩
        exact ⟨z0, ⟨h1, hb, g1⟩, fun z' hz' => g2 z' hz'.2.2⟩
      · obtain ⟨z, _, h2, _⟩ := hz
        exact absurd h2 hb) (by
      obtain ⟨z, hz⟩ := hex
      obtain ⟨z', _, h⟩ := hz.start hR
      obtain ⟨r, h1, h2⟩ := split z' h
      exact ⟨r, h1, z', h2⟩)
    obtain ⟨z, ⟨r, h1, h2, h3, h4⟩, h5⟩ := hle
    refine ⟨z, (TripA.there ⟨r, h1, h2, rfl, rfl⟩ h3 h4).drop, ?_⟩
    intro z' hz'
    obtain ⟨z2, g1, g2⟩ := hz'.start hR
    obtain ⟨r', g3, g4⟩ := split z2 g2
    exact le_trans (h5 r' g3 z2 g4) g1

/-- In a finite network without overtaking the earliest arrival exists. -/
theorem earliest_exists {roads : List (Nat × Nat × (Rat → Rat))} (hR : NoOvertaking (roadNet roads)) (s : Nat) (τ : Rat) (x : Nat)
    (h : ∃ a, Trip (roadNet roads) s τ x a) : ∃ a, EarliestTrip (roadNet roads) s τ x a := by
  obtain ⟨a, ha⟩ := h
  have hn : ∃ n, ∀ r ∈ roads, r.2.1 < n := by
    clear ha hR
    induction roads with
    | nil => exact ⟨0, by simp⟩
    | cons r roads ih =>
      obtain ⟨n, hn⟩ := ih
      refine ⟨n + r.2.1 + 1, ?_⟩
      intro r' hr'
      rw [List.mem_cons] at hr'
      rcases hr' with rfl | hr'
      · omega
      · have := hn r' hr'; omega
  obtain ⟨n, hn⟩ := hn
  obtain ⟨z, h1, h2⟩ := tripA_least hR hn (w := x) _ [] s τ (Nat.le_refl _) ⟨a, tripA_iff.2 ha⟩
  exact ⟨z, tripA_iff.1 h1, fun y' h => h2 y' (tripA_iff.2 h)⟩

/-- A triangulated hierarchy serves a finite network. -/
theorem serves_roads {lim : Rat} {roads : List (Nat × Nat × (Rat → Rat))} (hR : NoOvertaking (roadNet roads)) (hT : Triangulated up down (roadNet roads) lim)
    (hu : ∀ u v τ y, up u v τ y → Trip (roadNet roads) u τ v y) (hd : ∀ u v τ y, down u v τ y → Trip (roadNet roads) u τ v y) : Serves up down (roadNet roads) lim := by
  have hn : ∃ n, ∀ r ∈ roads, r.1 < n := by
    clear hT hu hd hR
    induction roads with
    | nil => exact ⟨0, by simp⟩
    | cons r roads ih =>
      obtain ⟨n, hn⟩ := ih
      refine ⟨n + r.1 + 1, ?_⟩
      intro r' hr'
      rw [List.mem_cons] at hr'
      rcases hr' with rfl | hr'
      · omega
      · have := hn r' hr'; omega
  obtain ⟨n, hn⟩ := hn
  refine serves_of hR hT hu hd (n := n) ?_ (fun s τ x h => earliest_exists hR s τ x h)
  rintro u v τ y ⟨r, h1, rfl, _⟩
  exact hn r h1

end
end Verif.Catchup
