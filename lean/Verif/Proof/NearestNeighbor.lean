import Verif.Model.NearestNeighbor
import Verif.Proof.DijkstraVisit
import Verif.Props.CCHPotential
set_option linter.unusedSimpArgs false
set_option linter.unusedVariables false
/- Lemmas about nearest neighbour queries. -/
namespace Verif
open Spec CCH DData

/-! ### States of a potential -/

theorem Potential.run_append {σ : Type} (P : Potential σ) : ∀ (cs cs' : List PotCall) (s : σ),
    P.run s (cs ++ cs') = (P.run s cs).bind (fun r => (P.run r.2 cs').map (fun r' => (r.1 ++ r'.1, r'.2))) := by
  intro cs
  induction cs with
  | nil => intro cs' s; cases h : P.run s cs' <;> simp [Potential.run, h]
  | cons c cs ih =>
    intro cs' s
    cases c with
    | init t =>
      simp only [List.cons_append, Potential.run, Option.bind_eq_bind]
      cases h : P.init s t with
      | none => simp
      | some s' => simp [ih]
    | get v =>
      simp only [List.cons_append, Potential.run, Option.bind_eq_bind]
      cases h : P.get s v with
      | none => simp
      | some r =>
        obtain ⟨s', o⟩ := r
        simp only [Option.bind_some, ih]
        cases h2 : P.run s' cs with
        | none => simp
        | some r =>
          simp only [Option.bind_some, Option.pure_def]
          cases h3 : P.run r.2 cs' <;> simp

/-- the target set last -/
def lastTarget : Nat → List PotCall → Nat
  | t, [] => t
  | _, .init t :: cs => lastTarget t cs
  | t, .get _ :: cs => lastTarget t cs

theorem asked_append : ∀ (cs cs' : List PotCall) (t : Nat), asked t (cs ++ cs') = asked t cs ++ asked (lastTarget t cs) cs' := by
  intro cs
  induction cs with
  | nil => intro cs' t; rfl
  | cons c cs ih => intro cs' t; cases c <;> simp [asked, lastTarget, ih]

theorem lastTarget_append : ∀ (cs cs' : List PotCall) (t : Nat), lastTarget t (cs ++ cs') = lastTarget (lastTarget t cs) cs' := by
  intro cs
  induction cs with
  | nil => intro cs' t; rfl
  | cons c cs ih => intro cs' t; cases c <;> simp [lastTarget, ih]

/-- States that can be reached with target `t` set. -/
def PotAt {σ : Type} (P : Potential σ) (n : Nat) (s0 : σ) (t : Nat) (s : σ) : Prop :=
  ∃ t0 cs outs, t0 < n ∧ (∀ c ∈ cs, PotCall.node c < n) ∧ P.run s0 (.init t0 :: cs) = some (outs, s) ∧ lastTarget t0 cs = t

/-- States that can be reached. -/
def PotReach {σ : Type} (P : Potential σ) (n : Nat) (s0 s : σ) : Prop := s = s0 ∨ ∃ t, PotAt P n s0 t s

theorem Implements.init_step {σ : Type} {P : Potential σ} {n : Nat} {s0 : σ} {R : Nat → Nat → Option Nat → Prop} (h : Implements P n s0 R) {s : σ}
    (hs : PotReach P n s0 s) {t : Nat} (ht : t < n) : ∃ s', P.init s t = some s' ∧ PotAt P n s0 t s' := by
  rcases hs with rfl | ⟨t1, t0, cs, outs, h1, h2, h3, h4⟩
  · obtain ⟨outs, s', h1, _⟩ := h t [] ht (by simp)
    refine ⟨s', ?_, t, [], outs, ht, by simp, h1, rfl⟩
    simp only [Potential.run, Option.bind_eq_bind] at h1
    cases h2 : P.init s t with
    | none => rw [h2] at h1; simp at h1
    | some x => rw [h2] at h1; simp at h1; rw [h1.2]
  · obtain ⟨outs', s', e1, _⟩ := h t0 (cs ++ [.init t]) h1 (by
      intro c hc; rcases List.mem_append.1 hc with hc | hc
      · exact h2 c hc
      · rw [List.mem_singleton.1 hc]; exact ht)
    refine ⟨s', ?_, t0, cs ++ [.init t], outs', h1, ?_, e1, by rw [lastTarget_append]; rfl⟩
    · rw [show (PotCall.init t0 :: (cs ++ [PotCall.init t])) = (.init t0 :: cs) ++ [.init t] from rfl, P.run_append, h3] at e1
      simp only [Option.bind_some, Potential.run, Option.bind_eq_bind] at e1
      cases h5 : P.init s t with
      | none => rw [h5] at e1; simp at e1
      | some x => rw [h5] at e1; simp at e1; rw [e1.2]
    · intro c hc; rcases List.mem_append.1 hc with hc | hc
      · exact h2 c hc
      · rw [List.mem_singleton.1 hc]; exact ht

theorem Implements.get_step {σ : Type} {P : Potential σ} {n : Nat} {s0 : σ} {R : Nat → Nat → Option Nat → Prop} (h : Implements P n s0 R) {s : σ} {t : Nat}
    (hs : PotAt P n s0 t s) {v : Nat} (hv : v < n) : ∃ s' o, P.get s v = some (s', o) ∧ PotAt P n s0 t s' ∧ R t v o := by
  obtain ⟨t0, cs, outs, h1, h2, h3, h4⟩ := hs
  have hcs : ∀ c ∈ cs ++ [PotCall.get v], PotCall.node c < n := by
    intro c hc; rcases List.mem_append.1 hc with hc | hc
    · exact h2 c hc
    · rw [List.mem_singleton.1 hc]; exact hv
  obtain ⟨outs', s', e1, e2⟩ := h t0 (cs ++ [.get v]) h1 hcs
  have e1' := e1
  rw [show (PotCall.init t0 :: (cs ++ [PotCall.get v])) = (.init t0 :: cs) ++ [.get v] from rfl, P.run_append, h3] at e1
  simp only [Option.bind_some, Potential.run, Option.bind_eq_bind] at e1
  cases h5 : P.get s v with
  | none => rw [h5] at e1; simp at e1
  | some x =>
    obtain ⟨s2, o⟩ := x
    rw [h5] at e1; simp at e1
    obtain ⟨e3, rfl⟩ := e1
    refine ⟨s2, o, rfl, ⟨t0, cs ++ [.get v], outs', h1, hcs, e1', by rw [lastTarget_append]; exact h4⟩, ?_⟩
    obtain ⟨outs2, s3, f1, f2⟩ := h t0 cs h1 h2
    rw [h3] at f1
    simp at f1
    obtain ⟨rfl, rfl⟩ := f1
    rw [asked_append, h4] at e2
    simp only [asked] at e2
    rw [← e3] at e2
    have hlen := f2.length_eq
    have h6 := List.forall₂_drop_append _ _ _ e2
    rw [← hlen, List.drop_left] at h6
    cases h6 with
    | cons h7 _ => exact h7

namespace NN

/-! ### The heap -/

theorem lexMax_or (a b : Nat × Nat) : (lexMax a b = a ∨ lexMax a b = b) ∧ a.1 ≤ (lexMax a b).1 ∧ b.1 ≤ (lexMax a b).1 := by
  unfold lexMax
  split <;> simp <;> omega

theorem foldl_lexMax : ∀ (l : List (Nat × Nat)) (x : Nat × Nat), (l.foldl lexMax x) ∈ x :: l ∧ ∀ p ∈ x :: l, p.1 ≤ (l.foldl lexMax x).1 := by
  intro l
  induction l with
  | nil => intro x; simp
  | cons y l ih =>
    intro x
    obtain ⟨h1, h2⟩ := ih (lexMax x y)
    obtain ⟨h3, h4, h5⟩ := lexMax_or x y
    rw [List.foldl_cons]
    have h6 := h2 (lexMax x y) (by simp)
    constructor
    · rcases List.mem_cons.1 h1 with h | h
      · rw [h]; rcases h3 with h3 | h3 <;> rw [h3] <;> simp
      · simp [h]
    · intro p hp
      rcases List.mem_cons.1 hp with rfl | hp
      · omega
      · rcases List.mem_cons.1 hp with rfl | hp
        · omega
        · exact h2 p (by simp [hp])

theorem peek_spec {h : List (Nat × Nat)} (hne : h ≠ []) : ∃ x, peek h = some x ∧ x ∈ h ∧ ∀ p ∈ h, p.1 ≤ x.1 := by
  cases h with
  | nil => exact absurd rfl hne
  | cons x l =>
    obtain ⟨h1, h2⟩ := foldl_lexMax l x
    exact ⟨_, rfl, h1, h2⟩

/-- A target that is not reachable changes nothing. -/
theorem KNearest.skip {D : Nat → Nat → Prop} {T : Nat → Prop} {k t : Nat} {h : List (Nat × Nat)} (hk : KNearest D T k h) (ht : ∀ d, ¬ D t d) :
    KNearest D (fun v => T v ∨ v = t) k h where
  distinct := hk.distinct
  exact p hp := ⟨.inl (hk.exact p hp).1, (hk.exact p hp).2⟩
  size := hk.size
  all hl v d hv hd := by
    rcases hv with hv | rfl
    · exact hk.all hl v d hv hd
    · exact absurd hd (ht d)
  nearest p hp v d hv hd hn := by
    rcases hv with hv | rfl
    · exact hk.nearest p hp v d hv hd hn
    · exact absurd hd (ht d)

theorem offer_spec {D : Nat → Nat → Prop} (hD : ∀ v d d', D v d → D v d' → d = d') {T : Nat → Prop} {k t dist : Nat} (hk1 : 1 ≤ k) {h : List (Nat × Nat)}
    (hk : KNearest D T k h) (ht : D t dist) (hnew : ¬ T t) : ∃ h', offer k h dist t = some h' ∧ KNearest D (fun v => T v ∨ v = t) k h' := by
  have hnot : t ∉ h.map Prod.snd := by
    intro hm
    obtain ⟨p, hp, rfl⟩ := List.mem_map.1 hm
    exact hnew (hk.exact p hp).1
  unfold offer
  by_cases hlt : h.length < k
  · rw [if_pos hlt]
    refine ⟨_, rfl, ?_, ?_, by simp; omega, ?_, ?_⟩
    · simp only [List.map_cons, List.nodup_cons]; exact ⟨hnot, hk.distinct⟩
    · intro p hp
      rcases List.mem_cons.1 hp with rfl | hp
      · exact ⟨.inr rfl, ht⟩
      · exact ⟨.inl (hk.exact p hp).1, (hk.exact p hp).2⟩
    · intro _ v d hv hd
      rcases hv with hv | rfl
      · have := hk.all hlt v d hv hd; simp at this ⊢; exact .inr this
      · simp
    · intro p hp v d hv hd hn
      exfalso
      apply hn
      rcases hv with hv | rfl
      · have := hk.all hlt v d hv hd; simp at this ⊢; exact .inr this
      · simp
  · rw [if_neg hlt]
    have hne : h ≠ [] := by rintro rfl; simp at hlt; omega
    obtain ⟨x, h1, h2, h3⟩ := peek_spec hne
    have hx := hk.exact x h2
    simp only [h1, Option.bind_eq_bind, Option.bind_some]
    by_cases hd : dist < x.1
    · rw [if_pos hd]
      have hpop : pop h = h.erase x := by simp [pop, h1]
      have hperm : h.Perm (x :: h.erase x) := List.perm_cons_erase h2
      have hdis : (x.2 :: (h.erase x).map Prod.snd).Nodup := by
        have := (hperm.map Prod.snd).nodup_iff.1 hk.distinct
        simpa using this
      have hlen := hperm.length_eq
      have hsz := hk.size
      refine ⟨(dist, t) :: h.erase x, by rw [hpop]; rfl, ?_, ?_, by simp at hlen ⊢; omega, ?_, ?_⟩
      · simp only [List.map_cons, List.nodup_cons]
        refine ⟨fun hm => hnot ?_, (List.nodup_cons.1 hdis).2⟩
        exact ((hperm.map Prod.snd).mem_iff).2 (by simp at hm ⊢; exact .inr hm)
      · intro p hp
        rcases List.mem_cons.1 hp with rfl | hp
        · exact ⟨.inr rfl, ht⟩
        · have := hk.exact p (List.mem_of_mem_erase hp)
          exact ⟨.inl this.1, this.2⟩
      · intro hl; simp at hl hlen; omega
      · intro p hp v d hv hd' hn
        have hpx : p.1 ≤ x.1 := by
          rcases List.mem_cons.1 hp with rfl | hp
          · show dist ≤ x.1; omega
          · exact h3 p (List.mem_of_mem_erase hp)
        rcases hv with hv | rfl
        · by_cases hvx : v = x.2
          · subst hvx
            have := hD _ _ _ hd' hx.2
            omega
          · have hn' : v ∉ h.map Prod.snd := by
              intro hm
              have := ((hperm.map Prod.snd).mem_iff).1 hm
              simp only [List.map_cons, List.mem_cons] at this
              rcases this with h5 | h5
              · exact hvx h5
              · exact hn (by simp only [List.map_cons, List.mem_cons]; exact .inr h5)
            have := hk.nearest x h2 v d hv hd' hn'
            omega
        · exact absurd (by simp) hn
    · rw [if_neg hd]
      refine ⟨h, rfl, hk.distinct, fun p hp => ⟨.inl (hk.exact p hp).1, (hk.exact p hp).2⟩, hk.size, fun hl => absurd hl hlt, ?_⟩
      intro p hp v d hv hd' hn
      rcases hv with hv | rfl
      · exact hk.nearest p hp v d hv hd' hn
      · have := hD _ _ _ hd' ht
        have := h3 p hp
        omega

theorem KNearest.congr {D : Nat → Nat → Prop} {T T' : Nat → Prop} {k : Nat} {h h' : List (Nat × Nat)} (hk : KNearest D T k h) (hT : ∀ v, T v ↔ T' v) (hp : h'.Perm h) :
    KNearest D T' k h' := by
  have hm := fun v => (hp.map Prod.snd).mem_iff (a := v)
  refine ⟨(hp.map Prod.snd).nodup_iff.2 hk.distinct, ?_, by rw [hp.length_eq]; exact hk.size, ?_, ?_⟩
  · intro p h1; have := hk.exact p (hp.mem_iff.1 h1); exact ⟨(hT _).1 this.1, this.2⟩
  · intro hl v d hv hd; rw [hm]; rw [hp.length_eq] at hl; exact hk.all hl v d ((hT _).2 hv) hd
  · intro p h1 v d hv hd hn; rw [hm] at hn; exact hk.nearest p (hp.mem_iff.1 h1) v d ((hT _).2 hv) hd hn

theorem consider_spec {σ : Type} {P : Potential σ} {n : Nat} {s0 : σ} {A : Nat → Nat → Nat → Prop} (hP : Implements P n s0 (fun s v x => Answer A s v x)) {src k : Nat}
    (hk1 : 1 ≤ k) : ∀ (ts done : List Nat) (s : σ) (h : List (Nat × Nat)), (∀ t ∈ ts, t < n) → ts.Nodup → (∀ t ∈ ts, t ∉ done) → PotAt P n s0 src s →
    KNearest (DistFrom A src) (· ∈ done) k h → ∃ s' h', ts.foldlM (consider P k) (s, h) = some (s', h') ∧ PotAt P n s0 src s' ∧
      KNearest (DistFrom A src) (fun v => v ∈ done ∨ v ∈ ts) k h' := by
  intro ts
  induction ts with
  | nil =>
    intro done s h _ _ _ hs hk
    exact ⟨s, h, rfl, hs, KNearest.congr hk (by simp) (.refl _)⟩
  | cons t ts ih =>
    intro done s h hlt hnd hnew hs hk
    obtain ⟨s1, o, h1, h2, h3⟩ := hP.get_step hs (hlt t (by simp))
    have hnd' := List.nodup_cons.1 hnd
    have : ∃ h', consider P k (s, h) t = some (s1, h') ∧ KNearest (DistFrom A src) (fun v => v ∈ done ∨ v = t) k h' := by
      cases o with
      | none =>
        refine ⟨h, by simp [consider, h1], KNearest.skip hk (fun d hd => ?_)⟩
        have := (h3 d).2 hd
        simp at this
      | some d =>
        have hd : DistFrom A src t d := (h3 d).1 rfl
        obtain ⟨h', e1, e2⟩ := offer_spec (fun v d d' h1 h2 => h1.1.unique h2.1) hk1 hk hd (hnew t (by simp))
        exact ⟨h', by simp [consider, h1, e1], e2⟩
    obtain ⟨h', e1, e2⟩ := this
    obtain ⟨s2, h2', f1, f2, f3⟩ := ih (t :: done) s1 h' (fun x hx => hlt x (by simp [hx])) hnd'.2 (fun x hx => by
      intro hm; rcases List.mem_cons.1 hm with rfl | hm
      · exact hnd'.1 hx
      · exact hnew x (by simp [hx]) hm) h2 (KNearest.congr e2 (by intro v; simp [or_comm]) (.refl _))
    refine ⟨s2, h2', by simp [e1, f1], f2, KNearest.congr f3 (by intro v; simp; tauto) (.refl _)⟩

end NN
end Verif
