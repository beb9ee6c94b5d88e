import Verif.Model.FtdCustomize
import Verif.Proof.FlMergeMain
import Mathlib.Tactic.Linarith
set_option linter.unusedSimpArgs false
set_option linter.unusedVariables false
/- Combining the sources of a shortcut. -/
namespace Verif.Ftd
open Spec Fl Catchup

/-- the last entry not after `t` -/
def atT {α : Type} (l : List (Rat × α)) (t : Rat) : Option α := ((l.filter (fun p => decide (p.1 ≤ t))).getLast?).map (·.2)

theorem atT_nil {α : Type} (t : Rat) : atT ([] : List (Rat × α)) t = none := rfl

theorem atT_snoc {α : Type} (l : List (Rat × α)) (p : Rat × α) (t : Rat) : atT (l ++ [p]) t = if p.1 ≤ t then some p.2 else atT l t := by
  unfold atT
  rw [List.filter_append]
  by_cases h : p.1 ≤ t
  · simp [h]
  · simp [h]

def Srt {α : Type} (l : List (Rat × α)) : Prop := l.Pairwise (fun p q => p.1 < q.1)

theorem feq0 {x y : Rat} : feq 0 x y = true ↔ x = y := by
  unfold feq
  simp only [Bool.and_eq_true, decide_eq_true_eq]
  constructor
  · rintro ⟨h1, h2⟩; linarith
  · rintro rfl; exact ⟨by linarith, by linarith⟩

theorem pushSrc_at {out : List (Rat × Src)} {p : Rat × Src} (t : Rat) :
    atT (pushSrc 0 out p) t = if p.1 ≤ t then some p.2 else atT out t := by
  unfold pushSrc
  rcases List.eq_nil_or_concat out with rfl | ⟨o, l, rfl⟩
  · have := atT_snoc [] p t
    simpa using this
  · simp only [List.concat_eq_append, List.getLast?_append, List.getLast?_singleton, Option.some_or]
    split
    · next h =>
      rw [feq0] at h
      rw [List.dropLast_concat, atT_snoc, atT_snoc]
      split
      · rfl
      · next h2 => rw [← h] at h2; rw [if_neg h2]
    · rw [atT_snoc]

theorem pushSrc_srt {out : List (Rat × Src)} {p : Rat × Src} (h : Srt out) (hle : ∀ q ∈ out, q.1 ≤ p.1) :
    Srt (pushSrc 0 out p) ∧ (∀ q ∈ pushSrc 0 out p, q.1 ≤ p.1) ∧ (∀ q ∈ pushSrc 0 out p, q = p ∨ q ∈ out) ∧ (pushSrc 0 out p).head? = some p ∨
    Srt (pushSrc 0 out p) ∧ (∀ q ∈ pushSrc 0 out p, q.1 ≤ p.1) ∧ (∀ q ∈ pushSrc 0 out p, q = p ∨ q ∈ out) ∧ (pushSrc 0 out p).head? = out.head? := by
  unfold pushSrc
  rcases List.eq_nil_or_concat out with rfl | ⟨o, l, rfl⟩
  · left; simp [Srt]
  · simp only [List.concat_eq_append, List.getLast?_append, List.getLast?_singleton, Option.some_or] at *
    unfold Srt at h
    rw [List.pairwise_append] at h
    obtain ⟨h1, _, h2⟩ := h
    have h2' : ∀ q ∈ o, q.1 < l.1 := fun q hq => h2 q hq l (by simp)
    split
    · next h =>
      rw [feq0] at h
      rw [List.dropLast_concat]
      have hs : Srt (o ++ [p]) := by
        unfold Srt
        rw [List.pairwise_append]
        exact ⟨h1, by simp, fun q hq r hr => by simp only [List.mem_singleton] at hr; subst hr; rw [← h]; exact h2' q hq⟩
      have hl : ∀ q ∈ o ++ [p], q.1 ≤ p.1 := by
        intro q hq; simp only [List.mem_append, List.mem_singleton] at hq
        rcases hq with hq | rfl
        · exact hle q (by simp [hq])
        · exact le_refl _
      have hm : ∀ q ∈ o ++ [p], q = p ∨ q ∈ o ++ [l] := by
        intro q hq; simp only [List.mem_append, List.mem_singleton] at hq ⊢
        rcases hq with hq | rfl
        · exact .inr (.inl hq)
        · exact .inl rfl
      cases o with
      | nil => left; exact ⟨hs, hl, hm, rfl⟩
      | cons a o => right; exact ⟨hs, hl, hm, rfl⟩
    · next h =>
      rw [feq0] at h
      right
      have hl' := hle l (by simp)
      have hlt : l.1 < p.1 := lt_of_le_of_ne hl' h
      refine ⟨?_, ?_, ?_, ?_⟩
      · unfold Srt
        rw [List.pairwise_append]
        refine ⟨?_, by simp, ?_⟩
        · rw [List.pairwise_append]; exact ⟨h1, by simp, h2⟩
        · intro q hq r hr
          simp only [List.mem_singleton] at hr; subst hr
          simp only [List.mem_append, List.mem_singleton] at hq
          rcases hq with hq | rfl
          · exact lt_trans (h2' q hq) hlt
          · exact hlt
      · intro q hq; rw [List.mem_append, List.mem_singleton] at hq
        rcases hq with hq | rfl
        · exact hle q hq
        · exact le_refl _
      · intro q hq; rw [List.mem_append, List.mem_singleton] at hq
        rcases hq with hq | rfl
        · exact .inr hq
        · exact .inl rfl
      · cases o <;> rfl

/-- Sorted sources, the first one begins at midnight, none after the end of the day -/
structure Shape {α : Type} (l : List (Rat × α)) : Prop where
  head : ∃ d rest, l = (0, d) :: rest
  srt : Srt l
  day : ∀ p ∈ l, p.1 < day

theorem pushSrc_ok {out : List (Rat × Src)} {p : Rat × Src} (h : Shape out) (hle : ∀ q ∈ out, q.1 ≤ p.1) (hp : 0 ≤ p.1) (hd : p.1 < day) :
    Shape (pushSrc 0 out p) ∧ ∀ q ∈ pushSrc 0 out p, q.1 ≤ p.1 := by
  obtain ⟨d, rest, hh⟩ := h.head
  have key : Srt (pushSrc 0 out p) ∧ (∀ q ∈ pushSrc 0 out p, q.1 ≤ p.1) ∧ (∀ q ∈ pushSrc 0 out p, q = p ∨ q ∈ out) := by
    rcases pushSrc_srt h.srt hle with h | h <;> exact ⟨h.1, h.2.1, h.2.2.1⟩
  refine ⟨⟨?_, key.1, ?_⟩, key.2.1⟩
  · have hne : ∃ q l, pushSrc 0 out p = q :: l ∧ q.1 = 0 := by
      rcases List.eq_nil_or_concat rest with rfl | ⟨o, l, rfl⟩
      · subst hh
        unfold pushSrc
        simp only [List.getLast?_singleton]
        split
        · next hf => rw [feq0] at hf; exact ⟨p, [], rfl, hf.symm⟩
        · exact ⟨(0, d), [p], rfl, rfl⟩
      · subst hh
        unfold pushSrc
        have : ((0, d) :: o.concat l).getLast? = some l := by simp [List.getLast?_cons]
        rw [this]; simp only
        split
        · exact ⟨(0, d), o ++ [p], by rw [List.concat_eq_append, ← List.cons_append, List.dropLast_concat, List.cons_append], rfl⟩
        · exact ⟨(0, d), _, rfl, rfl⟩
    obtain ⟨q, l, e, hq⟩ := hne
    obtain ⟨a, b⟩ := q
    simp only at hq; subst hq
    exact ⟨b, l, e⟩
  · intro q hq
    rcases key.2.2 q hq with rfl | hq
    · exact hd
    · exact h.day q hq

/-! ## The sweep -/

/-- the source that is to be chosen -/
def sel (other : Src) (c : Option Bool) (a : Option Src) : Option Src := if c = some true then a else some other

theorem takeChanges_none {at_ : Rat} {prev other : Src} {ch : List (Rat × Bool)} (h : ∀ c ∈ ch, at_ < c.1) (b : Bool) (out : List (Rat × Src)) :
    takeChanges 0 at_ prev other ch b out = (ch, b, out) := by
  cases ch with
  | nil => rfl
  | cons c ch =>
    have := h c (by simp)
    obtain ⟨c, b'⟩ := c
    rw [takeChanges, if_pos this]

theorem takeChanges_spec {at_ : Rat} {prev other : Src} {A : List (Rat × Src)} (h0 : 0 ≤ at_) (hd : at_ < day) : ∀ (ch C : List (Rat × Bool)) (b : Bool) (out : List (Rat × Src)),
    (∀ t, 0 ≤ t → atT out t = sel other (atT C t) (atT A t)) → (∀ t, at_ ≤ t → atT C t = some b) → Shape out → (∀ q ∈ out, q.1 ≤ at_) → Srt ch →
    (∀ c ∈ ch, 0 ≤ c.1 ∧ (∀ q ∈ out, q.1 ≤ c.1) ∧ ∀ t, c.1 ≤ t → atT A t = some prev) →
    ∃ C1 rest b' out', takeChanges 0 at_ prev other ch b out = (rest, b', out') ∧ ch = C1 ++ rest ∧ (∀ c ∈ rest, at_ < c.1) ∧
      (∀ t, at_ ≤ t → atT (C ++ C1) t = some b') ∧ (∀ t, 0 ≤ t → t < at_ → atT out' t = sel other (atT (C ++ C1) t) (atT A t)) ∧
      (b' = false → ∀ t, at_ ≤ t → atT out' t = some other) ∧ Shape out' ∧ (∀ q ∈ out', q.1 ≤ at_) := by
  intro ch
  induction ch with
  | nil =>
    intro C b out hs hb hsh ho _ _
    refine ⟨[], [], b, out, rfl, rfl, by simp, by simpa using hb, fun t h1 _ => by rw [List.append_nil]; exact hs t h1, ?_, hsh, ho⟩
    intro hb' t ht
    rw [hs t (le_trans h0 ht), hb t ht, hb']; rfl
  | cons c ch ih =>
    intro C b out hs hb hsh ho hsrt hc
    obtain ⟨c, b'⟩ := c
    unfold Srt at hsrt
    rw [List.pairwise_cons] at hsrt
    obtain ⟨c0, c1, c2⟩ := hc (c, b') (by simp)
    by_cases hgt : c > at_
    · refine ⟨[], (c, b') :: ch, b, out, by rw [takeChanges, if_pos hgt], rfl, ?_, by simpa using hb, fun t h1 _ => by rw [List.append_nil]; exact hs t h1, ?_, hsh, ho⟩
      · intro x hx
        rw [List.mem_cons] at hx
        rcases hx with rfl | hx
        · exact hgt
        · exact lt_trans hgt (hsrt.1 x hx)
      · intro hb' t ht
        rw [hs t (le_trans h0 ht), hb t ht, hb']; rfl
    · have hle : c ≤ at_ := not_lt.1 hgt
      -- a change before `at_`: recursion, or one at `at_`: the last one
      have hpush : ∀ x : Src, (∀ t, c ≤ t → sel other (some b') (atT A t) = some x) →
          (∀ t, 0 ≤ t → atT (pushSrc 0 out (c, x)) t = sel other (atT (C ++ [(c, b')]) t) (atT A t)) := by
        intro x hx t ht
        rw [pushSrc_at, atT_snoc]
        simp only
        split
        · next h => rw [hx t h]
        · exact hs t ht
      have hnext : ∀ t, at_ ≤ t → atT (C ++ [(c, b')]) t = some b' := by
        intro t ht
        rw [atT_snoc, if_pos (le_trans hle ht)]
      have rec_ : ∀ x : Src, (∀ t, c ≤ t → sel other (some b') (atT A t) = some x) →
          ∃ C1 rest b'' out', takeChanges 0 at_ prev other ch b' (pushSrc 0 out (c, x)) = (rest, b'', out') ∧ (c, b') :: ch = C1 ++ rest ∧ (∀ c ∈ rest, at_ < c.1) ∧
          (∀ t, at_ ≤ t → atT (C ++ C1) t = some b'') ∧ (∀ t, 0 ≤ t → t < at_ → atT out' t = sel other (atT (C ++ C1) t) (atT A t)) ∧
          (b'' = false → ∀ t, at_ ≤ t → atT out' t = some other) ∧ Shape out' ∧ (∀ q ∈ out', q.1 ≤ at_) := by
        intro x hx
        obtain ⟨p1, p2⟩ := pushSrc_ok (p := (c, x)) hsh c1 c0 (lt_of_le_of_lt hle hd)
        obtain ⟨C1, rest, b'', out', k1, k2, k3, k4, k5, k6, k7, k8⟩ := ih (C ++ [(c, b')]) b' (pushSrc 0 out (c, x)) (hpush x hx) hnext p1
          (fun q hq => le_trans (p2 q hq) hle) hsrt.2 (fun c' hc' => ⟨le_trans c0 (hsrt.1 c' hc').le, fun q hq => le_trans (p2 q hq) (hsrt.1 c' hc').le,
            (hc c' (by simp [hc'])).2.2⟩)
        rw [List.append_assoc, List.singleton_append] at k4 k5
        exact ⟨(c, b') :: C1, rest, b'', out', k1, by rw [k2]; rfl, k3, k4, k5, k6, k7, k8⟩
      cases b' with
      | false =>
        rw [takeChanges, if_neg hgt]
        simp only [Bool.false_eq_true, if_false]
        exact rec_ other (fun t _ => by simp [sel])
      | true =>
        rw [takeChanges, if_neg hgt]
        simp only [if_true]
        by_cases hlt : c < at_
        · rw [if_pos hlt]
          exact rec_ prev (fun t ht => by simp only [sel, if_true]; exact c2 t ht)
        · have hcat : c = at_ := le_antisymm hle (not_lt.1 hlt)
          rw [if_neg hlt, takeChanges_none (fun x hx => by rw [← hcat]; exact hsrt.1 x hx)]
          refine ⟨[(c, true)], ch, true, out, rfl, rfl, fun x hx => by rw [← hcat]; exact hsrt.1 x hx, hnext, ?_, by simp, hsh, ho⟩
          intro t h1 h2
          rw [atT_snoc, if_neg (by simp only; rw [hcat]; exact not_le.2 h2)]
          exact hs t h1

theorem combineLoop_spec {other : Src} : ∀ (src A : List (Rat × Src)) (prev : Src) (ch C : List (Rat × Bool)) (b : Bool) (out : List (Rat × Src)) (T : Rat),
    (∀ t, 0 ≤ t → atT out t = sel other (atT C t) (atT A t)) → (∀ t, T ≤ t → atT C t = some b) → (∀ t, T ≤ t → atT A t = some prev) → Shape out → (∀ q ∈ out, q.1 ≤ T) → 0 ≤ T →
    Srt ch → (∀ c ∈ ch, T < c.1) → Srt src → (∀ p ∈ src, T < p.1 ∧ p.1 < day) →
    ∃ C1 rest last out' T', combineLoop 0 other src prev ch b out = (last, rest, out') ∧ ch = C1 ++ rest ∧ (∀ t, 0 ≤ t → atT out' t = sel other (atT (C ++ C1) t) (atT (A ++ src) t)) ∧
      (∀ t, T' ≤ t → atT (A ++ src) t = some last) ∧ Shape out' ∧ (∀ q ∈ out', q.1 ≤ T') ∧ (∀ c ∈ rest, T' < c.1) ∧ 0 ≤ T' := by
  intro src
  induction src with
  | nil =>
    intro A prev ch C b out T h1 h2 h3 h4 h5 hT h6 h7 _ _
    exact ⟨[], ch, prev, out, T, rfl, rfl, by simpa using h1, by simpa using h3, h4, h5, h7, hT⟩
  | cons p src ih =>
    intro A prev ch C b out T h1 h2 h3 h4 h5 hT h6 h7 h8 h9
    obtain ⟨at_, s⟩ := p
    obtain ⟨g1, g2⟩ := h9 (at_, s) (by simp)
    simp only at g1 g2
    have g0 : 0 ≤ at_ := le_trans hT g1.le
    unfold Srt at h8
    rw [List.pairwise_cons] at h8
    obtain ⟨C1, rest, b', out', k1, k2, k3, k4, k5, k6, k7, k8⟩ := takeChanges_spec (at_ := at_) (prev := prev) (other := other) (A := A) g0 g2 ch C b out h1
      (fun t ht => h2 t (le_trans g1.le ht)) h4 (fun q hq => le_trans (h5 q hq) g1.le) h6
      (fun c hc => ⟨le_trans hT (h7 c hc).le, fun q hq => le_trans (h5 q hq) (h7 c hc).le, fun t ht => h3 t (le_trans (h7 c hc).le ht)⟩)
    rw [combineLoop, k1]
    simp only
    have hsr : Srt rest := by
      rw [k2] at h6; unfold Srt at h6 ⊢; rw [List.pairwise_append] at h6; exact h6.2.1
    obtain ⟨out2, hout2, q1, q2, q3⟩ : ∃ out2, (if b' = true then pushSrc 0 out' (at_, s) else out') = out2 ∧
        (∀ t, 0 ≤ t → atT out2 t = sel other (atT (C ++ C1) t) (atT (A ++ [(at_, s)]) t)) ∧ Shape out2 ∧ (∀ q ∈ out2, q.1 ≤ at_) := by
      cases b' with
      | true =>
        obtain ⟨p1, p2⟩ := pushSrc_ok (p := (at_, s)) k7 k8 g0 g2
        refine ⟨_, rfl, ?_, by simpa using p1, by simpa using p2⟩
        intro t ht
        simp only [if_true]
        rw [pushSrc_at, atT_snoc]
        simp only
        split
        · next h => rw [k4 t h]; rfl
        · next h => exact k5 t ht (not_le.1 h)
      | false =>
        refine ⟨_, rfl, ?_, by simpa using k7, by simpa using k8⟩
        intro t ht
        simp only [Bool.false_eq_true, if_false]
        rw [atT_snoc]
        simp only
        split
        · next h => rw [k4 t h, k6 rfl t h]; rfl
        · next h => exact k5 t ht (not_le.1 h)
    rw [hout2]
    obtain ⟨C2, rest2, last, out3, T', m1, m2, m3, m4, m5, m6, m7, m8⟩ := ih (A ++ [(at_, s)]) s rest (C ++ C1) b' out2 at_ q1 k4
      (fun t ht => by rw [atT_snoc, if_pos ht]) q2 q3 g0 hsr k3 h8.2 (fun p hp => ⟨h8.1 p hp, (h9 p (by simp [hp])).2⟩)
    simp only [List.append_assoc, List.singleton_append] at m3 m4
    exact ⟨C1 ++ C2, rest2, last, out3, T', m1, by rw [k2, m2, List.append_assoc], m3, m4, m5, m6, m7, m8⟩

/-- the changes after the last source -/
theorem tail_spec {other last : Src} {A : List (Rat × Src)} : ∀ (ch C : List (Rat × Bool)) (out : List (Rat × Src)),
    (∀ t, 0 ≤ t → atT out t = sel other (atT C t) (atT A t)) → Shape out → Srt ch →
    (∀ c ∈ ch, 0 ≤ c.1 ∧ c.1 < day ∧ (∀ q ∈ out, q.1 ≤ c.1) ∧ ∀ t, c.1 ≤ t → atT A t = some last) →
    ∃ out', ch.foldl (fun out p => pushSrc 0 out (p.1, if p.2 then last else other)) out = out' ∧ Shape out' ∧
      (∀ t, 0 ≤ t → atT out' t = sel other (atT (C ++ ch) t) (atT A t)) := by
  intro ch
  induction ch with
  | nil => intro C out h1 h2 _ _; exact ⟨out, rfl, h2, by simpa using h1⟩
  | cons c ch ih =>
    intro C out h1 h2 h3 h4
    obtain ⟨c, b⟩ := c
    unfold Srt at h3
    rw [List.pairwise_cons] at h3
    obtain ⟨c0, c1, c2, c3⟩ := h4 (c, b) (by simp)
    obtain ⟨p1, p2⟩ := pushSrc_ok (p := (c, if b then last else other)) h2 c2 c0 c1
    rw [List.foldl_cons]
    simp only
    obtain ⟨out', k1, k2, k3⟩ := ih (C ++ [(c, b)]) (pushSrc 0 out (c, if b then last else other)) (by
      intro t ht
      rw [pushSrc_at, atT_snoc]
      simp only
      split
      · next h =>
        cases b with
        | true => simp only [if_true, sel]; exact (c3 t h).symm
        | false => simp [sel]
      · exact h1 t ht) p1 h3.2
      (fun c' hc' => ⟨le_trans c0 (h3.1 c' hc').le, (h4 c' (by simp [hc'])).2.1, fun q hq => le_trans (p2 q hq) (h3.1 c' hc').le, (h4 c' (by simp [hc'])).2.2.2⟩)
    rw [List.append_assoc, List.singleton_append] at k3
    exact ⟨out', k1, k2, k3⟩

theorem sourcesIter_eq {src : List (Rat × Src)} (h : Shape src) : sourcesIter 0 src = src := by
  obtain ⟨d, rest, hh⟩ := h.head
  subst hh
  cases rest with
  | nil => rfl
  | cons p rest =>
    show List.takeWhile _ _ = _
    have := List.takeWhile_append_of_pos (p := fun p : Rat × Src => flt 0 p.1 day) (l₁ := (0, d) :: p :: rest) (l₂ := []) (by
      intro q hq
      have := h.day q hq
      unfold flt; simp only [decide_eq_true_eq]; linarith)
    simpa using this

/-- Combining sources: at every time of the day the old source, where the old function is the faster one, and the new source otherwise. -/
theorem combine_spec {self : List (Rat × Src)} {ch : List (Rat × Bool)} {other : Src} (hs : Shape self) (hc : Shape ch) :
    Shape (combine 0 self ch other) ∧ ∀ t, 0 ≤ t → atT (combine 0 self ch other) t = sel other (atT ch t) (atT self t) := by
  obtain ⟨b, chr, e⟩ := hc.head
  subst e
  obtain ⟨d, srcr, e⟩ := hs.head
  cases chr with
  | nil =>
    unfold combine
    simp only
    have hb : ∀ t, 0 ≤ t → atT [((0 : Rat), b)] t = some b := by
      intro t ht
      have := atT_snoc [] ((0 : Rat), b) t
      rw [if_pos ht] at this; simpa using this
    cases b with
    | true =>
      simp only [if_true]
      exact ⟨hs, fun t ht => by rw [hb t ht]; rfl⟩
    | false =>
      simp only [Bool.false_eq_true, if_false]
      refine ⟨⟨⟨_, _, rfl⟩, by simp [Srt], by simp [Spec.day]⟩, ?_⟩
      intro t ht
      rw [hb t ht]
      have := atT_snoc [] ((0 : Rat), other) t
      rw [if_pos ht] at this
      simpa [sel] using this
  | cons c1 chr =>
    have hsrt := hc.srt
    unfold Srt at hsrt
    rw [List.pairwise_cons] at hsrt
    have hss := hs.srt
    have hsi := sourcesIter_eq hs
    subst e
    unfold Srt at hss
    rw [List.pairwise_cons] at hss
    have hfirst : takeChanges 0 0 .no other ((0, b) :: c1 :: chr) b [] = (c1 :: chr, b, if b then [] else [(0, other)]) := by
      rw [takeChanges, if_neg (lt_irrefl _)]
      have : ∀ c ∈ c1 :: chr, (0 : Rat) < c.1 := fun c hc' => hsrt.1 c hc'
      cases b with
      | true => simp only [if_true]; rw [if_neg (lt_irrefl _), takeChanges_none this]
      | false => simp only [Bool.false_eq_true, if_false]; rw [takeChanges_none this]; rfl
    unfold combine
    simp only [hsi, List.head?_cons, Option.map_some, Option.getD_some]
    rw [combineLoop, hfirst]
    simp only
    have hout : (if b = true then pushSrc 0 (if b = true then [] else [(0, other)]) (0, d) else if b = true then [] else [(0, other)]) = [((0 : Rat), if b then d else other)] := by
      cases b <;> rfl
    rw [hout]
    have h1 : ∀ {α : Type} (x : α) (t : Rat), 0 ≤ t → atT [((0 : Rat), x)] t = some x := by
      intro α x t ht
      have := atT_snoc [] ((0 : Rat), x) t
      rw [if_pos ht] at this; simpa using this
    obtain ⟨C1, rest, last, out', T', m1, m2, m3, m4, m5, m6, m7, m8⟩ := combineLoop_spec (other := other) srcr [(0, d)] d (c1 :: chr) [(0, b)] b [((0 : Rat), if b then d else other)] 0
      (by
        intro t ht
        rw [h1 _ t ht, h1 _ t ht, h1 _ t ht]
        cases b <;> simp [sel])
      (fun t ht => h1 _ t ht) (fun t ht => h1 _ t ht) ⟨⟨_, _, rfl⟩, by simp [Srt], by simp [Spec.day]⟩ (by simp) (le_refl _) hsrt.2 (fun c hc' => hsrt.1 c hc') hss.2
      (fun p hp => ⟨hss.1 p hp, hs.day p (by simp [hp])⟩)
    rw [m1]
    simp only
    have hrs : Srt rest := by
      have := hsrt.2
      rw [m2] at this; unfold Srt; rw [List.pairwise_append] at this; exact this.2.1
    obtain ⟨o, n1, n2, n3⟩ := tail_spec (other := other) (last := last) (A := [(0, d)] ++ srcr) rest ([(0, b)] ++ C1) out' m3 m5 hrs
      (fun c hc' => ⟨le_trans m8 (m7 c hc').le, hc.day c (by rw [m2]; simp [hc']), fun q hq => le_trans (m6 q hq) (m7 c hc').le, fun t ht => m4 t (le_trans (m7 c hc').le ht)⟩)
    rw [n1]
    refine ⟨n2, ?_⟩
    intro t ht
    rw [n3 t ht, m2]
    simp

theorem tod {t : Rat} : 0 ≤ (splitDay t).2 ∧ (splitDay t).2 < day := by
  have hd : (0 : Rat) < day := by unfold Spec.day; norm_num
  unfold splitDay
  simp only
  have h1 : ((t / day).floor : Rat) ≤ t / day := Rat.floor_le _
  have h2 : t / day < (t / day).floor + 1 := by have := Rat.lt_floor_add_one (t / day); push_cast at this; exact this
  rw [le_div_iff₀ hd] at h1
  rw [div_lt_iff₀ hd] at h2
  constructor <;> linarith

/-- the source of a shortcut at any time -/
theorem sourceAt_eq {src : List (Rat × Src)} (h : Shape src) (t : Rat) : sourceAt src t = atT src (splitDay t).2 := by
  obtain ⟨d, rest, rfl⟩ := h.head
  cases rest with
  | nil =>
    have := atT_snoc [] ((0 : Rat), d) (splitDay t).2
    rw [if_pos tod.1] at this
    simpa [sourceAt] using this.symm
  | cons p rest => rfl

theorem atT_some {α : Type} {l : List (Rat × α)} (h : Shape l) {t : Rat} (ht : 0 ≤ t) : ∃ d, atT l t = some d ∧ ∃ a, (a, d) ∈ l := by
  obtain ⟨d, rest, rfl⟩ := h.head
  unfold atT
  have : (0, d) ∈ List.filter (fun p : Rat × α => decide (p.1 ≤ t)) ((0, d) :: rest) := by simp [ht]
  have hne : List.filter (fun p : Rat × α => decide (p.1 ≤ t)) ((0, d) :: rest) ≠ [] := List.ne_nil_of_mem this
  obtain ⟨q, hq⟩ := List.getLast?_isSome.2 hne |> Option.isSome_iff_exists.1
  rw [hq]
  exact ⟨q.2, rfl, q.1, (List.mem_filter.1 (List.mem_of_getLast? hq)).1⟩

end Verif.Ftd
