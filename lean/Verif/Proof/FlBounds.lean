import Verif.Proof.FlApprox
/- Bounds of travel time functions in exact arithmetic. -/
set_option linter.unusedSimpArgs false
set_option linter.unusedVariables false
namespace Verif
namespace Fl
open Spec

theorem two_line {p q : Pt} (h : p.t < q.t) {t y : Rat} (hy : Interp [p, q] t y) : y = ln p q t := by
  rcases interp_cons.1 hy with hz | hz
  · exact ((onSeg_ln h).1 hz).2.2
  · exact (interp_short hz).elim

/-- a line moved up or down -/
theorem ln_shift (p q : Pt) (d t : Rat) : ln ⟨p.t, p.v + d⟩ ⟨q.t, q.v + d⟩ t = ln p q t + d := by
  simp only [ln, slope]
  have : q.v + d - (p.v + d) = q.v - p.v := by ring
  rw [this]; ring

/-- the first and the last point, moved -/
theorem two_side {σ A d : Rat} {l : List Pt} {p q : Pt} (hc : Tc l) (hlt : p.t < q.t) (h0 : σ * d ≤ 0) (h1 : -σ * d ≤ A)
    (h : ∀ x ∈ l, -σ * (x.v - ln p q x.t) ≤ -σ * d) : Sd σ A l [p, q] [⟨p.t, p.v + d⟩, ⟨q.t, q.v + d⟩] := by
  refine ⟨.cons ⟨rfl, ?_⟩ (.cons ⟨rfl, ?_⟩ .nil), .cons ⟨rfl, ?_⟩ (.cons ⟨rfl, ?_⟩ .nil), ?_⟩
  · simp only; linarith
  · simp only; linarith
  · simp only; linarith
  · simp only; linarith
  · intro t y y' hy hy'
    rw [two_line (p := ⟨p.t, p.v + d⟩) (q := ⟨q.t, q.v + d⟩) hlt hy', ln_shift]
    have := interp_aff hc (aff_ln p q) (σ := -σ) (K := -σ * d) h hy
    linarith

theorem sd_self {σ A : Rat} (hA : 0 ≤ A) {l : List Pt} (hc : Tc l) (h2 : l.length = 2) : Sd σ A l l l := by
  refine ⟨df_self, forall2_self (fun x => ⟨rfl, by simp [hA]⟩), ?_⟩
  intro t y z hy hz
  match l, h2, hc with
  | [p, q], _, hc =>
    simp [Tc] at hc
    rw [two_line hc hy, two_line hc hz]
    simp

theorem worst_spec {mn mx : Nat × Rat} (h : mn.2 ≤ mx.2) : ((worst mn mx).1 = mn.1 ∨ (worst mn mx).1 = mx.1) ∧
    ∀ A, (worst mn mx).2 ≤ A → -A ≤ mn.2 ∧ mx.2 ≤ A := by
  unfold worst
  split
  · next hlt =>
    refine ⟨.inl rfl, fun A hA => ?_⟩
    have a := absv_le.1 hA
    have b := absv_le.1 (hlt.le.trans hA)
    constructor <;> linarith
  · next hlt =>
    refine ⟨.inr rfl, fun A hA => ?_⟩
    have a := absv_le.1 hA
    have b := absv_le.1 ((not_lt.1 hlt).trans hA)
    constructor <;> linarith

/-- `douglas_peuker_combined` -/
theorem dpc_spec {A : Rat} (hA : 0 ≤ A) : ∀ (fuel : Nat) (l lo up : List Pt), Tc l → 2 ≤ l.length → l.length ≤ fuel → lo.length = up.length →
    ∃ c a b, dpc 0 A fuel l lo up = some (lo ++ a, up ++ b) ∧ Sk A l c ∧ Sd 1 A l c a ∧ Sd (-1) A l c b
  | 0, l, _, _, _, h1, h2, _ => by omega
  | fuel + 1, l, lo, up, hc, h1, h2, hlen => by
    rw [dpc]
    by_cases hl : l.length ≤ 2
    · rw [if_pos hl]
      exact ⟨l, l, l, rfl, sk_self hA hc (by omega), sd_self hA hc (by omega), sd_self hA hc (by omega)⟩
    rw [if_neg hl]
    obtain ⟨p, M, q, e, ep, eq, hlt, hM⟩ := ends_of hc (by omega)
    obtain ⟨ds, e1, hne, hin, hall⟩ := deltas_spec (l := l) (by omega) hlt
    obtain ⟨mx, e2, hm, hmax⟩ := lastMax_spec hne
    obtain ⟨mn, e3, hn, hmin⟩ := firstMin_spec hne
    obtain ⟨hw, hwA⟩ := worst_spec (hmax _ hn)
    simp only [ep, eq, e1, e2, e3, Option.bind_eq_bind, Option.bind_some, Option.pure_def]
    by_cases hA' : A < (worst mn mx).2
    · rw [if_pos hA']
      have hi : 1 ≤ (worst mn mx).1 ∧ (worst mn mx).1 + 1 < l.length := by
        rcases hw with h | h
        · rw [h]; exact hin _ hn
        · rw [h]; exact hin _ hm
      generalize (worst mn mx).1 = i at hi
      obtain ⟨B, x, C, el, et, edr, hB, hC, lB, lC⟩ := split_mid (l := l) hi.1 hi.2
      have hcc := hc
      rw [el] at hcc
      rw [et, edr]
      obtain ⟨c1, a1, b1, r1, s1, t1, u1⟩ := dpc_spec hA fuel (B ++ [x]) lo up (tc_append hcc).1 (by omega) (by omega) hlen
      have la := t1.near.length_eq
      have lb := u1.near.length_eq
      have hne1 : a1 ≠ [] := by rintro rfl; have := s1.len; simp at la; omega
      have hne2 : b1 ≠ [] := by rintro rfl; have := s1.len; simp at lb; omega
      have d1 : (lo ++ a1).dropLast = lo ++ a1.dropLast := List.dropLast_append_of_ne_nil hne1
      have d2 : (up ++ b1).dropLast = up ++ b1.dropLast := List.dropLast_append_of_ne_nil hne2
      obtain ⟨c2, a2, b2, r2, s2, t2, u2⟩ := dpc_spec hA fuel (x :: C) (lo ++ a1.dropLast) (up ++ b1.dropLast) (tc_append hcc).2 (by omega) (by omega)
        (by simp; omega)
      obtain ⟨D, E, rfl, rfl, hD, hE, s⟩ := s1.join hcc s2
      have hcD := sub_tc s.sub hcc
      obtain ⟨F, u, w, H, rfl, rfl, hj⟩ := Sd.join hcc hcD hB hC hD hE t1 t2
      obtain ⟨F', u', w', H', rfl, rfl, hj'⟩ := Sd.join hcc hcD hB hC hD hE u1 u2
      have lF : F.length = F'.length := by simp at la lb; omega
      simp only [List.dropLast_concat] at d1 d2 r2
      simp only [r1, Option.bind_some, d1, d2, r2]
      have g1 : ((lo ++ F) ++ w :: H)[(lo ++ F).length]? = some w := by simp
      have g2 : ((up ++ F') ++ w' :: H')[(lo ++ F).length]? = some w' := by
        have : (lo ++ F).length = (up ++ F').length := by simp; omega
        rw [this]; simp
      have k1 : ∀ z, upd ((lo ++ F) ++ w :: H) (lo ++ F).length z = some (lo ++ (F ++ z :: H)) := by
        intro z
        rw [upd_of_lt _ (by simp)]; simp
      have k2 : ∀ z, upd ((up ++ F') ++ w' :: H') (lo ++ F).length z = some (up ++ (F' ++ z :: H')) := by
        intro z
        have : (lo ++ F).length = (up ++ F').length := by simp; omega
        rw [this, upd_of_lt _ (by simp)]; simp
      have v1 : ((lo ++ (F ++ [u])).getLast?.map Pt.v).getD 0 = u.v := by
        rw [← List.append_assoc, List.getLast?_concat]; rfl
      have v2 : ((up ++ (F' ++ [u'])).getLast?.map Pt.v).getD 0 = u'.v := by
        rw [← List.append_assoc, List.getLast?_concat]; rfl
      simp only [g1, g2, k1, k2, v1, v2, Option.bind_some]
      refine ⟨_, _, _, rfl, by rw [el]; exact s, ?_, ?_⟩
      · rw [el]
        exact hj _ (min_choice _ _).symm (by have := min_le_right w.v u.v; linarith) (by have := min_le_left w.v u.v; linarith)
      · rw [el]
        exact hj' _ (max_choice _ _).symm (by have := le_max_right w'.v u'.v; linarith) (by have := le_max_left w'.v u'.v; linarith)
    · rw [if_neg hA']
      obtain ⟨hlo, hhi⟩ := hwA A (not_lt.1 hA')
      refine ⟨[p, q], _, _, rfl, two_points hc e hlt ?_, two_side hc hlt ?_ ?_ ?_, two_side hc hlt ?_ ?_ ?_⟩
      · intro x hx
        rcases inner_of e hall hx with rfl | rfl | ⟨i, hi⟩
        · rw [ln_left]; constructor <;> linarith
        · rw [ln_right hlt]; constructor <;> linarith
        · have a1 := hmax _ hi
          have a2 := hmin _ hi
          simp only at a1 a2
          constructor <;> linarith
      · have := min_le_left 0 mn.2; linarith
      · have : -A ≤ min 0 mn.2 := le_min (by linarith) hlo
        linarith
      · intro x hx
        rcases inner_of e hall hx with rfl | rfl | ⟨i, hi⟩
        · rw [ln_left]; have := min_le_left 0 mn.2; linarith
        · rw [ln_right hlt]; have := min_le_left 0 mn.2; linarith
        · have a2 := hmin _ hi
          simp only at a2
          have := min_le_right 0 mn.2; linarith
      · have := le_max_left 0 mx.2; linarith
      · have : max 0 mx.2 ≤ A := max_le hA hhi
        linarith
      · intro x hx
        rcases inner_of e hall hx with rfl | rfl | ⟨i, hi⟩
        · rw [ln_left]; have := le_max_left 0 mx.2; linarith
        · rw [ln_right hlt]; have := le_max_left 0 mx.2; linarith
        · have a2 := hmax _ hi
          simp only at a2
          have := le_max_right 0 mx.2; linarith

/-! ### FIFO -/

theorem fifoDown_ne {p : Pt} {l : List Pt} : ∃ v r, fifoDown (p :: l) = ⟨p.t, v⟩ :: r ∧ v ≤ p.v := by
  rw [fifoDown]
  split
  · exact ⟨p.v, [], rfl, le_refl _⟩
  · exact ⟨_, _, rfl, min_le_left _ _⟩

theorem fifoDown_ch : ∀ {l : List Pt}, Tc l → Ch (fifoDown l)
  | [], _ => List.IsChain.nil
  | [p], _ => List.IsChain.singleton _
  | p :: q :: l, h => by
    rw [Tc, List.isChain_cons_cons] at h
    have ih := fifoDown_ch (l := q :: l) h.2
    obtain ⟨v, r, e, hv⟩ := fifoDown_ne (p := q) (l := l)
    rw [fifoDown]
    rw [e] at ih ⊢
    simp only
    rw [Ch, List.isChain_cons_cons]
    refine ⟨⟨h.1, ?_⟩, ih⟩
    have := min_le_right p.v (v + q.t - p.t)
    simp only; linarith

theorem fifoDown_near : ∀ {l : List Pt}, List.Forall₂ (Df 1 0) (fifoDown l) l
  | [] => .nil
  | [p] => .cons ⟨rfl, by simp⟩ .nil
  | p :: q :: l => by
    have ih := fifoDown_near (l := q :: l)
    obtain ⟨v, r, e, hv⟩ := fifoDown_ne (p := q) (l := l)
    rw [fifoDown]
    rw [e] at ih ⊢
    simp only
    refine .cons ⟨rfl, ?_⟩ ih
    have := min_le_left p.v (v + q.t - p.t)
    simp only; linarith

/-- not further below a FIFO function than before -/
theorem fifoDown_far {A : Rat} : ∀ {l c : List Pt}, Ch c → List.Forall₂ (Df (-1) A) l c → List.Forall₂ (Df (-1) A) (fifoDown l) c
  | [], c, _, h => h
  | [p], c, _, h => h
  | p :: q :: l, c, hc, h => by
    cases h with
    | @cons _ x _ c hp hr =>
    cases hr with
    | @cons _ z _ c hq hr =>
    rw [Ch, List.isChain_cons_cons] at hc
    have ih := fifoDown_far hc.2 (.cons hq hr)
    obtain ⟨v, r, e, hv⟩ := fifoDown_ne (p := q) (l := l)
    rw [fifoDown]
    rw [e] at ih ⊢
    simp only
    refine .cons ⟨hp.1, ?_⟩ ih
    cases ih with
    | cons hh _ =>
    have h1 := hh.2
    have h2 := hp.2
    have h3 := hc.1.2
    have h4 := hp.1
    have h5 := hq.1
    simp only at h1 ⊢
    rcases min_choice p.v (v + q.t - p.t) with h | h <;> rw [h]
    · exact h2
    · linarith

theorem fifoDown_last : ∀ {l : List Pt} {q : Pt}, ∃ r, fifoDown (l ++ [q]) = r ++ [q]
  | [], q => ⟨[], rfl⟩
  | p :: l, q => by
    obtain ⟨r, e⟩ := fifoDown_last (l := l) (q := q)
    rw [List.cons_append, fifoDown, e]
    cases r with
    | nil => exact ⟨[_], rfl⟩
    | cons x r => exact ⟨_ :: x :: r, rfl⟩

/-- the first point stays if it is not later than the others -/
theorem fifoDown_first {M : Rat} : ∀ {p : Pt} {l : List Pt}, (∀ q ∈ p :: l, M ≤ q.t + q.v) → ∃ v r, fifoDown (p :: l) = ⟨p.t, v⟩ :: r ∧ M ≤ p.t + v ∧ (p.t + p.v = M → v = p.v)
  | p, [], h => ⟨p.v, [], rfl, by simpa using h, fun _ => rfl⟩
  | p, q :: l, h => by
    obtain ⟨v, r, e, h1, _⟩ := fifoDown_first (M := M) (p := q) (l := l) (fun x hx => h x (List.mem_cons_of_mem _ hx))
    have h0 := h p (by simp)
    rw [fifoDown, e]
    simp only
    refine ⟨_, _, rfl, ?_, ?_⟩
    · rcases min_choice p.v (v + q.t - p.t) with h | h <;> rw [h] <;> linarith
    · intro e'
      exact min_eq_left (by linarith)

theorem fifoUpFrom_near : ∀ {l : List Pt} {p : Pt}, List.Forall₂ (Df (-1) 0) (fifoUpFrom p l) l
  | [], _ => .nil
  | q :: l, p => by
    rw [fifoUpFrom]
    refine .cons ⟨rfl, ?_⟩ fifoUpFrom_near
    have := le_max_left q.v (p.v + p.t - q.t)
    simp only; linarith

theorem fifoUp_near : ∀ {l : List Pt}, List.Forall₂ (Df (-1) 0) (fifoUp l) l
  | [] => .nil
  | p :: l => .cons ⟨rfl, by simp⟩ fifoUpFrom_near

theorem fifoUpFrom_ch : ∀ {l : List Pt} {p p' : Pt}, Tc (p :: l) → p'.t = p.t → Ch (p' :: fifoUpFrom p' l)
  | [], _, _, _, _ => List.IsChain.singleton _
  | q :: l, p, p', h, e => by
    rw [Tc, List.isChain_cons_cons] at h
    rw [fifoUpFrom, Ch, List.isChain_cons_cons]
    refine ⟨⟨by rw [e]; exact h.1, ?_⟩, fifoUpFrom_ch h.2 rfl⟩
    have := le_max_right q.v (p'.v + p'.t - q.t)
    simp only; linarith

theorem fifoUp_ch : ∀ {l : List Pt}, Tc l → Ch (fifoUp l)
  | [], _ => List.IsChain.nil
  | p :: l, h => fifoUpFrom_ch h rfl

theorem fifoUpFrom_far {A : Rat} : ∀ {l c : List Pt} {p x : Pt}, Ch (x :: c) → Df 1 A p x → List.Forall₂ (Df 1 A) l c → List.Forall₂ (Df 1 A) (fifoUpFrom p l) c
  | [], c, _, _, _, _, h => h
  | q :: l, c, p, x, hc, hp, h => by
    cases h with
    | @cons _ z _ c hq hr =>
    rw [Ch, List.isChain_cons_cons] at hc
    rw [fifoUpFrom]
    have hd : Df 1 A ⟨q.t, max q.v (p.v + p.t - q.t)⟩ z := by
      refine ⟨hq.1, ?_⟩
      have h1 := hq.2
      have h2 := hp.2
      have h3 := hc.1.2
      have h4 := hp.1
      have h5 := hq.1
      simp only
      rcases max_choice q.v (p.v + p.t - q.t) with h | h <;> rw [h]
      · exact h1
      · linarith
    exact .cons hd (fifoUpFrom_far hc.2 hd hr)

theorem fifoUp_far {A : Rat} : ∀ {l c : List Pt}, Ch c → List.Forall₂ (Df 1 A) l c → List.Forall₂ (Df 1 A) (fifoUp l) c
  | [], c, _, h => h
  | p :: l, c, hc, h => by
    cases h with
    | cons hp hr => exact .cons hp (fifoUpFrom_far hc hp hr)

/-- the last point stays if it is not earlier than the others -/
theorem fifoUpFrom_last {M : Rat} : ∀ {l : List Pt} {p q : Pt}, p.t + p.v ≤ M → (∀ x ∈ l, x.t + x.v ≤ M) → q.t + q.v = M →
    ∃ r, fifoUpFrom p (l ++ [q]) = r ++ [q]
  | [], p, q, hp, _, hq => by
    refine ⟨[], ?_⟩
    simp only [List.nil_append, fifoUpFrom]
    have : max q.v (p.v + p.t - q.t) = q.v := max_eq_left (by linarith)
    rw [this]
  | x :: l, p, q, hp, hl, hq => by
    rw [List.cons_append, fifoUpFrom]
    have hx := hl x (by simp)
    obtain ⟨r, e⟩ := fifoUpFrom_last (l := l) (p := ⟨x.t, max x.v (p.v + p.t - x.t)⟩) (q := q) (M := M)
      (by simp only; rcases max_choice x.v (p.v + p.t - x.t) with h | h <;> rw [h] <;> linarith) (fun z hz => hl z (by simp [hz])) hq
    exact ⟨_ :: r, by rw [e]; rfl⟩

end Fl
end Verif
