import Verif.Proof.FlMergeGeo
/- The steps of `merge` in exact arithmetic. -/
set_option linter.unusedSimpArgs false
set_option linter.unusedVariables false
namespace Verif
namespace Fl
open Spec

/-- the minimum of two functions -/
def mn (S : Bool → Rat → Rat) (t : Rat) : Rat := min (S true t) (S false t)

theorem mn_of {S : Bool → Rat → Rat} {b : Bool} {t : Rat} (h : S b t ≤ S (!b) t) : mn S t = S b t := by
  cases b with
  | true => exact min_eq_left h
  | false => exact min_eq_right h

/-- what is known about the minimum -/
structure Wd (S : Bool → Rat → Rat) : Prop where
  fifo : ∀ t t', t ≤ t' → t + mn S t ≤ t' + mn S t'
  pos : ∀ t, 0 ≤ mn S t

/-- the points so far -/
structure RS (S : Bool → Rat → Rat) (z : Pt) (res : List Pt) : Prop where
  ch : Ch res
  last : res.getLast? = some z
  head : res.head? = some ⟨0, mn S 0⟩
  pos : ∀ p ∈ res, 0 ≤ p.v
  cov : ∀ t, 0 ≤ t → t ≤ z.t → On res t (mn S t)
  z0 : 0 ≤ z.t
  zv : z.v = mn S z.t

theorem RS.push {S : Bool → Rat → Rat} (hW : Wd S) {co : Bool} {z x : Pt} {res : List Pt} (h : RS S z res) (hzx : z.t < x.t) (hx : x.v = mn S x.t) {k : Rat → Rat} (hk : Aff k)
    (hlin : ∀ t, z.t ≤ t → t ≤ x.t → mn S t = k t) : ∃ res', appendPoint co 0 res x = some res' ∧ RS S x res' ∧ res'.length ≤ res.length + 1 ∧ 2 ≤ res'.length := by
  have hn : Nx z x := ⟨hzx, by rw [h.zv, hx]; exact hW.fifo _ _ hzx.le⟩
  obtain ⟨res', e, ha⟩ := append_spec (co := co) (p := x) h.ch (by rw [hx]; exact hW.pos _) (by intro z' hz'; rw [h.last] at hz'; simp at hz'; subst hz'; exact hn)
  have hh := ha.head _ h.head
  refine ⟨res', e, ⟨ha.ch, ha.last, hh, ?_, ?_, h.z0.trans hzx.le, hx⟩, ha.len, ?_⟩
  · intro p hp
    rcases ha.mem p hp with h1 | rfl
    · exact h.pos p h1
    · rw [hx]; exact hW.pos _
  · intro t h0 h1
    rcases le_total t z.t with h2 | h2
    · exact ha.on _ _ (h.cov t h0 h2)
    · refine ha.seg z h.last t _ ((onSeg_ln hzx).2 ⟨h2, h1, ?_⟩)
      obtain ⟨m, hm⟩ := hk
      have e1 : z.v = k z.t := by rw [h.zv]; exact hlin _ le_rfl hzx.le
      have e2 : x.v = k x.t := by rw [hx]; exact hlin _ hzx.le le_rfl
      have e3 : slope z x = m := by
        have : x.t - z.t ≠ 0 := by linarith
        rw [slope, e1, e2, hm x.t z.t]; field_simp; ring
      rw [hlin t h2 h1, ln, e3, e1, hm t z.t]
  · match res', hh, ha.last with
    | [], hh, _ => simp at hh
    | [a], hh, hl =>
      simp at hh hl
      rw [hh] at hl
      rw [← hl] at hzx
      have := h.z0
      simp at hzx
      linarith
    | a :: b :: l, _, _ => simp

/-- which function is better -/
structure BI (S : Bool → Rat → Rat) (bl : Better) (τ : Rat) (b : Bool) : Prop where
  last : bl.getLast? = some (τ, b)
  head : ∃ b0, bl.head? = some (0, b0)
  chain : List.IsChain (fun x y : Rat × Bool => x.1 < y.1 ∧ x.2 ≠ y.2) bl
  right : ∀ A x y B, bl = A ++ x :: y :: B → ∀ t, x.1 ≤ t → t ≤ y.1 → S x.2 t ≤ S (!x.2) t

theorem BI.push {S : Bool → Rat → Rat} {bl : Better} {τ : Rat} {b : Bool} (h : BI S bl τ b) {τ' : Rat} (hlt : τ < τ') (hb : ∀ t, τ ≤ t → t ≤ τ' → S b t ≤ S (!b) t) :
    BI S (bl ++ [(τ', !b)]) τ' (!b) := by
  refine ⟨by simp, ?_, ?_, ?_⟩
  · obtain ⟨b0, h0⟩ := h.head
    refine ⟨b0, ?_⟩
    cases bl with
    | nil => simp at h0
    | cons a l => simpa using h0
  · rw [List.isChain_append]
    refine ⟨h.chain, by simp, ?_⟩
    intro x hx y hy
    rw [h.last] at hx
    simp at hx hy
    subst hx hy
    exact ⟨hlt, by cases b <;> simp⟩
  · intro A x y B e
    rcases List.eq_nil_or_concat B with rfl | ⟨B', c, rfl⟩
    · have e' : bl ++ [(τ', !b)] = (A ++ [x]) ++ [y] := by simp [e]
      obtain ⟨e1, e2⟩ := List.append_inj' e' rfl
      simp at e2
      have := h.last
      rw [e1] at this
      simp at this
      rw [this, ← e2]
      exact hb
    · have e' : bl ++ [(τ', !b)] = (A ++ x :: y :: B') ++ [c] := by simp [e]
      obtain ⟨e1, e2⟩ := List.append_inj' e' rfl
      exact h.right A x y B' e1

/-- the state -/
structure St (S L : Bool → Rat → Rat) (z : Pt) (e : Rat) (res : List Pt) (bl : Better) (b : Bool) (τ : Rat) : Prop where
  rs : RS S z res
  bi : BI S bl τ b
  zv : z.v = L b z.t
  lin : ∀ t, z.t ≤ t → t ≤ e → mn S t = L b t
  bet : ∀ t, τ ≤ t → t ≤ e → S b t ≤ S (!b) t

/-- `b` is right from here on -/
def Dir (L : Bool → Rat → Rat) (b : Bool) (s : Rat) : Prop := L b s ≤ L (!b) s ∧ ∃ w, s < w ∧ L b w ≤ L (!b) w

/-- before a step -/
structure Inv (S L : Bool → Rat → Rat) (z : Pt) (s : Rat) (res : List Pt) (bl : Better) (b : Bool) (τ : Rat) : Prop where
  st : St S L z s res bl b τ
  zs : z.t ≤ s
  ts : τ ≤ s
  dir : Dir L b s

/-- within a step: the next point of one of the functions is at `e` -/
structure Mid (S L : Bool → Rat → Rat) (z : Pt) (e : Rat) (res : List Pt) (bl : Better) (b : Bool) (τ : Rat) : Prop where
  st : St S L z e res bl b τ
  ze : z.t < e
  te : τ < e
  fin : L b e ≤ L (!b) e
  old : ∃ w, w < e ∧ L b w ≤ L (!b) w

theorem dir_of_lt {L : Bool → Rat → Rat} (hL : ∀ b, Aff (L b)) {b : Bool} {s : Rat} (h : L b s < L (!b) s) : Dir L b s := by
  refine ⟨h.le, ?_⟩
  obtain ⟨w, h1, h2⟩ := ((hL b).sub (hL (!b))).near (s := s) (by linarith)
  exact ⟨w, h1, by linarith⟩

theorem dir_of_slope {L : Bool → Rat → Rat} {b : Bool} {s m n : Rat} (h1 : ∀ t, L b t = L b s + m * (t - s)) (h2 : ∀ t, L (!b) t = L (!b) s + n * (t - s))
    (he : L b s = L (!b) s) (h : m ≤ n) : Dir L b s := by
  refine ⟨he.le, s + 1, by linarith, ?_⟩
  rw [h1, h2, he]; nlinarith

theorem aff_inside {h : Rat → Rat} (ha : Aff h) {a b x : Rat} (hx : h x = 0) (hab : h a * h b < 0) (hlt : a < b) : a < x ∧ x < b := by
  obtain ⟨m, e⟩ := ha
  have e1 := e a x
  have e2 := e b x
  rw [hx] at e1 e2
  have h1 : m * m * ((a - x) * (b - x)) < 0 := by
    have : h a * h b = m * m * ((a - x) * (b - x)) := by rw [e1, e2]; ring
    linarith
  have h2 : (a - x) * (b - x) < 0 := by
    by_contra hc
    have := mul_nonneg (mul_self_nonneg m) (not_lt.1 hc)
    linarith
  constructor
  · by_contra hc; nlinarith
  · by_contra hc; nlinarith

/-- the intersection -/
theorem cross_spec {S L : Bool → Rat → Rat} (hW : Wd S) (co : Bool) {fp fc gp gc z : Pt} {s e τ : Rat} {res : List Pt} {bl : Better} {b : Bool}
    (hf : fp.t < fc.t) (hg : gp.t < gc.t) (hLt : L true = ln fp fc) (hLf : L false = ln gp gc)
    (s1 : fp.t ≤ s) (s2 : gp.t ≤ s) (s3 : s = fp.t ∨ s = gp.t) (e1 : e ≤ fc.t) (e2 : e ≤ gc.t) (e3 : e = fc.t ∨ e = gc.t) (hse : s < e) (h0 : 0 ≤ s) (hd : e ≤ day)
    (hS : ∀ b t, s ≤ t → t ≤ e → S b t = L b t) (h : Inv S L z s res bl b τ) :
    ∃ res' bl' b' z' τ', (∀ dbg, crossStep co dbg Tol.exact fp fc gp gc res bl = some (res', bl')) ∧ Mid S L z' e res' bl' b' τ' ∧ res'.length ≤ res.length + 1 := by
  have hA : ∀ b, Aff (L b) := by intro b; cases b <;> simp only [hLt, hLf] <;> exact aff_ln _ _
  have hD : Aff (fun t => L b t - L (!b) t) := (hA b).sub (hA (!b))
  have hlast : lastB bl = some b := by simp [lastB, h.st.bi.last]
  have hprod : ∀ a c, (ln fp fc a - ln gp gc a) * (ln fp fc c - ln gp gc c) = (L b a - L (!b) a) * (L b c - L (!b) c) := by
    intro a c
    cases b <;> simp only [Bool.not_false, Bool.not_true, hLt, hLf] <;> ring
  by_cases hi : intersect Tol.exact fp fc gp gc = true
  · obtain ⟨i1, i2⟩ := (intersect_iff hf hg).1 hi
    have hne : slope fp fc ≠ slope gp gc := by
      intro he
      have : ln fp fc fc.t - ln gp gc fc.t = ln fp fc fp.t - ln gp gc fp.t := by simp only [ln, he]; ring
      rw [this] at i2
      nlinarith [mul_self_nonneg (ln fp fc fp.t - ln gp gc fp.t)]
    obtain ⟨x, hx, hxe⟩ := point_spec hf hg hne
    have hx0 : L b x - L (!b) x = 0 := by
      cases b <;> simp only [Bool.not_false, Bool.not_true, hLt, hLf, hxe] <;> ring
    rw [hprod] at i1 i2
    obtain ⟨x1, x2⟩ := aff_inside hD hx0 i1 hg
    obtain ⟨x3, x4⟩ := aff_inside hD hx0 i2 hf
    have hsx : s < x := by rcases s3 with h | h <;> rw [h] <;> assumption
    have hxe' : x < e := by rcases e3 with h | h <;> rw [h] <;> assumption
    obtain ⟨m, hm⟩ := hD
    simp only at hm
    have hm0 : 0 < m := by
      have h1 := h.st
      have hs := h.dir.1
      have e1 := hm s x
      have e4 := hm fp.t x
      rw [hx0] at e1 e4
      have : m ≠ 0 := by
        rintro rfl
        rw [e4] at i2
        simp at i2
      by_contra hc
      have : m < 0 := lt_of_le_of_ne (not_lt.1 hc) this
      nlinarith
    have hb' : counterClockwise Tol.exact gp fc gc = !b := by
      rw [cc_ac hg, ← ln_right hf]
      have := hm fc.t x
      rw [hx0] at this
      have h1 : 0 < L b fc.t - L (!b) fc.t := by rw [this]; nlinarith
      cases b
      · simp only [Bool.not_false, hLt, hLf] at h1
        simp; linarith
      · simp only [Bool.not_true, hLt, hLf] at h1
        simp; linarith
    have hle : ∀ t, t ≤ x → L b t ≤ L (!b) t := by
      intro t ht
      have := hm t x
      rw [hx0] at this
      nlinarith
    have hge : ∀ t, x ≤ t → L (!b) t ≤ L b t := by
      intro t ht
      have := hm t x
      rw [hx0] at this
      nlinarith
    have hSb : ∀ t, s ≤ t → t ≤ x → S b t ≤ S (!b) t := by
      intro t h1 h2
      rw [hS b t h1 (h2.trans hxe'.le), hS (!b) t h1 (h2.trans hxe'.le)]
      exact hle t h2
    have hlin : ∀ t, z.t ≤ t → t ≤ x → mn S t = L b t := by
      intro t h1 h2
      rcases le_total t s with h3 | h3
      · exact h.st.lin t h1 h3
      · rw [mn_of (hSb t h3 h2), hS b t h3 (h2.trans hxe'.le)]
    have hxv : ln fp fc x = L b x := by
      cases b
      · rw [hLf, hxe]
      · rw [hLt]
    obtain ⟨res', a1, a2, a3, _⟩ := h.st.rs.push hW (co := co) (x := ⟨x, ln fp fc x⟩) (lt_of_le_of_lt h.zs hsx) (by simp only; rw [hlin x (h.zs.trans hsx.le) le_rfl, hxv]) (hA b) hlin
    refine ⟨res', bl ++ [(x, !b)], !b, ⟨x, ln fp fc x⟩, x, ?_, ⟨⟨a2, ?_, ?_, ?_, ?_⟩, hxe', hxe', ?_, x, hxe', ?_⟩, a3⟩
    · intro dbg
      rw [crossStep, if_pos hi, hx]
      have f1 : flt Tol.exact.eps 0 x = true := by simp [Tol.exact, flt_zero, lt_of_le_of_lt h0 hsx]
      have f2 : flt Tol.exact.eps x day = true := by simp [Tol.exact, flt_zero, lt_of_lt_of_le hxe' hd]
      simp only [Option.bind_eq_bind, Option.bind_some, f1, f2, Bool.and_self, if_true, hlast, hb']
      rw [show Tol.exact.eps = 0 from rfl, a1]
      cases b <;> cases dbg <;> simp [dassert]
    · exact h.st.bi.push (lt_of_le_of_lt h.ts hsx) (by
        intro t h1 h2
        rcases le_total t s with h3 | h3
        · exact h.st.bet t h1 h3
        · exact hSb t h3 h2)
    · simp only; rw [hxv]; linarith
    · intro t h1 h2
      simp only at h1
      have h3 : S (!b) t ≤ S (!!b) t := by
        rw [Bool.not_not, hS b t (hsx.le.trans h1) h2, hS (!b) t (hsx.le.trans h1) h2]
        exact hge t h1
      rw [mn_of h3, hS (!b) t (hsx.le.trans h1) h2]
    · intro t h1 h2
      rw [Bool.not_not, hS b t (hsx.le.trans h1) h2, hS (!b) t (hsx.le.trans h1) h2]
      exact hge t h1
    · rw [Bool.not_not]; exact hge e hxe'.le
    · rw [Bool.not_not]; linarith
  · have hend : L b e ≤ L (!b) e := by
      by_contra hc
      have hc : 0 < L b e - L (!b) e := by linarith [not_le.1 hc]
      obtain ⟨m, hm⟩ := hD
      simp only at hm
      obtain ⟨d1, w, hw, d2⟩ := h.dir
      have hs0 : L b s - L (!b) s < 0 := by
        rcases lt_or_eq_of_le d1 with h1 | h1
        · linarith
        · have k1 := hm w s
          have k2 := hm e s
          nlinarith
      have k2 := hm e s
      have hm0 : 0 < m := by
        by_contra hc'
        nlinarith
      apply hi
      rw [intersect_iff hf hg, hprod, hprod]
      have neg : ∀ a, a ≤ s → L b a - L (!b) a < 0 := by
        intro a ha
        have := hm a s
        nlinarith
      have pos : ∀ a, e ≤ a → 0 < L b a - L (!b) a := by
        intro a ha
        have := hm a e
        nlinarith
      exact ⟨mul_neg_of_neg_of_pos (neg _ s2) (pos _ e2), mul_neg_of_neg_of_pos (neg _ s1) (pos _ e1)⟩
    have hle : ∀ t, s ≤ t → t ≤ e → L b t ≤ L (!b) t := by
      intro t h1 h2
      have := hD.between (a := s) (b := e) (t := t) (by linarith [h.dir.1]) (by linarith) h1 h2
      linarith
    have hSb : ∀ t, s ≤ t → t ≤ e → S b t ≤ S (!b) t := by
      intro t h1 h2
      rw [hS b t h1 h2, hS (!b) t h1 h2]
      exact hle t h1 h2
    refine ⟨res, bl, b, z, τ, by intro dbg; rw [crossStep, if_neg hi]; rfl, ⟨⟨h.st.rs, h.st.bi, h.st.zv, ?_, ?_⟩, lt_of_le_of_lt h.zs hse, lt_of_le_of_lt h.ts hse, hend, s, hse, h.dir.1⟩, by omega⟩
    · intro t h1 h2
      rcases le_total t s with h3 | h3
      · exact h.st.lin t h1 h3
      · rw [mn_of (hSb t h3 h2), hS b t h3 h2]
    · intro t h1 h2
      rcases le_total t s with h3 | h3
      · exact h.st.bet t h1 h3
      · exact hSb t h3 h2

/-- appending the minimum at `e` -/
theorem Mid.push {S L : Bool → Rat → Rat} (hW : Wd S) {co : Bool} {z x : Pt} {e τ : Rat} {res : List Pt} {bl : Better} {b : Bool} (hA : ∀ b, Aff (L b)) (h : Mid S L z e res bl b τ)
    (hx : x.t = e) (hv : x.v = mn S e) : ∃ res', appendPoint co 0 res x = some res' ∧ res'.length ≤ res.length + 1 ∧
      ∀ {L' : Bool → Rat → Rat} {bl' : Better} {b' : Bool} {τ' : Rat}, BI S bl' τ' b' → τ' ≤ e → x.v = L' b' e → (∀ t, τ' ≤ t → t ≤ e → S b' t ≤ S (!b') t) → Dir L' b' e →
        Inv S L' x e res' bl' b' τ' := by
  obtain ⟨res', a1, a2, a3, _⟩ := h.st.rs.push hW (co := co) (x := x) (by rw [hx]; exact h.ze) (by rw [hx]; exact hv) (hA b) (by rw [hx]; exact h.st.lin)
  refine ⟨res', a1, a3, ?_⟩
  intro L' bl' b' τ' k1 k2 k3 k4 k5
  refine ⟨⟨a2, k1, by rw [hx]; exact k3, ?_, k4⟩, hx.le, k2, k5⟩
  intro t h1 h2
  have : t = e := by linarith
  rw [this, ← hv, k3]

/-- a change of the better function at `e` -/
theorem Mid.turn {S L : Bool → Rat → Rat} {z : Pt} {e τ : Rat} {res : List Pt} {bl : Better} {b : Bool} (h : Mid S L z e res bl b τ) (he : S b e = S (!b) e) :
    BI S (bl ++ [(e, !b)]) e (!b) ∧ ∀ t, e ≤ t → t ≤ e → S (!b) t ≤ S (!!b) t := by
  refine ⟨h.st.bi.push h.te h.st.bet, ?_⟩
  intro t h1 h2
  have : t = e := by linarith
  rw [this, Bool.not_not, he]

theorem slope_tail {p c q : Pt} (h1 : p.t < q.t) (h2 : c.t < q.t) (h : c.v = ln p q c.t) : slope c q = slope p q := by
  have e := ln_right h1
  have : q.t - c.t ≠ 0 := by linarith
  rw [slope, div_eq_iff this, ← e, h]
  simp only [ln]; ring

theorem ln_same {c nx op oc : Pt} (h : c.v = ln op oc c.t) (hs : slope c nx = slope op oc) (t : Rat) : ln c nx t = ln op oc t := by
  rw [ln, h, hs]
  simp only [ln]; ring

end Fl
end Verif
