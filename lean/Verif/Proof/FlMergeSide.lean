import Verif.Proof.FlMergeStep
/- The points of the functions in `merge` in exact arithmetic. -/
set_option linter.unusedSimpArgs false
set_option linter.unusedVariables false
namespace Verif
namespace Fl
open Spec

/-- a point of one function within a segment of the other one -/
theorem side_spec {S L L' : Bool → Rat → Rat} (hW : Wd S) (co mine : Bool) {cp c nx op oc z : Pt} {τ : Rat} {res : List Pt} {bl : Better} {b before : Bool} {missed : Option Pt}
    (hc : cp.t < c.t) (hn : c.t < nx.t) (ho1 : op.t < c.t) (ho2 : c.t < oc.t) (hLm : L mine = ln cp c) (hLo : L (!mine) = ln op oc)
    (hLm' : L' mine = ln c nx) (hLo' : L' (!mine) = ln op oc) (hSm : S mine c.t = c.v) (hSo : S (!mine) c.t = ln op oc c.t)
    (hbef : c.v = ln op oc c.t → before = decide (cp.v < ln op oc cp.t)) (h : Mid S L z c.t res bl b τ) :
    ∃ res' bl' b' z' τ', (∀ dbg, sideStep co dbg Tol.exact mine c nx op oc before missed res bl = some (res', bl')) ∧ Inv S L' z' c.t res' bl' b' τ' ∧ res'.length ≤ res.length + 1 := by
  have hA : ∀ b, Aff (L b) := by
    intro b
    by_cases hb : b = mine
    · rw [hb, hLm]; exact aff_ln _ _
    · have : b = !mine := by revert hb; cases b <;> cases mine <;> simp
      rw [this, hLo]; exact aff_ln _ _
  have hA' : ∀ b, Aff (L' b) := by
    intro b
    by_cases hb : b = mine
    · rw [hb, hLm']; exact aff_ln _ _
    · have : b = !mine := by revert hb; cases b <;> cases mine <;> simp
      rw [this, hLo']; exact aff_ln _ _
  have hlast : lastB bl = some b := by simp [lastB, h.st.bi.last]
  have hopoc : op.t < oc.t := ho1.trans ho2
  have hcc1 : counterClockwise Tol.exact op c oc = decide (c.v < ln op oc c.t) := cc_ac hopoc
  have hcol := collinear_spec (p := op) (q := c) (r := oc) ho1 ho2
  have hLmc : L mine c.t = c.v := by rw [hLm, ln_right hc]
  have hLmc' : L' mine c.t = c.v := by rw [hLm', ln_left]
  have hLoc : L (!mine) c.t = ln op oc c.t := by rw [hLo]
  have hLoc' : L' (!mine) c.t = ln op oc c.t := by rw [hLo']
  have heps : Tol.exact.eps = 0 := rfl
  rcases lt_trichotomy c.v (ln op oc c.t) with hlt | heq | hgt
  · -- below
    have hb : b = mine := by
      by_contra hb
      have hb : b = !mine := by revert hb; cases b <;> cases mine <;> simp
      have := h.fin
      rw [hb, Bool.not_not, hLmc, hLoc] at this
      linarith
    subst hb
    have hmn : c.v = mn S c.t := by rw [mn_of (b := b) (by rw [hSm, hSo]; exact hlt.le), hSm]
    obtain ⟨res', a1, a2, a3⟩ := h.push hW (co := co) hA (x := c) rfl hmn
    refine ⟨res', bl, b, c, τ, ?_, a3 h.st.bi h.te.le (by rw [hLmc']) h.st.bet (dir_of_lt hA' (by rw [hLmc', hLoc']; exact hlt)), a2⟩
    intro dbg
    simp only [sideStep, hlast, hcc1, hlt, heps, a1, Option.bind_eq_bind, Option.bind_some, decide_true, if_true, beq_self_eq_true]
    cases dbg <;> simp [dassert]
  · -- on the segment
    have hst := slope_tail hopoc ho2 heq
    have hcc2 : counterClockwise Tol.exact c nx oc = decide (slope c nx < slope op oc) := by rw [cc_slopes hn ho2, hst]
    have hcw2 : clockwise Tol.exact c nx oc = decide (slope op oc < slope c nx) := by rw [cw_slopes hn ho2, hst]
    have hb0 := hbef heq
    have hmn : c.v = mn S c.t := by rw [mn_of (b := mine) (by rw [hSm, hSo, heq]), hSm]
    obtain ⟨res', a1, a2, a3⟩ := h.push hW (co := co) hA (x := c) rfl hmn
    have hSe : S mine c.t = S (!mine) c.t := by rw [hSm, hSo, heq]
    have hLe' : L' mine c.t = L' (!mine) c.t := by rw [hLmc', hLoc', heq]
    have q1 : ∀ t, L' mine t = L' mine c.t + slope c nx * (t - c.t) := by intro t; rw [hLm']; simp only [ln]; ring
    have q2 : ∀ t, L' (!mine) t = L' (!mine) c.t + slope op oc * (t - c.t) := by intro t; rw [hLo']; simp only [ln]; ring
    have dm : slope c nx ≤ slope op oc → Dir L' mine c.t := fun hs => dir_of_slope q1 q2 hLe' hs
    have dO : slope op oc ≤ slope c nx → Dir L' (!mine) c.t := fun hs => dir_of_slope q2 (by rw [Bool.not_not]; exact q1) (by rw [Bool.not_not]; exact hLe'.symm) hs
    have hcd : decide (c.v < ln op oc c.t) = false := by simp [heq.not_lt]
    have hcq : decide (c.v = ln op oc c.t) = true := by simp [← heq]
    obtain ⟨w, hw, hwb⟩ := h.old
    by_cases hb : b = mine
    · subst hb
      have hD : Aff (fun t => L b t - L (!b) t) := (hA b).sub (hA (!b))
      have hD0 : L b c.t - L (!b) c.t = 0 := by rw [hLmc, hLoc, heq]; ring
      have hcpv : L b cp.t = cp.v := by rw [hLm, ln_left]
      by_cases hbef' : cp.v < ln op oc cp.t
      · -- appended
        by_cases hs : slope op oc < slope c nx
        · obtain ⟨t1, t2⟩ := h.turn hSe
          refine ⟨res', bl ++ [(c.t, !b)], !b, c, c.t, ?_, a3 t1 le_rfl (by rw [hLoc', ← heq]) t2 (dO hs.le), a2⟩
          intro dbg
          simp only [sideStep, hlast, hcc1, hcd, hcol, hcq, hcc2, hcw2, heps, a1, Option.bind_eq_bind, Option.bind_some, hb0, hbef', hs]
          cases dbg <;> simp [dassert]
        · refine ⟨res', bl, b, c, τ, ?_, a3 h.st.bi h.te.le (by rw [hLmc']) h.st.bet (dm (not_lt.1 hs)), a2⟩
          intro dbg
          simp only [sideStep, hlast, hcc1, hcd, hcol, hcq, hcc2, hcw2, heps, a1, Option.bind_eq_bind, Option.bind_some, hb0, hbef', hs]
          cases dbg <;> simp [dassert]
      · by_cases hs1 : slope c nx < slope op oc
        · refine ⟨res', bl, b, c, τ, ?_, a3 h.st.bi h.te.le (by rw [hLmc']) h.st.bet (dm hs1.le), a2⟩
          intro dbg
          simp only [sideStep, hlast, hcc1, hcd, hcol, hcq, hcc2, hcw2, heps, a1, Option.bind_eq_bind, Option.bind_some, hb0, hs1, hs1.not_gt]
          cases dbg <;> simp [dassert]
        · -- the same line
          have hcp : L b cp.t - L (!b) cp.t = 0 := by
            have k1 := hD.before (w := w) (e := c.t) (t := cp.t) (by linarith) hD0 hw hc.le
            have : ¬ (L b cp.t < L (!b) cp.t) := by rw [hcpv, hLo]; exact hbef'
            linarith
          have hall : ∀ t, L b t = L (!b) t := by
            intro t
            obtain ⟨m, hm⟩ := hD
            simp only at hm
            have k1 := hm cp.t c.t
            rw [hcp, hD0] at k1
            have : m = 0 := by
              have : m * (cp.t - c.t) = 0 := by linarith
              rcases mul_eq_zero.1 this with h1 | h1
              · exact h1
              · linarith
            have k2 := hm t c.t
            rw [hD0, this] at k2
            linarith
          by_cases hs : slope op oc < slope c nx
          · obtain ⟨t1, t2⟩ := h.turn hSe
            refine ⟨res, bl ++ [(c.t, !b)], !b, z, c.t, ?_, ⟨⟨h.st.rs, t1, ?_, ?_, t2⟩, h.ze.le, le_rfl, dO hs.le⟩, by omega⟩
            · intro dbg
              simp only [sideStep, hlast, hcc1, hcd, hcol, hcq, hcc2, hcw2, heps, Option.bind_eq_bind, Option.bind_some, hb0, hbef', hs1, hs]
              simp
            · rw [h.st.zv, hall, hLo, hLo']
            · intro t h1 h2; rw [h.st.lin t h1 h2, hall, hLo, hLo']
          · have hseq : slope c nx = slope op oc := le_antisymm (not_lt.1 hs) (not_lt.1 hs1)
            refine ⟨res, bl, b, z, τ, ?_, ⟨⟨h.st.rs, h.st.bi, ?_, ?_, h.st.bet⟩, h.ze.le, h.te.le, dm hseq.le⟩, by omega⟩
            · intro dbg
              simp only [sideStep, hlast, hcc1, hcd, hcol, hcq, hcc2, hcw2, heps, Option.bind_eq_bind, Option.bind_some, hb0, hbef', hs1, hs]
              simp
            · rw [h.st.zv, hall, hLo, hLm', ln_same heq hseq]
            · intro t h1 h2; rw [h.st.lin t h1 h2, hall, hLo, hLm', ln_same heq hseq]
    · have hb : b = !mine := by revert hb; cases b <;> cases mine <;> simp
      subst hb
      rw [Bool.not_not] at hwb
      have hD : Aff (fun t => L (!mine) t - L mine t) := (hA (!mine)).sub (hA mine)
      have hD0 : L (!mine) c.t - L mine c.t = 0 := by rw [hLmc, hLoc, heq]; ring
      have hcpv : L mine cp.t = cp.v := by rw [hLm, ln_left]
      have hbf : ¬ (cp.v < ln op oc cp.t) := by
        have k1 := hD.before (w := w) (e := c.t) (t := cp.t) (by linarith) hD0 hw hc.le
        simp only [hcpv, hLo] at k1
        linarith
      have hbm : ((!mine) == mine) = false := by cases mine <;> rfl
      by_cases hs1 : slope c nx < slope op oc
      · obtain ⟨t1, t2⟩ := h.turn (by rw [Bool.not_not]; exact hSe.symm)
        rw [Bool.not_not] at t1 t2
        refine ⟨res', bl ++ [(c.t, mine)], mine, c, c.t, ?_, a3 t1 le_rfl (by rw [hLmc']) t2 (dm hs1.le), a2⟩
        intro dbg
        simp only [sideStep, hlast, hcc1, hcd, hcol, hcq, hcc2, hcw2, heps, a1, Option.bind_eq_bind, Option.bind_some, hb0, hs1, hs1.not_gt, hbm]
        cases dbg <;> simp [dassert]
      · refine ⟨res, bl, !mine, z, τ, ?_, ⟨⟨h.st.rs, h.st.bi, ?_, ?_, h.st.bet⟩, h.ze.le, h.te.le, dO (not_lt.1 hs1)⟩, by omega⟩
        · intro dbg
          simp only [sideStep, hlast, hcc1, hcd, hcol, hcq, hcc2, hcw2, heps, Option.bind_eq_bind, Option.bind_some, hb0, hbf, hs1, hbm]
          simp
        · rw [h.st.zv, hLo, hLo']
        · intro t h1 h2; rw [h.st.lin t h1 h2, hLo, hLo']
  · -- above
    have hb : b = !mine := by
      by_contra hb
      have hb : b = mine := by revert hb; cases b <;> cases mine <;> simp
      have := h.fin
      rw [hb, hLmc, hLoc] at this
      linarith
    subst hb
    refine ⟨res, bl, !mine, z, τ, ?_, ⟨⟨h.st.rs, h.st.bi, ?_, ?_, h.st.bet⟩, h.ze.le, h.te.le, dir_of_lt hA' (by rw [Bool.not_not, hLmc', hLoc']; exact hgt)⟩, by omega⟩
    · have k1 : decide (c.v < ln op oc c.t) = false := by simp [hgt.le]
      have k2 : decide (c.v = ln op oc c.t) = false := by simp [hgt.ne']
      intro dbg
      simp only [sideStep, hlast, hcc1, k1, hcol, k2, heps, Option.bind_eq_bind, Option.bind_some]
      simp
    · rw [h.st.zv, hLo, hLo']
    · intro t h1 h2; rw [h.st.lin t h1 h2, hLo, hLo']

/-- a point of both functions -/
theorem both_spec {S L L' : Bool → Rat → Rat} (hW : Wd S) (co : Bool) {fp fc fn gp gc gn z : Pt} {τ : Rat} {res : List Pt} {bl : Better} {b : Bool}
    (hf : fp.t < fc.t) (hg : gp.t < gc.t) (hfn : fc.t < fn.t) (hgn : gc.t < gn.t) (het : fc.t = gc.t) (hLt : L true = ln fp fc) (hLf : L false = ln gp gc)
    (hLt' : L' true = ln fc fn) (hLf' : L' false = ln gc gn) (hSt : S true fc.t = fc.v) (hSf : S false fc.t = gc.v) (h : Mid S L z fc.t res bl b τ) :
    ∃ res' bl' b' z' τ', (∀ dbg, bothStep co dbg Tol.exact fp fc fn gp gc gn res bl = some (res', bl')) ∧ Inv S L' z' fc.t res' bl' b' τ' ∧ res'.length ≤ res.length + 1 := by
  have hA : ∀ b, Aff (L b) := by intro b; cases b <;> simp only [hLt, hLf] <;> exact aff_ln _ _
  have hA' : ∀ b, Aff (L' b) := by intro b; cases b <;> simp only [hLt', hLf'] <;> exact aff_ln _ _
  have hlast : lastB bl = some b := by simp [lastB, h.st.bi.last]
  have hLtc : L true fc.t = fc.v := by rw [hLt, ln_right hf]
  have hLfc : L false fc.t = gc.v := by rw [hLf, het, ln_right hg]
  have hLtc' : L' true fc.t = fc.v := by rw [hLt', ln_left]
  have hLfc' : L' false fc.t = gc.v := by rw [hLf', het, ln_left]
  have heps : Tol.exact.eps = 0 := rfl
  rcases lt_trichotomy fc.v gc.v with hlt | heq | hgt
  · have hb : b = true := by
      cases b with
      | true => rfl
      | false =>
        have := h.fin
        rw [Bool.not_false, hLtc, hLfc] at this
        linarith
    subst hb
    have hmn : fc.v = mn S fc.t := by rw [mn_of (b := true) (by rw [Bool.not_true, hSt, hSf]; exact hlt.le), hSt]
    obtain ⟨res', a1, a2, a3⟩ := h.push hW (co := co) hA (x := fc) rfl hmn
    refine ⟨res', bl, true, fc, τ, ?_, a3 h.st.bi h.te.le (by rw [hLtc']) h.st.bet (dir_of_lt hA' (by rw [Bool.not_true, hLtc', hLfc']; exact hlt)), a2⟩
    intro dbg
    simp only [bothStep, hlast, heps, feq_zero, flt_zero, hlt.ne, hlt, a1, Option.bind_eq_bind, Option.bind_some, decide_true, decide_false, if_true]
    cases dbg <;> simp [dassert]
  · have hfg : fc = gc := by cases fc; cases gc; simp_all
    subst hfg
    have hmn : fc.v = mn S fc.t := by rw [mn_of (b := true) (by rw [Bool.not_true, hSt, hSf]), hSt]
    obtain ⟨res', a1, a2, a3⟩ := h.push hW (co := co) hA (x := fc) rfl hmn
    have hcc : counterClockwise Tol.exact fc fn gn = decide (slope fc fn < slope fc gn) := cc_slopes hfn hgn
    have hcw : clockwise Tol.exact fc fn gn = decide (slope fc gn < slope fc fn) := cw_slopes hfn hgn
    have hccb : counterClockwise Tol.exact gp fp fc = decide (fp.v < ln gp fc fp.t) := cc_ac hg
    have hcwb : clockwise Tol.exact gp fp fc = decide (ln gp fc fp.t < fp.v) := cw_ac hg
    have q1 : ∀ t, L' true t = L' true fc.t + slope fc fn * (t - fc.t) := by intro t; rw [hLt']; simp only [ln]; ring
    have q2 : ∀ t, L' false t = L' false fc.t + slope fc gn * (t - fc.t) := by intro t; rw [hLf']; simp only [ln]; ring
    have dm : slope fc fn ≤ slope fc gn → Dir L' true fc.t := fun hs => dir_of_slope q1 q2 (by rw [Bool.not_true, hLtc', hLfc']) hs
    have dO : slope fc gn ≤ slope fc fn → Dir L' false fc.t := fun hs => dir_of_slope q2 q1 (by rw [Bool.not_false, hLtc', hLfc']) hs
    have hite : (if b = true then fc else fc) = fc := by cases b <;> rfl
    obtain ⟨w, hw, hwb⟩ := h.old
    have hfpv : L true fp.t = fp.v := by rw [hLt, ln_left]
    cases b with
    | true =>
      have hnb : ¬ (ln gp fc fp.t < fp.v) := by
        have k1 := ((hA true).sub (hA false)).before (w := w) (e := fc.t) (t := fp.t) (by simp only [Bool.not_true] at hwb; linarith) (by simp only [hLtc, hLfc]; ring) hw hf.le
        simp only [hfpv, hLf] at k1
        linarith
      by_cases hs : slope fc gn < slope fc fn
      · obtain ⟨t1, t2⟩ := h.turn (by rw [Bool.not_true, hSt, hSf])
        refine ⟨res', bl ++ [(fc.t, false)], false, fc, fc.t, ?_, a3 t1 le_rfl (by rw [hLfc']) t2 (dO hs.le), a2⟩
        intro dbg
        simp only [bothStep, hlast, heps, feq_zero, hite, a1, hcc, hcw, hccb, hcwb, hs, hs.not_gt, hnb, Option.bind_eq_bind, Option.bind_some, decide_true, decide_false, if_true]
        cases dbg <;> simp [dassert]
      · refine ⟨res', bl, true, fc, τ, ?_, a3 h.st.bi h.te.le (by rw [hLtc']) h.st.bet (dm (not_lt.1 hs)), a2⟩
        intro dbg
        simp only [bothStep, hlast, heps, feq_zero, hite, a1, hcc, hcw, hccb, hcwb, hs, hnb, Option.bind_eq_bind, Option.bind_some, decide_true, decide_false, if_true]
        cases dbg <;> simp [dassert]
    | false =>
      have hnb : ¬ (fp.v < ln gp fc fp.t) := by
        have k1 := ((hA false).sub (hA true)).before (w := w) (e := fc.t) (t := fp.t) (by simp only [Bool.not_false] at hwb; linarith) (by simp only [hLtc, hLfc]; ring) hw hf.le
        simp only [hfpv, hLf] at k1
        linarith
      by_cases hs : slope fc fn < slope fc gn
      · obtain ⟨t1, t2⟩ := h.turn (by rw [Bool.not_false, hSt, hSf])
        refine ⟨res', bl ++ [(fc.t, true)], true, fc, fc.t, ?_, a3 t1 le_rfl (by rw [hLtc']) t2 (dm hs.le), a2⟩
        intro dbg
        simp only [bothStep, hlast, heps, feq_zero, hite, a1, hcc, hcw, hccb, hcwb, hs, hs.not_gt, hnb, Option.bind_eq_bind, Option.bind_some, decide_true, decide_false, if_true]
        cases dbg <;> simp [dassert]
      · refine ⟨res', bl, false, fc, τ, ?_, a3 h.st.bi h.te.le (by rw [hLfc']) h.st.bet (dO (not_lt.1 hs)), a2⟩
        intro dbg
        simp only [bothStep, hlast, heps, feq_zero, hite, a1, hcc, hcw, hccb, hcwb, hs, hnb, Option.bind_eq_bind, Option.bind_some, decide_true, decide_false, if_true]
        cases dbg <;> simp [dassert]
  · have hb : b = false := by
      cases b with
      | false => rfl
      | true =>
        have := h.fin
        rw [Bool.not_true, hLtc, hLfc] at this
        linarith
    subst hb
    have hmn : gc.v = mn S fc.t := by rw [mn_of (b := false) (by rw [Bool.not_false, hSt, hSf]; exact hgt.le), hSf]
    obtain ⟨res', a1, a2, a3⟩ := h.push hW (co := co) hA (x := gc) het.symm hmn
    refine ⟨res', bl, false, gc, τ, ?_, a3 h.st.bi h.te.le (by rw [hLfc']) h.st.bet (dir_of_lt hA' (by rw [Bool.not_false, hLtc', hLfc']; exact hgt)), a2⟩
    intro dbg
    simp only [bothStep, hlast, heps, feq_zero, flt_zero, hgt.ne', hgt.not_gt, hgt, a1, Option.bind_eq_bind, Option.bind_some, decide_true, decide_false, if_true]
    cases dbg <;> simp [dassert]

end Fl
end Verif
