import Verif.Proof.FlMergeSide
/- The loops of `merge` in exact arithmetic. -/
set_option linter.unusedSimpArgs false
set_option linter.unusedVariables false
namespace Verif
namespace Fl
open Spec

/-- the functions -/
noncomputable def sides (f g : List Pt) : Bool → Rat → Rat
  | true => fn f
  | false => fn g

/-- the lines of the current segments -/
def lines (fp fc gp gc : Pt) : Bool → Rat → Rat
  | true => ln fp fc
  | false => ln gp gc

theorem valid_pos {l : List Pt} (hv : ValidTtf l) : ∀ p ∈ l, 0 ≤ p.v := by
  rcases hv with ⟨v, rfl, h⟩ | ⟨_, h, _⟩
  · simpa using h
  · exact h

theorem valid_ne {l : List Pt} (hv : ValidTtf l) : l ≠ [] := by
  rcases hv with ⟨v, rfl, h⟩ | ⟨⟨v, r, rfl⟩, _⟩ <;> simp

theorem sides_wd {f g : List Pt} (hf : ValidTtf f) (hg : ValidTtf g) : Wd (sides f g) := by
  refine ⟨?_, ?_⟩
  · intro t t' h
    have h1 := fn_fifo hf h
    have h2 := fn_fifo hg h
    simp only [mn, sides]
    rcases le_total (fn f t') (fn g t') with h3 | h3
    · rw [min_eq_left h3]; linarith [min_le_left (fn f t) (fn g t)]
    · rw [min_eq_right h3]; linarith [min_le_right (fn f t) (fn g t)]
  · intro t
    exact le_min (fn_ge_lower hf (valid_pos hf) t) (fn_ge_lower hg (valid_pos hg) t)

/-- the cursors -/
structure LS (f g : List Pt) (cf cg : Cursor) (fp fc fr gp gc gr : Pt) (s : Rat) : Prop where
  mf : MCur f cf fp fc fr
  mg : MCur g cg gp gc gr
  fs : fp.t ≤ s
  gs : gp.t ≤ s
  is : s = fp.t ∨ s = gp.t
  sf : s < fc.t
  sg : s < gc.t
  s0 : 0 ≤ s

theorem LS.eq_seg {f g : List Pt} {cf cg : Cursor} {fp fc fr gp gc gr : Pt} {s : Rat} (h : LS f g cf cg fp fc fr gp gc gr s) (b : Bool) {t : Rat} (h1 : s ≤ t) (h2 : t ≤ fc.t) (h3 : t ≤ gc.t) :
    sides f g b t = lines fp fc gp gc b t := by
  cases b with
  | true => exact h.mf.s1.on t (h.fs.trans h1) h2
  | false => exact h.mg.s1.on t (h.gs.trans h1) h3

theorem ln_head {p c q : Pt} (h1 : p.t < c.t) (h : c.v = ln p q c.t) (t : Rat) : ln p c t = ln p q t := by
  have : slope p c = slope p q := by
    have : c.t - p.t ≠ 0 := by linarith
    rw [slope, div_eq_iff this, h]; simp only [ln]; ring
  simp only [ln, this]

theorem bef_false {fp fc gp gc : Pt} (hf : fp.t < fc.t) (hg : gp.t < gc.t) (hfg : fp.t < gc.t) (h : gc.v = ln fp fc gc.t) :
    counterClockwise Tol.exact gp gc fp = decide (gp.v < ln fp fc gp.t) := by
  rw [cc_ab hg, decide_eq_decide]
  obtain ⟨m, hm⟩ := (aff_ln gp gc).sub (aff_ln fp fc)
  simp only at hm
  have h0 : ln gp gc gc.t - ln fp fc gc.t = 0 := by rw [ln_right hg, h]; ring
  have k1 := hm fp.t gc.t
  have k2 := hm gp.t gc.t
  rw [h0] at k1 k2
  rw [ln_left] at k1 k2
  constructor
  · intro h1
    have : 0 < m := by by_contra hc; nlinarith
    nlinarith
  · intro h1
    have : 0 < m := by by_contra hc; nlinarith
    nlinarith

theorem loop_spec {f g : List Pt} (hf : ValidTtf f) (hg : ValidTtf g) (co : Bool) : ∀ (fuel m k : Nat) (cf cg : Cursor) (fp fc fr gp gc gr z : Pt) (s τ : Rat) (res : List Pt) (bl : Better) (b : Bool),
    m + k + 1 ≤ fuel → Reach cf m day → Reach cg k day → LS f g cf cg fp fc fr gp gc gr s → fc.t ≤ day → gc.t ≤ day → Inv (sides f g) (lines fp fc gp gc) z s res bl b τ →
    ∃ cf' cg' fp' fc' fr' gp' gc' gr' z' s' τ' res' bl' b', (∀ dbg, mergeLoop co dbg Tol.exact fuel cf cg res bl = some (cf', cg', res', bl')) ∧
      LS f g cf' cg' fp' fc' fr' gp' gc' gr' s' ∧ fc'.t = day ∧ gc'.t = day ∧ Inv (sides f g) (lines fp' fc' gp' gc') z' s' res' bl' b' τ' ∧ res'.length ≤ res.length + 2 * (m + k)
  | 0, m, k, cf, cg, fp, fc, fr, gp, gc, gr, z, s, τ, res, bl, b, h, _, _, _, _, _, _ => by omega
  | fuel + 1, m, k, cf, cg, fp, fc, fr, gp, gc, gr, z, s, τ, res, bl, b, hfu, r1, r2, hL, hfd, hgd, hI => by
    have hW := sides_wd hf hg
    have hfn := hL.mf.s1.nx.1
    have hgn := hL.mg.s1.nx.1
    have hfn2 := hL.mf.s2.nx.1
    have hgn2 := hL.mg.s2.nx.1
    by_cases hcont : fc.t < day ∨ gc.t < day
    · -- the step
      have hfpgc : fp.t < gc.t := lt_of_le_of_lt hL.fs hL.sg
      have hgpfc : gp.t < fc.t := lt_of_le_of_lt hL.gs hL.sf
      have hSf : sides f g true fc.t = fc.v := by simp only [sides]; rw [hL.mf.s1.on fc.t hfn.le le_rfl, ln_right hfn]
      have hSg : sides f g false gc.t = gc.v := by simp only [sides]; rw [hL.mg.s1.on gc.t hgn.le le_rfl, ln_right hgn]
      have hunf : ∀ (dbg : Bool) (res1 : List Pt) (bl1 : Better), crossStep co dbg Tol.exact fp fc gp gc res bl = some (res1, bl1) →
          mergeLoop co dbg Tol.exact (fuel + 1) cf cg res bl = (if feq 0 fc.t gc.t then do
              let (res, better) ← bothStep co dbg Tol.exact fp fc fr gp gc gr res1 bl1
              mergeLoop co dbg Tol.exact fuel cf.advance cg.advance res better
            else if fc.t < gc.t then do
              dassert dbg (flt 0 fc.t gc.t)
              let (res, better) ← sideStep co dbg Tol.exact true fc fr gp gc (counterClockwise Tol.exact gp fp fc) (intersectionPoint Tol.exact fp fc gp gc) res1 bl1
              mergeLoop co dbg Tol.exact fuel cf.advance cg res better
            else do
              dassert dbg (decide (gc.t < fc.t))
              let (res, better) ← sideStep co dbg Tol.exact false gc gr fp fc (counterClockwise Tol.exact gp gc fp) (intersectionPoint Tol.exact fp fc gp gc) res1 bl1
              mergeLoop co dbg Tol.exact fuel cf cg.advance res better) := by
        intro dbg res1 bl1 e1
        rw [mergeLoop]
        simp only [hL.mf.cur, hL.mg.cur, hL.mf.prev, hL.mg.prev, hL.mf.next, hL.mg.next, Option.bind_eq_bind, Option.bind_some, hcont, if_true, e1]
        rfl
      rcases lt_trichotomy fc.t gc.t with hlt | heq | hgt
      · -- a point of `f`
        have hfday : fc.t < day := lt_of_lt_of_le hlt hgd
        obtain ⟨res1, bl1, b1, z1, τ1, c1, c2, c3⟩ := cross_spec hW co (s := s) (e := fc.t) (L := lines fp fc gp gc) hfn hgn rfl rfl hL.fs hL.gs hL.is le_rfl hlt.le (.inl rfl) hL.sf hL.s0 hfd
          (fun b t h1 h2 => hL.eq_seg b h1 h2 (h2.trans hlt.le)) hI
        obtain ⟨res2, bl2, b2, z2, τ2, d1, d2, d3⟩ := side_spec hW co true (L' := lines fc fr gp gc) (missed := intersectionPoint Tol.exact fp fc gp gc) (before := counterClockwise Tol.exact gp fp fc)
          (op := gp) (oc := gc) (nx := fr) hfn hfn2 hgpfc hlt rfl rfl rfl rfl hSf (hL.eq_seg false hL.sf.le le_rfl hlt.le)
          (by intro h; rw [cc_ac hgpfc, ln_head hgpfc h]) c2
        obtain ⟨m', rfl, r1'⟩ := reach_step r1 hL.mf.cur hfday
        obtain ⟨fr', hmf'⟩ := hL.mf.advance hf
        have hfr : fr.t ≤ day := by have := hL.mf.s2.le_day 1 (by simpa using hfday); simpa using this
        obtain ⟨cf', cg', p1, p2, p3, p4, p5, p6, p7, p8, p9, p10, p11, p12, q1, q2, q3, q4, q5, q6⟩ := loop_spec hf hg co fuel m' k cf.advance cg fc fr fr' gp gc gr z2 fc.t τ2 res2 bl2 b2 (by omega) r1' r2
          ⟨hmf', hL.mg, le_rfl, hgpfc.le, .inl rfl, hfn2, hlt, hL.s0.trans hL.sf.le⟩ hfr hgd d2
        refine ⟨cf', cg', p1, p2, p3, p4, p5, p6, p7, p8, p9, p10, p11, p12, ?_, q2, q3, q4, q5, by omega⟩
        intro dbg
        rw [hunf dbg res1 bl1 (c1 dbg)]
        have e1 : feq 0 fc.t gc.t = false := by rw [feq_zero]; simp [hlt.ne]
        have e2 : dassert dbg (flt 0 fc.t gc.t) = some () := by simp [dassert, flt_zero, hlt]
        simp only [e1, e2, hlt, d1 dbg, if_true, Bool.false_eq_true, if_false, Option.bind_eq_bind, Option.bind_some]
        exact q1 dbg
      · -- a point of both
        have hfday : fc.t < day := by rcases hcont with h | h <;> linarith
        obtain ⟨res1, bl1, b1, z1, τ1, c1, c2, c3⟩ := cross_spec hW co (s := s) (e := fc.t) (L := lines fp fc gp gc) hfn hgn rfl rfl hL.fs hL.gs hL.is le_rfl heq.le (.inl rfl) hL.sf hL.s0 hfd
          (fun b t h1 h2 => hL.eq_seg b h1 h2 (h2.trans heq.le)) hI
        obtain ⟨res2, bl2, b2, z2, τ2, d1, d2, d3⟩ := both_spec hW co (L' := lines fc fr gc gr) hfn hgn hfn2 hgn2 heq rfl rfl rfl rfl hSf (by rw [heq]; exact hSg) c2
        obtain ⟨m', rfl, r1'⟩ := reach_step r1 hL.mf.cur hfday
        obtain ⟨k', rfl, r2'⟩ := reach_step r2 hL.mg.cur (by rw [← heq]; exact hfday)
        obtain ⟨fr', hmf'⟩ := hL.mf.advance hf
        obtain ⟨gr', hmg'⟩ := hL.mg.advance hg
        have hfr : fr.t ≤ day := by have := hL.mf.s2.le_day 1 (by simpa using hfday); simpa using this
        have hgr : gr.t ≤ day := by have := hL.mg.s2.le_day 1 (by rw [← heq]; simpa using hfday); simpa using this
        obtain ⟨cf', cg', p1, p2, p3, p4, p5, p6, p7, p8, p9, p10, p11, p12, q1, q2, q3, q4, q5, q6⟩ := loop_spec hf hg co fuel m' k' cf.advance cg.advance fc fr fr' gc gr gr' z2 fc.t τ2 res2 bl2 b2 (by omega) r1' r2'
          ⟨hmf', hmg', le_rfl, heq.ge, .inl rfl, hfn2, by rw [heq]; exact hgn2, hL.s0.trans hL.sf.le⟩ hfr hgr d2
        refine ⟨cf', cg', p1, p2, p3, p4, p5, p6, p7, p8, p9, p10, p11, p12, ?_, q2, q3, q4, q5, by omega⟩
        intro dbg
        rw [hunf dbg res1 bl1 (c1 dbg)]
        have e1 : feq 0 fc.t gc.t = true := by rw [feq_zero]; simp [heq]
        simp only [e1, d1 dbg, if_true, Option.bind_eq_bind, Option.bind_some]
        exact q1 dbg
      · -- a point of `g`
        have hgday : gc.t < day := lt_of_lt_of_le hgt hfd
        obtain ⟨res1, bl1, b1, z1, τ1, c1, c2, c3⟩ := cross_spec hW co (s := s) (e := gc.t) (L := lines fp fc gp gc) hfn hgn rfl rfl hL.fs hL.gs hL.is hgt.le le_rfl (.inr rfl) hL.sg hL.s0 hgd
          (fun b t h1 h2 => hL.eq_seg b h1 (h2.trans hgt.le) h2) hI
        obtain ⟨res2, bl2, b2, z2, τ2, d1, d2, d3⟩ := side_spec hW co false (L' := lines fp fc gc gr) (missed := intersectionPoint Tol.exact fp fc gp gc) (before := counterClockwise Tol.exact gp gc fp)
          (op := fp) (oc := fc) (nx := gr) hgn hgn2 hfpgc hgt rfl rfl rfl rfl hSg (hL.eq_seg true hL.sg.le hgt.le le_rfl)
          (by intro h; exact bef_false hfn hgn hfpgc h) c2
        obtain ⟨k', rfl, r2'⟩ := reach_step r2 hL.mg.cur hgday
        obtain ⟨gr', hmg'⟩ := hL.mg.advance hg
        have hgr : gr.t ≤ day := by have := hL.mg.s2.le_day 1 (by simpa using hgday); simpa using this
        obtain ⟨cf', cg', p1, p2, p3, p4, p5, p6, p7, p8, p9, p10, p11, p12, q1, q2, q3, q4, q5, q6⟩ := loop_spec hf hg co fuel m k' cf cg.advance fp fc fr gc gr gr' z2 gc.t τ2 res2 bl2 b2 (by omega) r1 r2'
          ⟨hL.mf, hmg', hfpgc.le, le_rfl, .inr rfl, hgt, hgn2, hL.s0.trans hL.sg.le⟩ hfd hgr d2
        refine ⟨cf', cg', p1, p2, p3, p4, p5, p6, p7, p8, p9, p10, p11, p12, ?_, q2, q3, q4, q5, by omega⟩
        intro dbg
        rw [hunf dbg res1 bl1 (c1 dbg)]
        have e1 : feq 0 fc.t gc.t = false := by rw [feq_zero]; simp [hgt.ne']
        have e2 : dassert dbg (decide (gc.t < fc.t)) = some () := by simp [dassert, hgt]
        simp only [e1, e2, hgt.not_gt, d1 dbg, if_true, Bool.false_eq_true, if_false, Option.bind_eq_bind, Option.bind_some]
        exact q1 dbg
    · -- the end
      have e1 : fc.t = day := le_antisymm hfd (by by_contra h; exact hcont (.inl (not_le.1 h)))
      have e2 : gc.t = day := le_antisymm hgd (by by_contra h; exact hcont (.inr (not_le.1 h)))
      refine ⟨cf, cg, fp, fc, fr, gp, gc, gr, z, s, τ, res, bl, b, ?_, hL, e1, e2, hI, by omega⟩
      intro dbg
      rw [mergeLoop]
      simp only [hL.mf.cur, hL.mg.cur, Option.bind_eq_bind, Option.bind_some, hcont, if_false]
      rfl

/-- the sweep -/
theorem sweep_spec {f g : List Pt} (hf : ValidTtf f) (hg : ValidTtf g) (b : Bool) {T U : Rat} (hT : 2 * day < T) (hU : 2 * day < U) : ∀ (fuel m k : Nat) (cf cg : Cursor) (fp fc fr gp gc gr : Pt) (s : Rat),
    m + k + 1 ≤ fuel → Reach cf m T → Reach cg k U → LS f g cf cg fp fc fr gp gc gr s → (∀ t, 0 ≤ t → t ≤ s → sides f g b t ≤ sides f g (!b) t) →
    ∃ r, sweep Tol.exact fuel b cf cg = some r ∧ (r = false → ∀ t, 0 ≤ t → t ≤ day → sides f g b t ≤ sides f g (!b) t)
  | 0, m, k, cf, cg, fp, fc, fr, gp, gc, gr, s, h, _, _, _, _ => by omega
  | fuel + 1, m, k, cf, cg, fp, fc, fr, gp, gc, gr, s, hfu, r1, r2, hL, hI => by
    have hd := day_pos
    have hfn := hL.mf.s1.nx.1
    have hgn := hL.mg.s1.nx.1
    have hfn2 := hL.mf.s2.nx.1
    have hgn2 := hL.mg.s2.nx.1
    by_cases hend : day < fp.t ∧ day < gp.t
    · refine ⟨false, ?_, fun _ t h1 h2 => hI t h1 (h2.trans (hend.1.le.trans hL.fs))⟩
      rw [sweep]
      simp [hL.mf.prev, hL.mg.prev, Tol.exact, flt_zero, hend]
    · have hA : ∀ b, Aff (lines fp fc gp gc b) := by intro b; cases b <;> exact aff_ln _ _
      have hSf : sides f g true fc.t = fc.v := by simp only [sides]; rw [hL.mf.s1.on fc.t hfn.le le_rfl, ln_right hfn]
      have hSg : sides f g false gc.t = gc.v := by simp only [sides]; rw [hL.mg.s1.on gc.t hgn.le le_rfl, ln_right hgn]
      have hfpgc : fp.t < gc.t := lt_of_le_of_lt hL.fs hL.sg
      have hgpfc : gp.t < fc.t := lt_of_le_of_lt hL.gs hL.sf
      have hmin : ∀ e, e ≤ fc.t → e ≤ gc.t → e ≤ 2 * day := by
        intro e h1 h2
        rcases not_and_or.1 hend with h | h
        · have := hL.mf.s1.le_day 2 (by push_cast; linarith [not_lt.1 h])
          push_cast at this; linarith
        · have := hL.mg.s1.le_day 2 (by push_cast; linarith [not_lt.1 h])
          push_cast at this; linarith
      have hext : ∀ e, s ≤ e → e ≤ fc.t → e ≤ gc.t → sides f g b e ≤ sides f g (!b) e → ∀ t, 0 ≤ t → t ≤ e → sides f g b t ≤ sides f g (!b) t := by
        intro e h1 h2 h3 h4 t h5 h6
        rcases le_total t s with h7 | h7
        · exact hI t h5 h7
        · have k1 := hI s hL.s0 le_rfl
          rw [hL.eq_seg b le_rfl hL.sf.le hL.sg.le, hL.eq_seg (!b) le_rfl hL.sf.le hL.sg.le] at k1
          rw [hL.eq_seg b h1 h2 h3, hL.eq_seg (!b) h1 h2 h3] at h4
          have k2 := ((hA b).sub (hA (!b))).between (a := s) (b := e) (t := t) (by linarith) (by linarith) h7 h6
          rw [hL.eq_seg b h7 (h6.trans h2) (h6.trans h3), hL.eq_seg (!b) h7 (h6.trans h2) (h6.trans h3)]
          linarith
      have hunf : sweep Tol.exact (fuel + 1) b cf cg = (if feq 0 fc.t gc.t then
            if !feq 0 fc.v gc.v && (decide (fc.v < gc.v) != b) then return true
            else sweep Tol.exact fuel b cf.advance cg.advance
          else if fc.t < gc.t then
            if !feq 0 (fc.v - ln gp gc fc.t) 0 && (decide (fc.v - ln gp gc fc.t < 0) != b) then return true
            else sweep Tol.exact fuel b cf.advance cg
          else
            if !feq 0 (gc.v - ln fp fc gc.t) 0 && (decide (0 < gc.v - ln fp fc gc.t) != b) then return true
            else sweep Tol.exact fuel b cf cg.advance) := by
        have e1 : (flt 0 day fp.t && flt 0 day gp.t) = false := by
          rw [flt_zero, flt_zero]
          rcases not_and_or.1 hend with h | h <;> simp [h]
        rw [sweep]
        simp only [hL.mf.cur, hL.mg.cur, hL.mf.prev, hL.mg.prev, show Tol.exact.eps = 0 from rfl, e1, interpolate_ok hfn, interpolate_ok hgn, Option.bind_eq_bind, Option.bind_some, Bool.false_eq_true, if_false]
        rfl
      rw [hunf]
      rcases lt_trichotomy fc.t gc.t with hlt | heq | hgt
      · have e1 : feq 0 fc.t gc.t = false := by rw [feq_zero]; simp [hlt.ne]
        rw [e1, if_neg (by simp), if_pos hlt]
        by_cases hv : (!feq 0 (fc.v - ln gp gc fc.t) 0 && (decide (fc.v - ln gp gc fc.t < 0) != b)) = true
        · exact ⟨true, by rw [if_pos hv]; rfl, by simp⟩
        · rw [if_neg hv]
          have hSo : sides f g false fc.t = ln gp gc fc.t := hL.eq_seg false hL.sf.le le_rfl hlt.le
          have hbe : sides f g b fc.t ≤ sides f g (!b) fc.t := by
            rw [feq_zero] at hv
            cases b with
            | true =>
              simp only [Bool.not_true, hSf, hSo]
              by_contra hc
              apply hv
              have h1 : fc.v - ln gp gc fc.t ≠ 0 := by intro h; linarith
              have h2 : ¬ (fc.v - ln gp gc fc.t < 0) := by intro h; linarith
              rw [decide_eq_false h1, decide_eq_false h2]; rfl
            | false =>
              simp only [Bool.not_false, hSf, hSo]
              by_contra hc
              apply hv
              have h1 : fc.v - ln gp gc fc.t ≠ 0 := by intro h; linarith
              have h2 : fc.v - ln gp gc fc.t < 0 := by linarith
              rw [decide_eq_false h1, decide_eq_true h2]; rfl
          obtain ⟨m', rfl, r1'⟩ := reach_step r1 hL.mf.cur (by have := hmin fc.t le_rfl hlt.le; linarith)
          obtain ⟨fr', hmf'⟩ := hL.mf.advance hf
          exact sweep_spec hf hg b hT hU fuel m' k cf.advance cg fc fr fr' gp gc gr fc.t (by omega) r1' r2 ⟨hmf', hL.mg, le_rfl, hgpfc.le, .inl rfl, hfn2, hlt, hL.s0.trans hL.sf.le⟩
            (hext fc.t hL.sf.le le_rfl hlt.le hbe)
      · have e1 : feq 0 fc.t gc.t = true := by rw [feq_zero]; simp [heq]
        rw [e1, if_pos rfl]
        by_cases hv : (!feq 0 fc.v gc.v && (decide (fc.v < gc.v) != b)) = true
        · exact ⟨true, by rw [if_pos hv]; rfl, by simp⟩
        · rw [if_neg hv]
          have hSo : sides f g false fc.t = gc.v := by rw [heq]; exact hSg
          have hbe : sides f g b fc.t ≤ sides f g (!b) fc.t := by
            rw [feq_zero] at hv
            cases b with
            | true =>
              simp only [Bool.not_true, hSf, hSo]
              by_contra hc
              apply hv
              have h1 : fc.v ≠ gc.v := by intro h; linarith
              have h2 : ¬ (fc.v < gc.v) := by intro h; linarith
              rw [decide_eq_false h1, decide_eq_false h2]; rfl
            | false =>
              simp only [Bool.not_false, hSf, hSo]
              by_contra hc
              apply hv
              have h1 : fc.v ≠ gc.v := by intro h; linarith
              have h2 : fc.v < gc.v := by linarith
              rw [decide_eq_false h1, decide_eq_true h2]; rfl
          obtain ⟨m', rfl, r1'⟩ := reach_step r1 hL.mf.cur (by have := hmin fc.t le_rfl heq.le; linarith)
          obtain ⟨k', rfl, r2'⟩ := reach_step r2 hL.mg.cur (by have := hmin fc.t le_rfl heq.le; linarith)
          obtain ⟨fr', hmf'⟩ := hL.mf.advance hf
          obtain ⟨gr', hmg'⟩ := hL.mg.advance hg
          exact sweep_spec hf hg b hT hU fuel m' k' cf.advance cg.advance fc fr fr' gc gr gr' fc.t (by omega) r1' r2'
            ⟨hmf', hmg', le_rfl, heq.ge, .inl rfl, hfn2, by rw [heq]; exact hgn2, hL.s0.trans hL.sf.le⟩ (hext fc.t hL.sf.le le_rfl heq.le hbe)
      · have e1 : feq 0 fc.t gc.t = false := by rw [feq_zero]; simp [hgt.ne']
        rw [e1, if_neg (by simp), if_neg hgt.not_gt]
        by_cases hv : (!feq 0 (gc.v - ln fp fc gc.t) 0 && (decide (0 < gc.v - ln fp fc gc.t) != b)) = true
        · exact ⟨true, by rw [if_pos hv]; rfl, by simp⟩
        · rw [if_neg hv]
          have hSo : sides f g true gc.t = ln fp fc gc.t := hL.eq_seg true hL.sg.le hgt.le le_rfl
          have hbe : sides f g b gc.t ≤ sides f g (!b) gc.t := by
            rw [feq_zero] at hv
            cases b with
            | true =>
              simp only [Bool.not_true, hSg, hSo]
              by_contra hc
              apply hv
              have h1 : gc.v - ln fp fc gc.t ≠ 0 := by intro h; linarith
              have h2 : ¬ (0 < gc.v - ln fp fc gc.t) := by intro h; linarith
              rw [decide_eq_false h1, decide_eq_false h2]; rfl
            | false =>
              simp only [Bool.not_false, hSg, hSo]
              by_contra hc
              apply hv
              have h1 : gc.v - ln fp fc gc.t ≠ 0 := by intro h; linarith
              have h2 : 0 < gc.v - ln fp fc gc.t := by linarith
              rw [decide_eq_false h1, decide_eq_true h2]; rfl
          obtain ⟨k', rfl, r2'⟩ := reach_step r2 hL.mg.cur (by have := hmin gc.t hgt.le le_rfl; linarith)
          obtain ⟨gr', hmg'⟩ := hL.mg.advance hg
          exact sweep_spec hf hg b hT hU fuel m k' cf cg.advance fp fc fr gc gr gr' gc.t (by omega) r1 r2' ⟨hL.mf, hmg', hfpgc.le, le_rfl, .inr rfl, hgt, hgn2, hL.s0.trans hL.sg.le⟩
            (hext gc.t hL.sg.le hgt.le le_rfl hbe)

end Fl
end Verif
