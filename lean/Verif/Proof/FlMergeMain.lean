import Verif.Proof.FlMergeLoop
import Verif.Spec.Faster
/- `merge` in exact arithmetic. -/
set_option linter.unusedSimpArgs false
set_option linter.unusedVariables false
namespace Verif
namespace Fl
open Spec

theorem chain_times {bl : Better} (hc : List.IsChain (fun x y : Rat × Bool => x.1 < y.1 ∧ x.2 ≠ y.2) bl) {x y : Rat × Bool} (hx : bl.head? = some x) (hy : bl.getLast? = some y) :
    ∀ w ∈ bl, x.1 ≤ w.1 ∧ w.1 ≤ y.1 := by
  induction bl generalizing x with
  | nil => simp
  | cons a l ih =>
    simp at hx; subst hx
    cases l with
    | nil => simp at hy; subst hy; intro w hw; simp at hw; subst hw; exact ⟨le_rfl, le_rfl⟩
    | cons c l =>
      rw [List.isChain_cons_cons] at hc
      have hy' : (c :: l).getLast? = some y := by simpa using hy
      have := ih hc.2 (x := c) (by simp) hy'
      intro w hw
      rcases List.mem_cons.1 hw with rfl | hw
      · exact ⟨le_rfl, hc.1.1.le.trans (this c (by simp)).2⟩
      · exact ⟨hc.1.1.le.trans (this w hw).1, (this w hw).2⟩

theorem windows_ok {bl : Better} (hc : List.IsChain (fun x y : Rat × Bool => x.1 < y.1 ∧ x.2 ≠ y.2) bl) : windowsOK bl = true := by
  induction bl with
  | nil => rfl
  | cons a l ih =>
    cases l with
    | nil => rfl
    | cons c l =>
      rw [List.isChain_cons_cons] at hc
      rw [windowsOK, ih hc.2]
      simp [hc.1.1, hc.1.2]

theorem chain_split {α : Type} {R : α → α → Prop} {l : List α} (hc : List.IsChain R l) {A B : List α} {x y : α} (e : l = A ++ x :: y :: B) : R x y := by
  subst e
  rw [List.isChain_append] at hc
  exact (List.isChain_cons_cons.1 hc.2.1).1

theorem faster_of {f g : List Pt} (hf : ValidTtf f) (hg : ValidTtf g) {bl : Better} {τ : Rat} {b : Bool} (h : BI (sides f g) bl τ b) (ht : τ < day)
    (hb : ∀ t, τ ≤ t → t ≤ day → sides f g b t ≤ sides f g (!b) t) : Faster f g bl := by
  obtain ⟨b0, h0⟩ := h.head
  refine ⟨?_, ?_, ?_, ?_⟩
  · cases bl with
    | nil => simp at h0
    | cons a l => simp at h0; exact ⟨b0, l, by rw [h0]⟩
  · intro x hx
    have := chain_times h.chain h0 h.last x hx
    exact ⟨this.1, lt_of_le_of_lt this.2 ht⟩
  · intro A x y B e
    exact chain_split h.chain e
  · intro A x B e t y z h1 h2 hy hz
    have key : sides f g x.2 t ≤ sides f g (!x.2) t := by
      cases B with
      | nil =>
        have := h.last
        rw [e] at this
        simp at this
        rw [this] at h1 ⊢
        exact hb t h1 h2
      | cons n B => exact h.right A x n B e t h1 h2
    have ey := (fn_iff hf).1 hy
    have ez := (fn_iff hg).1 hz
    cases hx : x.2 <;> rw [hx] at key <;> simp only [sides, Bool.not_true, Bool.not_false] at key <;> simp [ey, ez, key]

theorem checks_ok {f g : List Pt} {fc gc z : Pt} {res : List Pt} {bl : Better} {τ : Rat} {b : Bool} (hr : RS (sides f g) z res) (hz : z.t = day) (h2 : 2 ≤ res.length)
    (hlen : res.length ≤ 2 * f.length + 2 * g.length + 2) (hb : BI (sides f g) bl τ b) (ht : τ < day) (hbet : ∀ t, τ ≤ t → t ≤ day → sides f g b t ≤ sides f g (!b) t)
    (hf0 : sides f g true 0 = fc.v) (hf1 : sides f g true day = fc.v) (hg0 : sides f g false 0 = gc.v) (hg1 : sides f g false day = gc.v) :
    endChecks Tol.exact f.length g.length fc gc res bl = some () := by
  have hd := day_pos
  obtain ⟨b0, h0⟩ := hb.head
  have hall : bl.all (fun x => !flt 0 x.1 0 && !flt 0 day x.1) = true := by
    rw [List.all_eq_true]
    intro x hx
    have := chain_times hb.chain h0 hb.last x hx
    rw [flt_zero, flt_zero]
    simp [this.1, this.2.trans ht.le]
  have hends : (feq 0 fc.v gc.v || (bl.head?.map Prod.snd == bl.getLast?.map Prod.snd)) = true := by
    rw [feq_zero, h0, hb.last]
    by_cases he : fc.v = gc.v
    · simp [he]
    · have k1 : sides f g b0 0 ≤ sides f g (!b0) 0 := by
        cases bl with
        | nil => simp at h0
        | cons a l =>
          cases l with
          | nil =>
            have := hb.last
            simp at h0 this
            rw [h0] at this
            simp at this
            rw [this.2]
            exact hbet 0 this.1.ge hd.le
          | cons c l =>
            simp at h0
            have := hb.right [] a c l rfl 0 (by rw [h0])
            rw [h0] at this
            have hcc := chain_times hb.chain (x := a) (by simp) hb.last c (by simp)
            rw [h0] at hcc
            exact this hcc.1
      have k2 := hbet day ht.le le_rfl
      have : b0 = b := by
        cases b0 <;> cases b <;> simp only [Bool.not_true, Bool.not_false, hf0, hf1, hg0, hg1] at k1 k2 <;> first | rfl | exact absurd (le_antisymm k1 k2) he | exact absurd (le_antisymm k2 k1) he
      simp [this]
  obtain ⟨r0, e0⟩ : ∃ r, res[0]? = some r := ⟨_, List.getElem?_eq_getElem (by omega)⟩
  obtain ⟨r1, e1⟩ : ∃ r, res[1]? = some r := ⟨_, List.getElem?_eq_getElem (by omega)⟩
  obtain ⟨rp, ep⟩ : ∃ r, res[res.length - 2]? = some r := ⟨_, List.getElem?_eq_getElem (by omega)⟩
  have el : res[res.length - 1]? = some z := by rw [← List.getLast?_eq_getElem?]; exact hr.last
  have t0 : r0.t = 0 := by
    have := hr.head
    rw [List.head?_eq_getElem?, e0] at this
    simp at this
    rw [this]
  have n1 := (ch_lt hr.ch (i := 0) (j := 1) (by omega) e0 e1).1
  have np := (ch_lt hr.ch (i := res.length - 2) (j := res.length - 1) (by omega) ep el).1
  simp only [endChecks, show Tol.exact.eps = 0 from rfl, hall, hends, windows_ok hb.chain, e0, e1, el, ep, hlen, Option.bind_eq_bind, Option.bind_some]
  have x1 : ¬ (0 < r0.t) := by rw [t0]; simp
  have x2 : 0 < r1.t := by rw [t0] at n1; exact n1
  have x3 : ¬ (z.t < day) := by rw [hz]; simp
  have x4 : rp.t < day := by rw [hz] at np; exact np
  rw [flt_zero, flt_zero, flt_zero, flt_zero]
  simp [assert, x2, x4, not_lt.1 x1, not_lt.1 x3, hlen]

theorem start_ok {fc fr gc gr : Pt} (hfc : fc.t = 0) (hgc : gc.t = 0) (hfr : fc.t < fr.t) (hgr : gc.t < gr.t) :
    ∃ b, mergeStart Tol.exact fc fr gc gr = some (b, false, false) ∧ Dir (lines fc fr gc gr) b 0 := by
  have hA : ∀ b, Aff (lines fc fr gc gr b) := by intro b; cases b <;> exact aff_ln _ _
  have l1 : lines fc fr gc gr true 0 = fc.v := by rw [← hfc]; exact ln_left _ _
  have l2 : lines fc fr gc gr false 0 = gc.v := by rw [← hgc]; exact ln_left _ _
  have heps : Tol.exact.eps = 0 := rfl
  by_cases he : fc.v = gc.v
  · have hfg : fc = gc := by cases fc; cases gc; simp_all
    subst hfg
    have hni : intersect Tol.exact fc fr fc gr = false := by
      rw [Bool.eq_false_iff]
      intro h
      have := ((intersect_iff hfr hgr).1 h).1
      rw [ln_left, ln_left] at this
      simp at this
    refine ⟨!clockwise Tol.exact fc fr gr, by simp [mergeStart, fuzzyStart, hni, heps, feq_zero], ?_⟩
    have hcw : clockwise Tol.exact fc fr gr = decide (slope fc gr < slope fc fr) := cw_slopes hfr hgr
    have q1 : ∀ t, lines fc fr fc gr true t = lines fc fr fc gr true 0 + slope fc fr * (t - 0) := by intro t; simp only [lines, ln]; ring
    have q2 : ∀ t, lines fc fr fc gr false t = lines fc fr fc gr false 0 + slope fc gr * (t - 0) := by intro t; simp only [lines, ln]; ring
    by_cases hs : slope fc gr < slope fc fr
    · rw [hcw, decide_eq_true hs]
      exact dir_of_slope q2 q1 (by simp only [Bool.not_true, Bool.not_false]; rw [l1, l2]) hs.le
    · rw [hcw, decide_eq_false hs]
      exact dir_of_slope q1 q2 (by simp only [Bool.not_true, Bool.not_false]; rw [l1, l2]) (not_lt.1 hs)
  · have hfz : fuzzyStart Tol.exact fc fr gc gr = some false := by
      rw [fuzzyStart]
      by_cases hi : intersect Tol.exact fc fr gc gr = true
      · obtain ⟨i1, i2⟩ := (intersect_iff hfr hgr).1 hi
        have hne : slope fc fr ≠ slope gc gr := by
          intro he
          have : ln fc fr fr.t - ln gc gr fr.t = ln fc fr fc.t - ln gc gr fc.t := by simp only [ln, he]; ring
          rw [this] at i2
          nlinarith [mul_self_nonneg (ln fc fr fc.t - ln gc gr fc.t)]
        obtain ⟨x, hx, hxe⟩ := point_spec hfr hgr hne
        have := aff_inside ((aff_ln fc fr).sub (aff_ln gc gr)) (x := x) (by rw [hxe]; ring) i2 hfr
        rw [hfc] at this
        rw [if_pos hi, hx, Option.map_some, heps, feq_zero]
        simp [this.1.ne']
      · rw [if_neg hi]
    refine ⟨decide (fc.v < gc.v), ?_, ?_⟩
    · simp [mergeStart, hfz, heps, feq_zero, he]
    · by_cases hlt : fc.v < gc.v
      · rw [decide_eq_true hlt]
        exact dir_of_lt hA (by rw [Bool.not_true, l1, l2]; exact hlt)
      · rw [decide_eq_false hlt]
        exact dir_of_lt hA (by rw [Bool.not_false, l1, l2]; exact lt_of_le_of_ne (not_lt.1 hlt) (Ne.symm he))

/-- the result -/
structure Merged (f g r : List Pt) (bl : Better) : Prop where
  valid : ValidTtf r
  val : ∀ t, fn r t = min (fn f t) (fn g t)
  fast : Faster f g bl

/-- one function is never slower -/
theorem merged_one {f g : List Pt} (hf : ValidTtf f) (hg : ValidTtf g) {b : Bool} (h : ∀ t, 0 ≤ t → t ≤ day → sides f g b t ≤ sides f g (!b) t) :
    Merged f g (if b then f else g) [(0, b)] := by
  have hall : ∀ t, sides f g b t ≤ sides f g (!b) t := by
    intro t
    obtain ⟨k, _, h1, h2⟩ := splitDay_spec t
    have := h _ h1 h2.le
    have e : ∀ c, sides f g c (t - k * day) = sides f g c t := by
      intro c
      have e1 : t - k * day = t + ((-k : Int) : Rat) * day := by push_cast; ring
      cases c
      · simp only [sides]; rw [e1, fn_shift hg]
      · simp only [sides]; rw [e1, fn_shift hf]
    rwa [e, e] at this
  refine ⟨by cases b <;> simpa, ?_, faster_of hf hg (τ := 0) (b := b) ⟨rfl, ⟨b, rfl⟩, by simp, ?_⟩ day_pos (fun t _ _ => hall t)⟩
  · intro t
    have := hall t
    cases b
    · simp only [sides, Bool.not_false] at this; simp [min_eq_right this]
    · simp only [sides, Bool.not_true] at this; simp [min_eq_left this]
  · intro A x y B e
    have := congrArg List.length e
    simp at this
    omega

theorem merge_spec (co : Bool) {f g : List Pt} (hf : ValidTtf f) (hg : ValidTtf g) :
    ∃ r bl, Merged f g r bl ∧ merge co false Tol.exact f g = some (r, bl) ∧ (merge co true Tol.exact f g = some (r, bl) ∨ r.length = 1) := by
  have hd := day_pos
  have hW := sides_wd hf hg
  obtain ⟨fu, efu, hfu⟩ := upper_spec (valid_ne hf)
  obtain ⟨gu, egu, hgu⟩ := upper_spec (valid_ne hg)
  obtain ⟨fl, efl, hfl⟩ := lower_spec (valid_ne hf)
  obtain ⟨gl, egl, hgl⟩ := lower_spec (valid_ne hg)
  have lf := List.length_pos_iff.2 (valid_ne hf)
  have lg := List.length_pos_iff.2 (valid_ne hg)
  by_cases c1 : fu < gl
  · have hm : ∀ dbg, merge co dbg Tol.exact f g = some (f, [(0, true)]) := by intro dbg; simp [merge, efu, egl, c1]
    refine ⟨f, [(0, true)], ?_, hm _, .inl (hm _)⟩
    exact merged_one hf hg (b := true) (fun t _ _ => (fn_le_upper hf hfu t).trans (c1.le.trans (fn_ge_lower hg hgl t)))
  by_cases c2 : gu < fl
  · have hm : ∀ dbg, merge co dbg Tol.exact f g = some (g, [(0, false)]) := by intro dbg; simp [merge, efu, egl, egu, efl, c1, c2]
    refine ⟨g, [(0, false)], ?_, hm _, .inl (hm _)⟩
    exact merged_one hf hg (b := false) (fun t _ _ => (fn_le_upper hg hgu t).trans (c2.le.trans (fn_ge_lower hf hfl t)))
  obtain ⟨fp, fc, fr, mf, hfc⟩ := mcur_new hf
  obtain ⟨gp, gc, gr, mg, hgc⟩ := mcur_new hg
  obtain ⟨fr', mf'⟩ := mf.advance hf
  obtain ⟨gr', mg'⟩ := mg.advance hg
  have hfn := mf.s2.nx.1
  have hgn := mg.s2.nx.1
  obtain ⟨b, hst, hdir⟩ := start_ok hfc hgc hfn hgn
  have hLS : LS f g (Cursor.new f).advance (Cursor.new g).advance fc fr fr' gc gr gr' 0 :=
    ⟨mf', mg', hfc.le, hgc.le, .inl hfc.symm, by rw [← hfc]; exact hfn, by rw [← hgc]; exact hgn, le_rfl⟩
  have hS0 : ∀ b, sides f g b 0 = lines fc fr gc gr b 0 := fun b => hLS.eq_seg b le_rfl hLS.sf.le hLS.sg.le
  have hb0 : sides f g b 0 ≤ sides f g (!b) 0 := by rw [hS0, hS0]; exact hdir.1
  have pf : per f ≤ f.length := by simp only [per]; omega
  have pg : per g ≤ g.length := by simp only [per]; omega
  -- the sweep
  have reachS : ∀ {l : List Pt}, ValidTtf l → ∃ T, 2 * day < T ∧ Reach (Cursor.new l).advance (2 * per l) T := by
    intro l hl
    obtain ⟨q, e1, e2⟩ := reach_new hl 2
    have hIn : ∀ n, Inner l (Cursor.advance^[n] (Cursor.new l)) := by
      intro n
      induction n with
      | zero => obtain ⟨_, _, _, m, _⟩ := mcur_new hl; exact m.inner
      | succ n ih =>
        rw [Function.iterate_succ_apply']
        obtain ⟨_, _, _, _, h, _⟩ := mcur_of hl ih
        exact h
    obtain ⟨p', q', r', m1, m2, m3, m4⟩ := mcur_of hl (hIn (2 * per l))
    have : q' = q := by have := m1.cur; rw [e1] at this; simpa using this.symm
    subst this
    refine ⟨r'.t, by have := m1.s2.nx.1; rw [e2] at this; simpa using this, r', ?_, le_rfl⟩
    rw [← Function.iterate_succ_apply, Function.iterate_succ_apply']
    exact m4
  obtain ⟨T, hT, rT⟩ := reachS hf
  obtain ⟨U, hU, rU⟩ := reachS hg
  obtain ⟨ndd, hsw, hdom⟩ := sweep_spec hf hg b hT hU (2 * (f.length + g.length) + 3) (2 * per f) (2 * per g) _ _ _ _ _ _ _ _ 0 (by omega) rT rU hLS
    (by intro t h1 h2; have : t = 0 := le_antisymm h2 h1; rw [this]; exact hb0)
  cases ndd with
  | false =>
    have hm : ∀ dbg, merge co dbg Tol.exact f g = some (if b then f else g, [(0, b)]) := by
      intro dbg
      have : needsMerging Tol.exact f g b false = some false := hsw
      simp only [merge, efu, egl, egu, efl, c1, c2, mf.cur, mf.next, mg.cur, mg.next, hst, this, Option.bind_eq_bind, Option.bind_some, if_false]
      rfl
    exact ⟨_, _, merged_one hf hg (hdom rfl), hm _, .inl (hm _)⟩
  | true =>
    -- the first point
    have hpt : (if b = true then fc else gc) = (⟨0, mn (sides f g) 0⟩ : Pt) := by
      rw [mn_of hb0, hS0]
      cases b
      · simp only [lines]; rw [← hgc, ln_left]; rfl
      · simp only [lines]; rw [← hfc, ln_left]; rfl
    have hfirst : mergeFirst co Tol.exact b false fc fr gc gr = some [⟨0, mn (sides f g) 0⟩] := by
      rw [mergeFirst, if_neg (by simp), hpt]
      simp [appendPoint, assert, hW.pos]
    have hRS : RS (sides f g) ⟨0, mn (sides f g) 0⟩ [⟨0, mn (sides f g) 0⟩] := by
      refine ⟨by simp [Ch], rfl, rfl, by simpa using hW.pos 0, ?_, le_rfl, rfl⟩
      intro t h1 h2
      have : t = 0 := le_antisymm h2 h1
      exact .inl ⟨⟨0, mn (sides f g) 0⟩, by simp, this.symm, by rw [this]⟩
    have hInv : Inv (sides f g) (lines fc fr gc gr) ⟨0, mn (sides f g) 0⟩ 0 [⟨0, mn (sides f g) 0⟩] [(0, b)] b 0 := by
      refine ⟨⟨hRS, ⟨rfl, ⟨b, rfl⟩, by simp, ?_⟩, ?_, ?_, ?_⟩, le_rfl, le_rfl, hdir⟩
      · intro A x y B e
        have := congrArg List.length e
        simp at this
        omega
      · simp only; rw [mn_of hb0, hS0]
      · intro t h1 h2
        have : t = 0 := le_antisymm h2 h1
        rw [this, mn_of hb0, hS0]
      · intro t h1 h2
        have : t = 0 := le_antisymm h2 h1
        rw [this]; exact hb0
    have reachL : ∀ {l : List Pt}, ValidTtf l → Reach (Cursor.new l).advance (per l - 1) day := by
      intro l hl
      obtain ⟨q, e1, e2⟩ := reach_new hl 1
      refine ⟨q, ?_, by rw [e2]; simp⟩
      rw [← Function.iterate_succ_apply]
      have : (per l - 1).succ = 1 * per l := by simp only [per]; omega
      rw [this]; exact e1
    have hfrd : fr.t ≤ day := by have := mf.s2.le_day 1 (by rw [hfc]; simpa using hd); simpa using this
    have hgrd : gr.t ≤ day := by have := mg.s2.le_day 1 (by rw [hgc]; simpa using hd); simpa using this
    have pf1 : 1 ≤ per f := by simp only [per]; omega
    have pg1 : 1 ≤ per g := by simp only [per]; omega
    obtain ⟨cf', cg', fp', fc', fr2, gp', gc', gr2, z', s', τ', res', bl', b', q1, q2, q3, q4, q5, q6⟩ :=
      loop_spec hf hg co (f.length + g.length + 1) (per f - 1) (per g - 1) _ _ _ _ _ _ _ _ _ 0 0 _ _ b (by omega) (reachL hf) (reachL hg) hLS hfrd hgrd hInv
    simp only [List.length_singleton] at q6
    obtain ⟨res2, bl2, b2, z2, τ2, d1, d2, d3⟩ := cross_spec hW co (s := s') (e := day) (L := lines fp' fc' gp' gc') q2.mf.s1.nx.1 q2.mg.s1.nx.1 rfl rfl q2.fs q2.gs q2.is q3.ge q4.ge (.inl q3.symm)
      (by rw [← q3]; exact q2.sf) q2.s0 le_rfl (fun b t h1 h2 => q2.eq_seg b h1 (by rw [q3]; exact h2) (by rw [q4]; exact h2)) q5
    have hrs2 := d2.st.rs
    have hper : ∀ c, sides f g c day = sides f g c 0 := by
      intro c
      have e1 : day = 0 + ((1 : Int) : Rat) * day := by push_cast; ring
      cases c
      · simp only [sides]; rw [e1, fn_shift hg]
      · simp only [sides]; rw [e1, fn_shift hf]
    have hmnper : mn (sides f g) day = mn (sides f g) 0 := by simp only [mn, hper]
    have hA : ∀ c, Aff (lines fp' fc' gp' gc' c) := by intro c; cases c <;> exact aff_ln _ _
    have hfast : Faster f g bl2 := faster_of hf hg d2.st.bi d2.te d2.st.bet
    have hfcv : sides f g true day = fc'.v := by rw [← q3]; simp only [sides]; rw [q2.mf.s1.on fc'.t q2.mf.s1.nx.1.le le_rfl, ln_right q2.mf.s1.nx.1]
    have hgcv : sides f g false day = gc'.v := by rw [← q4]; simp only [sides]; rw [q2.mg.s1.on gc'.t q2.mg.s1.nx.1.le le_rfl, ln_right q2.mg.s1.nx.1]
    have hunf : ∀ dbg, merge co dbg Tol.exact f g = (do
        let res ← mergeLast co Tol.exact res2
        if dbg then endChecks Tol.exact f.length g.length fc' gc' res bl2 else pure ()
        return (res, bl2)) := by
      intro dbg
      have f1 : dassert dbg (!flt 0 fc'.t day) = some () := by simp [dassert, flt_zero, q3]
      have f2 : dassert dbg (!flt 0 gc'.t day) = some () := by simp [dassert, flt_zero, q4]
      have f3 : needsMerging Tol.exact f g b false = some true := hsw
      have e1 : merge co dbg Tol.exact f g = mergeMain co dbg Tol.exact f g b false fc fr gc gr := by
        simp only [merge, efu, egl, egu, efl, c1, c2, mf.cur, mf.next, mg.cur, mg.next, hst, f3, Option.bind_eq_bind, Option.bind_some, if_false]
        rfl
      rw [e1]
      simp only [mergeMain, hfirst, q1 dbg, q2.mf.prev, q2.mf.cur, q2.mg.prev, q2.mg.cur, show Tol.exact.eps = 0 from rfl, f1, f2, d1 dbg, Option.bind_eq_bind, Option.bind_some]
    by_cases hlen : 1 < res2.length
    · obtain ⟨res3, a1, a2, a3, a4⟩ := hrs2.push hW (co := co) (x := ⟨day, mn (sides f g) 0⟩) d2.ze (by simp only; rw [hmnper]) (hA b2) d2.st.lin
      have hlast : mergeLast co Tol.exact res2 = some res3 := by
        rw [mergeLast, hrs2.head]
        simp only [Option.bind_eq_bind, Option.bind_some, hlen, if_true]
        exact a1
      have hok := ok_of_cov a2.ch a2.pos a2.head a2.last
      have hval : ∀ t, fn res3 t = min (fn f t) (fn g t) := by
        intro t
        obtain ⟨k, _, h1, h2⟩ := splitDay_spec t
        have hi := (a2.cov _ h1 h2.le).interp a2.ch a4
        have := (fn_iff hok.valid).1 (hok.tt_of k h1 h2.le hi)
        rw [← this]
        have e1 : t - k * day = t + ((-k : Int) : Rat) * day := by push_cast; ring
        simp only [mn, sides]
        rw [e1, fn_shift hf, fn_shift hg]
      have hck := checks_ok (fc := fc') (gc := gc') a2 rfl a4 (by omega) d2.st.bi d2.te d2.st.bet (by rw [← hper]; exact hfcv) hfcv (by rw [← hper]; exact hgcv) hgcv
      refine ⟨res3, bl2, ⟨hok.valid, hval, hfast⟩, ?_, .inl ?_⟩
      · rw [hunf, hlast]; simp
      · rw [hunf, hlast]
        simp [hck]
    · have hl1 : res2 = [⟨0, mn (sides f g) 0⟩] := by
        match res2, hrs2.head, hlen with
        | [], h, _ => simp at h
        | [a], h, _ => simpa using h
        | a :: b :: l, _, h => simp at h
      have hz2 : z2.t = 0 := by
        have := hrs2.last
        rw [hl1] at this
        simp at this
        rw [← this]
      have hconst : ∀ t, 0 ≤ t → t ≤ day → mn (sides f g) t = mn (sides f g) 0 := by
        intro t h1 h2
        obtain ⟨m, hm⟩ := hA b2
        have k0 := d2.st.lin 0 hz2.le hd.le
        have k1 := d2.st.lin day (by rw [hz2]; exact hd.le) le_rfl
        have k2 := d2.st.lin t (by rw [hz2]; exact h1) h2
        have k3 := hm day 0
        rw [← k0, ← k1, hmnper] at k3
        have : m = 0 := by
          have : m * (day - 0) = 0 := by linarith
          rcases mul_eq_zero.1 this with h | h
          · exact h
          · linarith
        rw [k2, hm t 0, this, ← k0]; ring
      have hv : ValidTtf [⟨0, mn (sides f g) 0⟩] := .inl ⟨_, rfl, hW.pos 0⟩
      refine ⟨res2, bl2, ⟨by rw [hl1]; exact hv, ?_, hfast⟩, ?_, .inr (by rw [hl1]; rfl)⟩
      · intro t
        rw [hl1]
        have := tt_const.1 ((fn_iff hv).2 (rfl : fn [⟨0, mn (sides f g) 0⟩] t = _))
        rw [this]
        obtain ⟨k, _, h1, h2⟩ := splitDay_spec t
        rw [← hconst _ h1 h2.le]
        have e1 : t - k * day = t + ((-k : Int) : Rat) * day := by push_cast; ring
        simp only [mn, sides]
        rw [e1, fn_shift hf, fn_shift hg]
      · have hlast : mergeLast co Tol.exact res2 = some res2 := by
          rw [mergeLast, hrs2.head]
          simp only [Option.bind_eq_bind, Option.bind_some, hlen, if_false]
          rfl
        rw [hunf, hlast]; simp

end Fl
end Verif
