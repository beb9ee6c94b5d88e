import Verif.Proof.FlLink
/- `link` in exact arithmetic: the loop. -/
set_option linter.unusedSimpArgs false
set_option linter.unusedVariables false
namespace Verif
namespace Fl
open Spec

/-- two lines one after the other are a line -/
theorem seg_comp {p q gp gc : Pt} (hf : Nx p q) (hg : Nx gp gc) {x0 x1 y0 y1 z0 z1 : Rat} (hlt : x0 < x1) (h1 : OnSeg p q x0 y0) (h2 : OnSeg p q x1 y1)
    (h3 : OnSeg gp gc (x0 + y0) z0) (h4 : OnSeg gp gc (x1 + y1) z1) :
    Nx ⟨x0, y0 + z0⟩ ⟨x1, y1 + z1⟩ ∧ ∀ t, x0 ≤ t → t ≤ x1 → ∃ y z, OnSeg p q t y ∧ OnSeg gp gc (t + y) z ∧ OnSeg ⟨x0, y0 + z0⟩ ⟨x1, y1 + z1⟩ t (y + z) := by
  have ha := seg_fifo hf h1 h2 hlt.le
  have hb := seg_fifo hg h3 h4 ha
  refine ⟨⟨hlt, by simp only; linarith⟩, ?_⟩
  intro t ht1 ht2
  obtain ⟨y, hy⟩ := seg_exists hf.1 (t := t) (h1.1.trans ht1) (ht2.trans h2.2.1)
  have c1 := seg_fifo hf h1 hy ht1
  have c2 := seg_fifo hf hy h2 ht2
  obtain ⟨z, hz⟩ := seg_exists hg.1 (t := t + y) (h3.1.trans c1) (c2.trans h4.2.1)
  refine ⟨y, z, hy, hz, ht1, ht2, ?_⟩
  rw [onSeg_iff hf.1] at h1 h2 hy
  rw [onSeg_iff hg.1] at h3 h4 hz
  simp only
  rw [hz.2.2, h3.2.2, h4.2.2, hy.2.2, h1.2.2, h2.2.2]
  ring

/-- the next point -/
structure Step (f : LinkCur) (g : Cursor) (gp gc : Pt) (x0 : Rat) (p : Pt) (f' : LinkCur) (g' : Cursor) (yf : Rat) : Prop where
  later : x0 < p.t
  fs : OnSeg f.prev f.cur p.t yf
  gs : OnSeg gp gc (p.t + yf) (p.v - yf)
  cases : (f' = f.advance ∧ g' = g.advance ∧ p.t = f.cur.t ∧ yf = f.cur.v ∧ p.t + yf = gc.t) ∨
    (f' = f ∧ g' = g.advance ∧ p.t < f.cur.t ∧ p.t + yf = gc.t ∧ gc.t < f.cur.t + f.cur.v) ∨
    (f' = f.advance ∧ g' = g ∧ p.t = f.cur.t ∧ yf = f.cur.v ∧ p.t + yf < gc.t)

theorem linkStep_spec {G : List Pt} {f : LinkCur} {g : Cursor} {gp gc : Pt} (hG : Ok G) (hf : Nx f.prev f.cur) (hg : GCur G g gp gc) {x0 y0 : Rat}
    (hs : OnSeg f.prev f.cur x0 y0) (hx : x0 < f.cur.t) (hgp : gp.t ≤ x0 + y0) (hgc : x0 + y0 < gc.t) :
    ∃ p f' g' yf, linkStep 0 f g = some (p, f', g') ∧ Step f g gp gc x0 p f' g' yf := by
  have hgn := (gcur_nx hG hg).1
  have hcur : OnSeg f.prev f.cur f.cur.t f.cur.v := (slope_right hf.1).2 rfl
  have harr := seg_fifo hf hs hcur hx.le
  simp only [linkStep, hg.cur, Option.bind_eq_bind, Option.bind_some, feq_zero, decide_eq_true_eq, flt_zero]
  by_cases h1 : gc.t = f.cur.t + f.cur.v
  · rw [if_pos h1]
    refine ⟨_, _, _, f.cur.v, rfl, hx, hcur, ?_, .inl ⟨rfl, rfl, rfl, rfl, h1.symm⟩⟩
    show OnSeg gp gc (f.cur.t + f.cur.v) (gc.v + f.cur.v - f.cur.v)
    rw [← h1, slope_right hgn.1]; ring
  · rw [if_neg h1]
    by_cases h2 : gc.t < f.cur.t + f.cur.v
    · rw [if_pos h2]
      have hd : f.cur.t + f.cur.v - f.prev.t - f.prev.v ≠ 0 := by
        have h3 : OnSeg f.prev f.cur f.prev.t f.prev.v := (slope_left hf.1).2 rfl
        have := seg_fifo hf h3 hs hs.1
        intro hc; linarith
      simp only [assert, h2, decide_true, if_true, Option.bind_some, div_ok hd, Option.pure_def]
      have hd' : 0 < f.cur.t + f.cur.v - f.prev.t - f.prev.v := lt_of_le_of_ne (by linarith [hf.2]) (Ne.symm hd)
      have hft : 0 < f.cur.t - f.prev.t := by linarith [hf.1]
      have h3 : OnSeg f.prev f.cur f.prev.t f.prev.v := (slope_left hf.1).2 rfl
      have hpa := seg_fifo hf h3 hs hs.1
      set x := (f.cur.t - f.prev.t) / (f.cur.t + f.cur.v - f.prev.t - f.prev.v) * (gc.t - f.prev.t - f.prev.v) + f.prev.t with hxdef
      have hxe : (x - f.prev.t) * (f.cur.t + f.cur.v - f.prev.t - f.prev.v) = (f.cur.t - f.prev.t) * (gc.t - f.prev.t - f.prev.v) := by
        rw [hxdef]; field_simp; ring
      have hx1 : f.prev.t ≤ x := by
        by_contra hc
        have : (x - f.prev.t) * (f.cur.t + f.cur.v - f.prev.t - f.prev.v) < 0 := mul_neg_of_neg_of_pos (by linarith) hd'
        have : 0 ≤ (f.cur.t - f.prev.t) * (gc.t - f.prev.t - f.prev.v) := mul_nonneg hft.le (by linarith)
        linarith
      have hx2 : x < f.cur.t := by
        by_contra hc
        have h5 : (f.cur.t - f.prev.t) * (f.cur.t + f.cur.v - f.prev.t - f.prev.v) ≤ (x - f.prev.t) * (f.cur.t + f.cur.v - f.prev.t - f.prev.v) :=
          mul_le_mul_of_nonneg_right (by linarith) hd'.le
        have h6 : (f.cur.t - f.prev.t) * (gc.t - f.prev.t - f.prev.v) < (f.cur.t - f.prev.t) * (f.cur.t + f.cur.v - f.prev.t - f.prev.v) :=
          mul_lt_mul_of_pos_left (by linarith) hft
        linarith
      have hseg : OnSeg f.prev f.cur x (gc.t - x) := by
        refine ⟨hx1, hx2.le, ?_⟩
        linarith
      refine ⟨_, _, _, gc.t - x, rfl, ?_, hseg, ?_, .inr (.inl ⟨rfl, rfl, hx2, by simp, h2⟩)⟩
      · show x0 < x
        by_contra hc
        have := seg_fifo hf hseg hs (not_lt.1 hc)
        linarith
      · show OnSeg gp gc (x + (gc.t - x)) (gc.t + gc.v - x - (gc.t - x))
        rw [show x + (gc.t - x) = gc.t by ring, slope_right hgn.1]; ring
    · rw [if_neg h2]
      have h3 : f.cur.t + f.cur.v < gc.t := lt_of_le_of_ne (not_lt.1 h2) (fun e => h1 e.symm)
      have hd : gc.t - gp.t ≠ 0 := by linarith [hgn.1]
      simp only [assert, h3, decide_true, if_true, Option.bind_some, hg.prev, div_ok hd, Option.pure_def]
      refine ⟨_, _, _, f.cur.v, rfl, hx, hcur, ?_, .inr (.inr ⟨rfl, rfl, rfl, rfl, h3⟩)⟩
      show OnSeg gp gc (f.cur.t + f.cur.v) (gp.v + (gc.v - gp.v) / (gc.t - gp.t) * (f.cur.t + f.cur.v - gp.t) + f.cur.v - f.cur.v)
      rw [onSeg_iff hgn.1]
      refine ⟨by linarith, h3.le, ?_⟩
      simp only [slope]; ring

/-- both functions one after the other take `y` -/
def Both (F G : List Pt) (t y : Rat) : Prop := ∃ a b, Interp F t a ∧ TravelTime G (t + a) b ∧ y = a + b

/-- The state of the loop after at least one point. -/
structure LState (F G : List Pt) (f : LinkCur) (g : Cursor) (res : List Pt) (gp gc : Pt) (x0 a0 b0 : Rat) : Prop where
  fsplit : ∃ A, F = A ++ f.prev :: f.cur :: f.rest
  gcur : GCur G g gp gc
  last : res.getLast? = some ⟨x0, a0 + b0⟩
  fs : OnSeg f.prev f.cur x0 a0
  fx : x0 < f.cur.t
  gs : OnSeg gp gc (x0 + a0) b0
  gx : x0 + a0 < gc.t
  ch : Ch res
  pos : ∀ p ∈ res, 0 ≤ p.v
  cov : ∀ t, 0 ≤ t → t ≤ x0 → ∃ y, Both F G t y ∧ On res t y

/-- What the loop returns. -/
structure LDone (F G : List Pt) (res : List Pt) (z : Pt) (y1 : Rat) : Prop where
  ch : Ch res
  pos : ∀ p ∈ res, 0 ≤ p.v
  last : res.getLast? = some z
  nx : Nx z ⟨day, y1⟩
  pos1 : 0 ≤ y1
  cov : ∀ t, 0 ≤ t → t ≤ z.t → ∃ y, Both F G t y ∧ On res t y
  seg : ∀ t, z.t ≤ t → t ≤ day → ∃ y, Both F G t y ∧ OnSeg z ⟨day, y1⟩ t y

theorem both_seg {F G : List Pt} (hF : Ok F) (hG : Ok G) {f : LinkCur} {g : Cursor} {gp gc : Pt} (hs : ∃ A, F = A ++ f.prev :: f.cur :: f.rest)
    (hg : GCur G g gp gc) {t a b : Rat} (h1 : OnSeg f.prev f.cur t a) (h2 : OnSeg gp gc (t + a) b) : Both F G t (a + b) := by
  obtain ⟨A, e⟩ := hs
  exact ⟨a, b, ⟨A, _, _, _, e, h1⟩, gcur_tt hG hg h2, rfl⟩

theorem linkLoop_spec {co : Bool} {F G : List Pt} (hF : Ok F) (hG : Ok G) {v : Rat} (h0 : F[0]? = some ⟨0, v⟩) :
    ∀ (fuel m : Nat) (f : LinkCur) (g : Cursor) (res : List Pt) (gp gc : Pt) (x0 a0 b0 : Rat), LState F G f g res gp gc x0 a0 b0 →
      (∃ q, (Cursor.advance^[m] g).cur = some q ∧ v + day ≤ q.t) → f.rest.length + m + 1 ≤ fuel → 0 ≤ x0 →
      ∃ res' z y1, linkLoop co 0 fuel f g res = some res' ∧ LDone F G res' z y1 ∧ res'.length ≤ res.length + f.rest.length + m ∧
        res'.head? = res.head? := by
  intro fuel
  induction fuel with
  | zero => intro m f g res gp gc x0 a0 b0 h _ hfu; omega
  | succ fuel ih =>
    intro m f g res gp gc x0 a0 b0 h hm hfu hx0
    obtain ⟨A, eF⟩ := h.fsplit
    have hnf : Nx f.prev f.cur := ch_iff.1 hF.ch _ _ _ _ eF
    obtain ⟨hng, hgp, hgc⟩ := gcur_nx hG h.gcur
    have hmem : f.prev ∈ F ∧ f.cur ∈ F := by rw [eF]; simp
    obtain ⟨p, f', g', yf, e1, hst⟩ := linkStep_spec hG hnf h.gcur h.fs h.fx h.gs.1 h.gx
    obtain ⟨hcn, hcov⟩ := seg_comp hnf hng hst.later h.fs hst.fs h.gs hst.gs
    have hpe : (⟨p.t, yf + (p.v - yf)⟩ : Pt) = p := by cases p; simp
    rw [hpe] at hcn hcov
    have hgcur : (f.cur :: f.rest) ≠ [] := by simp
    have hF1 : F[A.length + 1]? = some f.cur := by rw [eF]; exact get_of_split.2
    have hb := hF.bounds hF1
    have hpv : 0 ≤ p.v := by
      have i1 := seg_nonneg hnf.1 (hF.pos _ hmem.1) (hF.pos _ hmem.2) hst.fs
      have i2 := seg_nonneg hng.1 hgp hgc hst.gs
      linarith
    have hpday : p.t ≤ f.cur.t := hst.fs.2.1
    have hseg : ∀ t, x0 ≤ t → t ≤ p.t → ∃ y, Both F G t y ∧ OnSeg ⟨x0, a0 + b0⟩ p t y := by
      intro t ht1 ht2
      obtain ⟨y, z, k1, k2, k3⟩ := hcov t ht1 ht2
      exact ⟨y + z, both_seg hF hG h.fsplit h.gcur k1 k2, k3⟩
    simp only [linkLoop, e1, Option.bind_eq_bind, Option.bind_some, flt_zero]
    by_cases hend : p.t < day
    · -- another point
      have hp0 : 0 < p.t := by linarith [hst.later]
      have hmm : max (min p.t day) 0 = p.t := by rw [min_eq_left hend.le, max_eq_left hp0.le]
      have ha : assert (!decide (p.t < 0)) = some () := by simp [assert, hp0.le]
      simp only [hend, decide_true, Bool.not_true, if_false, ha, Option.bind_some, hmm, Bool.false_eq_true]
      have hpp : (⟨p.t, p.v⟩ : Pt) = p := by cases p; rfl
      rw [hpp]
      obtain ⟨res', e2, hap⟩ := append_spec (co := co) h.ch hpv (by intro z hz; rw [h.last] at hz; simp at hz; subst hz; exact hcn)
      rw [e2, Option.bind_some]
      have hpos' : ∀ q ∈ res', 0 ≤ q.v := by
        intro q hq
        rcases hap.mem q hq with hq | rfl
        · exact h.pos q hq
        · exact hpv
      have hcov' : ∀ t, 0 ≤ t → t ≤ p.t → ∃ y, Both F G t y ∧ On res' t y := by
        intro t ht1 ht2
        by_cases ht : t ≤ x0
        · obtain ⟨y, k1, k2⟩ := h.cov t ht1 ht
          exact ⟨y, k1, hap.on _ _ k2⟩
        · obtain ⟨y, k1, k2⟩ := hseg t (not_le.1 ht).le ht2
          exact ⟨y, k1, hap.seg _ h.last _ _ k2⟩
      have hhead : res'.head? = res.head? := by
        cases hr : res with
        | nil => have := h.last; rw [hr] at this; simp at this
        | cons a b => exact hap.head a (by rw [hr]; rfl)
      have hlast' : res'.getLast? = some ⟨p.t, yf + (p.v - yf)⟩ := by rw [hpe]; exact hap.last
      -- the cursor of f moves on
      have fadv : p.t = f.cur.t → ∃ r rest, f.rest = r :: rest ∧ f.advance = ⟨rest, r, f.cur, f.done⟩ := by
        intro e
        cases hr : f.rest with
        | nil =>
          exfalso
          obtain ⟨v', _, hz⟩ := hF.ends
          have : F.length - 1 = A.length + 1 := by rw [eF, hr]; simp
          rw [this, hF1] at hz
          simp at hz
          rw [e, hz] at hend
          simp at hend
        | cons r rest => exact ⟨r, rest, rfl, by simp [LinkCur.advance, hr]⟩
      have vle : f.cur.t + f.cur.v ≤ v + day := by
        obtain ⟨v', h0', hz⟩ := hF.ends
        rw [h0] at h0'; simp at h0'; subst h0'
        by_cases hr : A.length + 1 < F.length - 1
        · have := (ch_lt hF.ch hr hF1 hz).2
          simp only at this; linarith
        · have hl := (List.getElem?_eq_some_iff.1 hF1).1
          have : F.length - 1 = A.length + 1 := by omega
          rw [this, hF1] at hz; simp at hz; rw [hz]; simp only; linarith
      -- the cursor of g moves on
      have hm1 : gc.t ≤ f.cur.t + f.cur.v → ∃ m', (m' + 1 ≤ m ∨ (m' ≤ m ∧ gc.t = f.cur.t + f.cur.v)) ∧ ∃ q, (Cursor.advance^[m'] g.advance).cur = some q ∧ v + day ≤ q.t := by
        intro hle
        obtain ⟨q, hq, hq2⟩ := hm
        cases m with
        | zero =>
          simp only [Function.iterate_zero, id_eq] at hq
          rw [h.gcur.cur] at hq; simp at hq; subst hq
          obtain ⟨q', hq'⟩ := gcur_advance hG h.gcur
          refine ⟨0, .inr ⟨le_refl _, by linarith⟩, q', hq'.cur, ?_⟩
          have := (gcur_nx hG hq').1.1
          linarith
        | succ m => exact ⟨m, .inl (le_refl _), q, by rw [Function.iterate_succ_apply] at hq; exact hq, hq2⟩
      rcases hst.cases with ⟨rfl, rfl, c1, c2, c3⟩ | ⟨rfl, rfl, c1, c2, c4⟩ | ⟨rfl, rfl, c1, c2, c3⟩
      · obtain ⟨r, rest, er, ea⟩ := fadv c1
        obtain ⟨q', hq'⟩ := gcur_advance hG h.gcur
        have hnr : Nx f.cur r := ch_iff.1 hF.ch (A ++ [f.prev]) f.cur r rest (by rw [eF, er]; simp)
        obtain ⟨hnq, _⟩ := gcur_nx hG hq'
        obtain ⟨m', hm', hq''⟩ := hm1 (by rw [← c3, c1, c2])
        rw [ea]
        have hb2 : p.v - yf = gc.v := by
          have := hst.gs
          rw [c3] at this
          exact (slope_right hng.1).1 this
        obtain ⟨r1, z, y1, k1, k2, k3, k4⟩ := ih m' ⟨rest, r, f.cur, f.done⟩ g.advance res' gc q' p.t yf (p.v - yf) ⟨⟨A ++ [f.prev], by rw [eF, er]; simp⟩, hq', hlast',
          by show OnSeg f.cur r p.t yf; rw [c1, slope_left hnr.1]; exact c2, by show p.t < r.t; rw [c1]; exact hnr.1, by rw [c3, slope_left hnq.1]; exact hb2,
          by rw [c3]; exact hnq.1, hap.ch, hpos', hcov'⟩ hq'' (by rw [er] at hfu; simp at hfu ⊢; omega) hp0.le
        refine ⟨r1, z, y1, k1, k2, ?_, by rw [k4, hhead]⟩
        have := hap.len
        rw [er]; simp at k3 ⊢; omega
      · obtain ⟨q', hq'⟩ := gcur_advance hG h.gcur
        obtain ⟨hnq, _⟩ := gcur_nx hG hq'
        have hcur : OnSeg f'.prev f'.cur f'.cur.t f'.cur.v := (slope_right hnf.1).2 rfl
        have harr := seg_fifo hnf hst.fs hcur c1.le
        obtain ⟨m', hm', hq''⟩ := hm1 (by rw [← c2]; exact harr)
        have hb2 : p.v - yf = gc.v := by
          have := hst.gs
          rw [c2] at this
          exact (slope_right hng.1).1 this
        have hm'' : m' + 1 ≤ m := by
          rcases hm' with hm' | ⟨h1, h2⟩
          · exact hm'
          · linarith
        obtain ⟨r1, z, y1, k1, k2, k3, k4⟩ := ih m' f' g.advance res' gc q' p.t yf (p.v - yf) ⟨h.fsplit, hq', hlast', hst.fs, c1, by rw [c2, slope_left hnq.1]; exact hb2,
          by rw [c2]; exact hnq.1, hap.ch, hpos', hcov'⟩ hq'' (by omega) hp0.le
        refine ⟨r1, z, y1, k1, k2, ?_, by rw [k4, hhead]⟩
        have := hap.len
        omega
      · obtain ⟨r, rest, er, ea⟩ := fadv c1
        have hnr : Nx f.cur r := ch_iff.1 hF.ch (A ++ [f.prev]) f.cur r rest (by rw [eF, er]; simp)
        rw [ea]
        obtain ⟨r1, z, y1, k1, k2, k3, k4⟩ := ih m ⟨rest, r, f.cur, f.done⟩ g' res' gp gc p.t yf (p.v - yf) ⟨⟨A ++ [f.prev], by rw [eF, er]; simp⟩, h.gcur, hlast',
          by show OnSeg f.cur r p.t yf; rw [c1, slope_left hnr.1]; exact c2, by show p.t < r.t; rw [c1]; exact hnr.1, hst.gs,
          c3, hap.ch, hpos', hcov'⟩ hm (by rw [er] at hfu; simp at hfu ⊢; omega) hp0.le
        refine ⟨r1, z, y1, k1, k2, ?_, by rw [k4, hhead]⟩
        have := hap.len
        rw [er]; simp at k3 ⊢; omega
    · -- the end of the day
      have hpd : p.t = day := le_antisymm (hpday.trans hb.2.1) (not_lt.1 hend)
      simp only [hend, decide_false, Bool.not_false, if_true, Option.pure_def]
      refine ⟨res, ⟨x0, a0 + b0⟩, p.v, rfl, ⟨h.ch, h.pos, h.last, ?_, hpv, h.cov, ?_⟩, by omega, rfl⟩
      · rw [← hpd]; cases p; exact hcn
      · intro t ht1 ht2
        have := hseg t ht1 (by rw [hpd]; exact ht2)
        rw [← hpd]; cases p; exact this

end Fl
end Verif
