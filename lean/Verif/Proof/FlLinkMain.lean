import Verif.Proof.FlLinkLoop
/- `link` in exact arithmetic: the function that is returned. -/
set_option linter.unusedSimpArgs false
set_option linter.unusedVariables false
namespace Verif
namespace Fl
open Spec

theorem setLast_same {res : List Pt} {v : Rat} (h : res.getLast? = some ⟨day, v⟩) : setLastTime res day = some res := by
  simp only [setLastTime, h, Option.bind_eq_bind, Option.bind_some, Option.pure_def]
  rw [List.dropLast_append_getLast? _ h]

/-- a list of points that covers the day is a travel time function -/
theorem ok_of_cov {res : List Pt} {v : Rat} (hc : Ch res) (hp : ∀ p ∈ res, 0 ≤ p.v) (h0 : res.head? = some ⟨0, v⟩) (hl : res.getLast? = some ⟨day, v⟩) : Ok res := by
  have hd := day_pos
  have h2 : 2 ≤ res.length := by
    match res, h0, hl with
    | [], h0, _ => simp at h0
    | [a], h0, hl =>
      simp at h0 hl; rw [h0] at hl; simp at hl; linarith
    | a :: b :: r, _, _ => simp
  exact ⟨h2, hc, hp, v, by rw [← List.head?_eq_getElem?]; exact h0, by rw [← List.getLast?_eq_getElem?]; exact hl⟩

theorem on_head {res : List Pt} (hc : Ch res) {h : Pt} (hh : res.head? = some h) {y : Rat} (hy : On res h.t y) : y = h.v := by
  cases res with
  | nil => simp at hh
  | cons a r =>
    simp at hh; subst hh
    rcases hy with ⟨p, hp, e1, e2⟩ | hy
    · obtain ⟨i, hi⟩ := List.mem_iff_getElem?.1 hp
      cases i with
      | zero => simp at hi; subst hi; exact e2.symm
      | succ i =>
        have := (ch_lt hc (Nat.succ_pos i) (show (a :: r)[0]? = some a from rfl) hi).1
        linarith
    · exact interp_first hc hy

/-- both functions have several points -/
theorem link_both {bs : Search} (hbs : SearchBy bs) (co : Bool) {F G : List Pt} (hF : Ok F) (hG : Ok G) :
    ∃ fc res r first, LinkCur.new F = some fc ∧ linkLoop co 0 (F.length + G.length + 2) fc (Cursor.startingAt bs 0 G (0 + fc.cur.v)) [] = some res ∧ res.head? = some first ∧
      appendPoint co 0 res ⟨day, first.v⟩ = some r ∧ setLastTime r day = some r ∧ r.length ≤ F.length + G.length + 1 ∧ Ok r ∧
      ∀ t, 0 ≤ t → t ≤ day → ∃ y, Both F G t y ∧ Interp r t y := by
  obtain ⟨v, h0, hz⟩ := hF.ends
  have h2 := hF.two
  have hd := day_pos
  obtain ⟨p1, B, eF⟩ : ∃ p1 B, F = ⟨0, v⟩ :: p1 :: B := by
    match F, h0, h2 with
    | a :: b :: B, h0, _ => exact ⟨b, B, by simp at h0; rw [h0]⟩
  have hv : 0 ≤ v := hF.pos ⟨0, v⟩ (by rw [eF]; simp)
  obtain ⟨c, gp, gc, ec, hc, hgp, hgc⟩ := start_spec hbs hG (0 + v)
  rw [zero_add] at hgp hgc
  set fc : LinkCur := ⟨p1 :: B, ⟨0, v⟩, ⟨0 - 1, v⟩, false⟩ with hfc
  have hnew : LinkCur.new F = some fc := by rw [eF]; rfl
  have hn0 : Nx fc.prev fc.cur := ⟨by simp [hfc], by simp [hfc]⟩
  have hn1 : Nx (⟨0, v⟩ : Pt) p1 := ch_iff.1 hF.ch [] _ _ B (by rw [eF]; rfl)
  obtain ⟨hng, hgpv, hgcv⟩ := gcur_nx hG hc
  -- the first point
  have hx0 : ∃ x0, OnSeg fc.prev fc.cur x0 v ∧ x0 < 0 ∧ gp.t ≤ x0 + v := by
    by_cases h : gp.t - v ≤ -1
    · exact ⟨-1, ⟨by simp [hfc], by simp [hfc], by simp [hfc]⟩, by norm_num, by linarith⟩
    · exact ⟨gp.t - v, ⟨by simp [hfc]; linarith, by simp [hfc]; linarith, by simp [hfc]⟩, by linarith, by linarith⟩
  obtain ⟨x0, hs0, hx0, hgx0⟩ := hx0
  obtain ⟨p, f', g', yf, e1, hst⟩ := linkStep_spec hG hn0 hc hs0 hx0 hgx0 (by linarith)
  have hnb : p.t = 0 ∧ yf = v ∧ f' = ⟨B, p1, ⟨0, v⟩, false⟩ ∧ ((g' = c.advance ∧ v = gc.t) ∨ (g' = c ∧ v < gc.t)) := by
    have hadv : fc.advance = ⟨B, p1, ⟨0, v⟩, false⟩ := rfl
    rcases hst.cases with ⟨a1, a2, a3, a4, a5⟩ | ⟨a1, a2, a3, a4, a5⟩ | ⟨a1, a2, a3, a4, a5⟩
    · simp only [hfc] at a3 a4
      rw [a3, a4, zero_add] at a5
      exact ⟨a3, a4, by rw [a1, hadv], .inl ⟨a2, a5⟩⟩
    · simp only [hfc] at a5; linarith
    · simp only [hfc] at a3 a4
      rw [a3, a4, zero_add] at a5
      exact ⟨a3, a4, by rw [a1, hadv], .inr ⟨a2, a5⟩⟩
  obtain ⟨ep, ey, ef, hg'⟩ := hnb
  have hgs : OnSeg gp gc v (p.v - v) := by have := hst.gs; rw [ep, ey, zero_add] at this; exact this
  have hpv : 0 ≤ p.v := by
    have := seg_nonneg hng.1 hgpv hgcv hgs
    linarith
  have hboth0 : Both F G 0 p.v := ⟨v, p.v - v, (hF.zero h0).2 rfl, by rw [zero_add]; exact gcur_tt hG hc hgs, by ring⟩
  have happ : appendPoint co 0 [] p = some [p] := by
    obtain ⟨r, e, ha⟩ := append_spec (co := co) (res := []) (p := p) (by simp [Ch]) hpv (by simp)
    rw [e, ha.first rfl]
  -- the cursor of the second function comes to the next day in time
  have hday : ∃ q, (Cursor.advance^[G.length - 1] c).cur = some q ∧ v + day ≤ q.t := by
    have : c = ⟨G, c.idx, c.offset⟩ := by cases c; simp; exact hc.ipps
    rw [this, iter_day hG c.offset hc.idx]
    have hcc := hc.cur
    rw [this] at hcc
    simp only [Cursor.cur] at hcc ⊢
    cases hx : G[c.idx]? with
    | none => rw [hx] at hcc; simp at hcc
    | some x =>
      rw [hx] at hcc
      simp at hcc
      refine ⟨_, rfl, ?_⟩
      rw [← hcc] at hgc
      simp only [shifted] at hgc ⊢
      linarith
  have h2g := hG.two
  have hcov0 : ∀ t : Rat, 0 ≤ t → t ≤ p.t → ∃ y, Both F G t y ∧ On [p] t y := by
    intro t ht1 ht2
    have : t = 0 := by linarith
    subst this
    exact ⟨p.v, hboth0, .inl ⟨p, by simp, ep, rfl⟩⟩
  have hstate : ∃ gp' gc' m, LState F G f' g' [p] gp' gc' 0 v (p.v - v) ∧ (∃ q, (Cursor.advance^[m] g').cur = some q ∧ v + day ≤ q.t) ∧ m ≤ G.length - 1 := by
    have last : [p].getLast? = some ⟨0, v + (p.v - v)⟩ := by
      rw [show (⟨0, v + (p.v - v)⟩ : Pt) = p by cases p; simp at ep ⊢; exact ep.symm]; rfl
    rw [ep] at hcov0
    rcases hg' with ⟨rfl, hgt⟩ | ⟨rfl, hgt⟩
    · obtain ⟨q', hq'⟩ := gcur_advance hG hc
      obtain ⟨hnq, _⟩ := gcur_nx hG hq'
      refine ⟨gc, q', G.length - 2, ⟨⟨[], by rw [ef, eF]; rfl⟩, hq', last, ?_, ?_, ?_, ?_, by simp [Ch], by simpa using hpv, hcov0⟩, ?_, by omega⟩
      · rw [ef]; exact (slope_left hn1.1).2 rfl
      · rw [ef]; exact hn1.1
      · rw [zero_add, hgt, slope_left hnq.1]
        rw [hgt, slope_right hng.1] at hgs
        rw [← hgt] at hgs ⊢
        exact hgs
      · rw [zero_add, hgt]; exact hnq.1
      · obtain ⟨q, hq, hq2⟩ := hday
        refine ⟨q, ?_, hq2⟩
        rw [show G.length - 1 = (G.length - 2) + 1 by omega, Function.iterate_succ_apply] at hq
        exact hq
    · exact ⟨gp, gc, G.length - 1, ⟨⟨[], by rw [ef, eF]; rfl⟩, hc, last, by rw [ef]; exact (slope_left hn1.1).2 rfl, by rw [ef]; exact hn1.1,
        by rw [zero_add]; exact hgs, by rw [zero_add]; exact hgt, by simp [Ch], by simpa using hpv, hcov0⟩, hday, le_refl _⟩
  obtain ⟨gp', gc', m, hL, hm, hmle⟩ := hstate
  have hlenF : F.length = B.length + 2 := by rw [eF]; simp
  have hrest : f'.rest.length = B.length := by rw [ef]
  obtain ⟨res, z, y1, hres, hD, hlen, hhead⟩ := linkLoop_spec (co := co) hF hG h0 (F.length + G.length + 1) m f' g' [p] gp' gc' 0 v (p.v - v) hL hm (by rw [hrest]; omega) (le_refl _)
  have hloop : linkLoop co 0 (F.length + G.length + 2) fc (Cursor.startingAt bs 0 G (0 + fc.cur.v)) [] = some res := by
    have : Cursor.startingAt bs 0 G (0 + fc.cur.v) = c := ec
    rw [this]
    have hlt : p.t < day := by rw [ep]; exact hd
    have hmm : max (min p.t day) 0 = p.t := by rw [ep, min_eq_left hd.le, max_self]
    have ha : assert (!decide (p.t < 0)) = some () := by simp [assert, ep]
    have hpp : (⟨p.t, p.v⟩ : Pt) = p := by cases p; rfl
    rw [show F.length + G.length + 2 = (F.length + G.length + 1) + 1 from rfl, linkLoop]
    simp only [e1, Option.bind_eq_bind, Option.bind_some, flt_zero, hlt, decide_true, Bool.not_true, if_false, ha, hmm, hpp, happ, Bool.false_eq_true]
    exact hres
  have hfirst : res.head? = some p := by rw [hhead]; rfl
  -- the end of the day
  have hy1 : y1 = p.v := by
    obtain ⟨y, hb, hy⟩ := hD.seg day hD.nx.1.le (le_refl _)
    have ey1 : y = y1 := (slope_right (q := ⟨day, y1⟩) hD.nx.1).1 hy
    obtain ⟨a, b, k1, k2, k3⟩ := hb
    obtain ⟨a', b', k1', k2', k3'⟩ := hboth0
    have ea : a = v := interp_unique hF.ch k1 (hF.end h0)
    have ea' : a' = v := (hF.zero h0).1 k1'
    subst ea; subst ea'
    have := hG.tt_shift 1 k2'
    have : b = b' := hG.tt_unique k2 (by convert this using 1; push_cast; ring)
    rw [← ey1, k3, k3', this]
  rw [hy1] at hD
  obtain ⟨r, e2, ha⟩ := append_spec (co := co) hD.ch (p := ⟨day, p.v⟩) hD.pos1 (by intro z' hz'; rw [hD.last] at hz'; simp at hz'; subst hz'; exact hD.nx)
  have hok : Ok r := by
    refine ok_of_cov (v := p.v) ha.ch ?_ ?_ ha.last
    · intro q hq
      rcases ha.mem q hq with hq | rfl
      · exact hD.pos q hq
      · exact hD.pos1
    · rw [ha.head p hfirst]; cases p; simp at ep; rw [ep]
  refine ⟨fc, res, r, p, hnew, hloop, hfirst, e2, setLast_same ha.last, ?_, hok, ?_⟩
  · have := ha.len
    rw [hrest] at hlen
    simp at hlen
    omega
  · intro t ht1 ht2
    by_cases ht : t ≤ z.t
    · obtain ⟨y, k1, k2⟩ := hD.cov t ht1 ht
      exact ⟨y, k1, (ha.on _ _ k2).interp hok.ch hok.two⟩
    · obtain ⟨y, k1, k2⟩ := hD.seg t (not_le.1 ht).le ht2
      exact ⟨y, k1, (ha.seg _ hD.last _ _ k2).interp hok.ch hok.two⟩

/-! ### A constant first -/

/-- the line from `z` to `p` is part of `H` -/
def Lin (H : Rat → Rat → Prop) (z p : Pt) : Prop :=
  z = p ∨ (Nx z p ∧ ∀ t, z.t ≤ t → t ≤ p.t → ∃ y, H t y ∧ OnSeg z p t y)

theorem fold_lin {co : Bool} {H : Rat → Rat → Prop} : ∀ (L : List Pt) (res : List Pt) (z h : Pt), Ch res → res.getLast? = some z → res.head? = some h → (∀ p ∈ res, 0 ≤ p.v) →
    (∀ t, h.t ≤ t → t ≤ z.t → ∃ y, H t y ∧ On res t y) → (∀ p ∈ L, 0 ≤ p.v) → List.IsChain (Lin H) (z :: L) →
    ∃ res', L.foldlM (appendPoint co 0) res = some res' ∧ Ch res' ∧ res'.getLast? = (z :: L).getLast? ∧ res'.head? = some h ∧ (∀ p ∈ res', 0 ≤ p.v) ∧
      ∀ z', res'.getLast? = some z' → ∀ t, h.t ≤ t → t ≤ z'.t → ∃ y, H t y ∧ On res' t y := by
  intro L
  induction L with
  | nil =>
    intro res z h hc hl hh hp hcov _ _
    exact ⟨res, rfl, hc, by rw [hl]; rfl, hh, hp, by intro z' hz'; rw [hl] at hz'; simp at hz'; subst hz'; exact hcov⟩
  | cons p L ih =>
    intro res z h hc hl hh hp hcov hpL hL
    rw [List.isChain_cons_cons] at hL
    have hpp : 0 ≤ p.v := hpL p (by simp)
    simp only [List.foldlM_cons, Option.bind_eq_bind]
    rcases hL.1 with rfl | ⟨hn, hs⟩
    · rw [append_same hpp hl, Option.bind_some]
      obtain ⟨r, k1, k2, k3, k4⟩ := ih res z h hc hl hh hp hcov (fun q hq => hpL q (by simp [hq])) hL.2
      exact ⟨r, k1, k2, by rw [k3]; rfl, k4⟩
    · obtain ⟨r1, e1, ha⟩ := append_spec (co := co) hc hpp (by intro z' hz'; rw [hl] at hz'; simp at hz'; subst hz'; exact hn)
      rw [e1, Option.bind_some]
      obtain ⟨r, k1, k2, k3, k4⟩ := ih r1 p h ha.ch ha.last (ha.head _ hh) (by
          intro q hq
          rcases ha.mem q hq with hq | rfl
          · exact hp q hq
          · exact hpp) (by
          intro t ht1 ht2
          by_cases ht : t ≤ z.t
          · obtain ⟨y, a, b⟩ := hcov t ht1 ht
            exact ⟨y, a, ha.on _ _ b⟩
          · obtain ⟨y, a, b⟩ := hs t (not_le.1 ht).le ht2
            exact ⟨y, a, ha.seg _ hl _ _ b⟩) (fun q hq => hpL q (by simp [hq])) hL.2
      exact ⟨r, k1, k2, by rw [k3]; rfl, k4⟩

/-- the points before and after a time -/
theorem split_time (off : Rat) : ∀ {G : List Pt}, Ch G → ∃ P M S, G = P ++ M ++ S ∧ G.filter (fun p => decide (off < p.t)) = S ∧ G.filter (fun p => decide (p.t < off)) = P ∧
    (∀ p ∈ P, p.t < off) ∧ (∀ p ∈ S, off < p.t) ∧ (M = [] ∨ ∃ m, M = [m] ∧ m.t = off)
  | [], _ => ⟨[], [], [], rfl, rfl, rfl, by simp, by simp, .inl rfl⟩
  | a :: G, hc => by
    have hc' : Ch G := List.IsChain.tail hc
    have later : ∀ q ∈ G, a.t < q.t := by
      intro q hq
      obtain ⟨i, hi⟩ := List.mem_iff_getElem?.1 hq
      exact (ch_lt hc (Nat.succ_pos i) (show (a :: G)[0]? = some a from rfl) (by simpa using hi)).1
    rcases lt_trichotomy a.t off with h | h | h
    · obtain ⟨P, M, S, e, h1, h2, h3, h4, h5⟩ := split_time off hc'
      refine ⟨a :: P, M, S, by rw [e]; rfl, ?_, ?_, ?_, h4, h5⟩
      · rw [List.filter_cons_of_neg (by simp; exact h.le)]; exact h1
      · rw [List.filter_cons_of_pos (by simp; exact h), h2]
      · intro p hp; rcases List.mem_cons.1 hp with rfl | hp
        · exact h
        · exact h3 p hp
    · refine ⟨[], [a], G, rfl, ?_, ?_, by simp, by intro p hp; rw [← h]; exact later p hp, .inr ⟨a, rfl, h⟩⟩
      · rw [List.filter_cons_of_neg (by simp; exact h.le), List.filter_eq_self]
        intro q hq; simp; rw [← h]; exact later q hq
      · rw [List.filter_cons_of_neg (by simp; exact h.ge), List.filter_eq_nil_iff]
        intro q hq; simp; rw [← h]; exact (later q hq).le
    · refine ⟨[], [], a :: G, rfl, ?_, ?_, by simp, ?_, .inl rfl⟩
      · rw [List.filter_eq_self]
        intro q hq; rcases List.mem_cons.1 hq with rfl | hq
        · simp; exact h
        · simp; exact h.trans (later q hq)
      · rw [List.filter_eq_nil_iff]
        intro q hq; rcases List.mem_cons.1 hq with rfl | hq
        · simp; exact h.le
        · simp; exact (h.trans (later q hq)).le
      · intro q hq; rcases List.mem_cons.1 hq with rfl | hq
        · exact h
        · exact h.trans (later q hq)

/-- part of a segment, moved -/
theorem lin_part {G : List Pt} (hG : Ok G) {A B : List Pt} {a b : Pt} (e : G = A ++ a :: b :: B) {u w : Pt} (hu : OnSeg a b u.t u.v) (hw : OnSeg a b w.t w.v) (hlt : u.t < w.t)
    (c s : Rat) (k : Int) (hs : c = s + k * day) :
    Lin (fun t y => TravelTime G (t + c) (y - c)) ⟨u.t - s, u.v + c⟩ ⟨w.t - s, w.v + c⟩ := by
  have hn : Nx a b := ch_iff.1 hG.ch A a b B e
  have hf := seg_fifo hn hu hw hlt.le
  refine .inr ⟨⟨by simp only; linarith, by simp only; linarith⟩, ?_⟩
  intro t ht1 ht2
  simp only at ht1 ht2
  obtain ⟨y, hy⟩ := seg_exists hn.1 (t := t + s) (by linarith [hu.1]) (by linarith [hw.2.1])
  refine ⟨y + c, ?_, ht1, ht2, ?_⟩
  · have hb1 := hG.bounds (i := A.length) (p := a) (by rw [e]; exact get_of_split.1)
    have hb2 := hG.bounds (i := A.length + 1) (p := b) (by rw [e]; exact get_of_split.2)
    have : t + c - k * day = t + s := by rw [hs]; ring
    refine hG.tt_of k (by rw [this]; linarith [hy.1]) (by rw [this]; linarith [hy.2.1]) ?_
    rw [this, show y + c - c = y by ring]
    exact ⟨A, a, b, B, e, hy⟩
  · rw [onSeg_iff hn.1] at hu hw hy
    simp only
    rw [hy.2.2, hu.2.2, hw.2.2]
    ring

/-- inner points, moved -/
theorem lin_inner {G : List Pt} (hG : Ok G) (c s : Rat) (k : Int) (hs : c = s + k * day) : ∀ (L A B : List Pt), G = A ++ L ++ B →
    List.IsChain (Lin (fun t y => TravelTime G (t + c) (y - c))) (L.map (fun p => (⟨p.t - s, p.v + c⟩ : Pt)))
  | [], _, _, _ => by simp
  | [a], _, _, _ => by simp
  | a :: b :: L, A, B, e => by
    simp only [List.map_cons]
    rw [List.isChain_cons_cons]
    have e' : G = A ++ a :: b :: (L ++ B) := by rw [e]; simp
    have hn : Nx a b := ch_iff.1 hG.ch A a b _ e'
    refine ⟨lin_part hG e' ((slope_left hn.1).2 rfl) ((slope_right hn.1).2 rfl) hn.1 c s k hs, ?_⟩
    have := lin_inner hG c s k hs (b :: L) (A ++ [a]) B (by rw [e]; simp)
    simpa using this

theorem link_const {bs : Search} (hbs : SearchBy bs) (co : Bool) {G : List Pt} (hG : Ok G) {c : Rat} (hc : 0 ≤ c) :
    ∃ zero r, evaluate bs 0 G c = some zero ∧ (shiftPoints c (splitDay c).2 zero G).foldlM (appendPoint co 0) [] = some r ∧ setLastTime r day = some r ∧ Ok r ∧
      ∀ t, 0 ≤ t → t ≤ day → ∃ y, TravelTime G (t + c) (y - c) ∧ Interp r t y := by
  obtain ⟨zero, e0, hz0⟩ := hG.evaluate hbs c
  obtain ⟨k, ek, hk1, hk2⟩ := splitDay_spec c
  have hd := day_pos
  set off := c - k * day with hoff
  have hcs : c = off + k * day := by rw [hoff]; ring
  have hcs' : c = (off - day) + ((k + 1 : Int) : Rat) * day := by rw [hoff]; push_cast; ring
  have hio : Interp G off zero := by
    obtain ⟨k', a1, a2, a3⟩ := hG.tt.1 hz0
    have := day_unique a1 a2 hk1 hk2
    subst this
    exact a3
  obtain ⟨v, g0, gz⟩ := hG.ends
  obtain ⟨P, M, S, eG, hS, hP, hPlt, hSlt, hM⟩ := split_time off hG.ch
  have hglast : G.getLast? = some ⟨day, v⟩ := by rw [List.getLast?_eq_getElem?]; exact gz
  have hghead : G.head? = some ⟨0, v⟩ := by rw [List.head?_eq_getElem?]; exact g0
  -- the last point is after off
  have hSlast : S.getLast? = some ⟨day, v⟩ := by
    rcases List.eq_nil_or_concat S with rfl | ⟨S', z, rfl⟩
    · exfalso
      have hm : (⟨day, v⟩ : Pt) ∈ G := List.mem_of_getLast? hglast
      rw [eG] at hm
      simp at hm
      rcases hm with hm | hm
      · have := hPlt _ hm; simp only at this; linarith
      · rcases hM with rfl | ⟨m, rfl, hm'⟩
        · simp at hm
        · simp at hm; rw [← hm] at hm'; simp only at hm'; linarith
    · rw [eG] at hglast; simpa using hglast
  have hSne : S ≠ [] := by intro e; rw [e] at hSlast; simp at hSlast
  have hz1 : 0 ≤ zero := by
    obtain ⟨A, a, b, B, e, hs⟩ := hio
    exact seg_nonneg (ch_iff.1 hG.ch A a b B e).1 (hG.pos _ (by rw [e]; simp)) (hG.pos _ (by rw [e]; simp)) hs
  let H : Rat → Rat → Prop := fun t y => TravelTime G (t + c) (y - c)
  have hchS := lin_inner hG c off k hcs S (P ++ M) [] (by rw [eG]; simp)
  have hchP := lin_inner hG c (off - day) (k + 1) hcs' P [] (M ++ S) (by rw [eG]; simp)
  have emap : P.map (fun p => (⟨p.t + day - off, p.v + c⟩ : Pt)) = P.map (fun p => (⟨p.t - (off - day), p.v + c⟩ : Pt)) :=
    List.map_congr_left (fun p _ => by congr 1; ring)
  have hlist : shiftPoints c off zero G = ⟨0, zero + c⟩ :: (S.map (fun p => (⟨p.t - off, p.v + c⟩ : Pt)) ++ P.map (fun p => (⟨p.t - (off - day), p.v + c⟩ : Pt)) ++ [⟨day, zero + c⟩]) := by
    simp only [shiftPoints, hS, hP]
    rw [emap]; simp
  -- the first segment
  have hfirst : ∀ s, S.head? = some s → Lin H ⟨0, zero + c⟩ ⟨s.t - off, s.v + c⟩ := by
    intro s hs
    obtain ⟨S', eS⟩ : ∃ S', S = s :: S' := by cases S with
      | nil => simp at hs
      | cons x S' => simp at hs; exact ⟨S', by rw [hs]⟩
    have hst : off < s.t := hSlt s (by rw [eS]; simp)
    -- the point before s
    have hpre : ∃ A a, P ++ M = A ++ [a] := by
      rcases List.eq_nil_or_concat (P ++ M) with h | ⟨A, a, h⟩
      · exfalso
        rw [eG, h, eS] at hghead
        simp at hghead
        rw [hghead] at hst; simp only at hst; linarith
      · exact ⟨A, a, by rw [h]; simp⟩
    obtain ⟨A, a, hA⟩ := hpre
    have e : G = A ++ a :: s :: S' := by rw [eG, hA, eS]; simp
    have hn : Nx a s := ch_iff.1 hG.ch A a s S' e
    have hat : a.t ≤ off := by
      have : a ∈ P ++ M := by rw [hA]; simp
      rcases List.mem_append.1 this with h | h
      · exact (hPlt a h).le
      · rcases hM with rfl | ⟨m, rfl, hm⟩
        · simp at h
        · simp at h; rw [h, hm]
    obtain ⟨y, hy⟩ := seg_exists hn.1 hat hst.le
    have : y = zero := interp_unique hG.ch ⟨A, a, s, S', e, hy⟩ hio
    subst this
    have := lin_part hG e (u := ⟨off, y⟩) (w := s) hy ((slope_right hn.1).2 rfl) hst c off k hcs
    simpa using this
  -- the last segment
  have hlast : ∀ p, P.getLast? = some p → Lin H ⟨p.t - (off - day), p.v + c⟩ ⟨day, zero + c⟩ := by
    intro p hp
    obtain ⟨P', eP⟩ : ∃ P', P = P' ++ [p] := ⟨P.dropLast, (List.dropLast_append_getLast? _ hp).symm⟩
    have hpt : p.t < off := hPlt p (by rw [eP]; simp)
    obtain ⟨b, B, hB⟩ : ∃ b B, M ++ S = b :: B := by
      cases h : M ++ S with
      | nil => simp at h; exact absurd h.2 hSne
      | cons b B => exact ⟨b, B, rfl⟩
    have e : G = P' ++ p :: b :: B := by rw [eG, List.append_assoc, hB, eP]; simp
    have hn : Nx p b := ch_iff.1 hG.ch P' p b B e
    have hbt : off ≤ b.t := by
      have : b ∈ M ++ S := by rw [hB]; simp
      rcases List.mem_append.1 this with h | h
      · rcases hM with rfl | ⟨m, rfl, hm⟩
        · simp at h
        · simp at h; rw [h, hm]
      · exact (hSlt b h).le
    obtain ⟨y, hy⟩ := seg_exists hn.1 hpt.le hbt
    have : y = zero := interp_unique hG.ch ⟨P', p, b, B, e, hy⟩ hio
    subst this
    have := lin_part hG e (u := p) (w := ⟨off, y⟩) ((slope_left hn.1).2 rfl) hy hpt c (off - day) (k + 1) hcs'
    simpa using this
  have hchain : List.IsChain (Lin H) (⟨0, zero + c⟩ :: (S.map (fun p => (⟨p.t - off, p.v + c⟩ : Pt)) ++ P.map (fun p => (⟨p.t - (off - day), p.v + c⟩ : Pt)) ++ [⟨day, zero + c⟩])) := by
    rw [List.isChain_cons]
    refine ⟨?_, ?_⟩
    · intro y hy
      cases S with
      | nil => exact absurd rfl hSne
      | cons s S' =>
        simp at hy
        subst hy
        exact hfirst s rfl
    · rw [List.append_assoc, List.isChain_append]
      refine ⟨hchS, ?_, ?_⟩
      · rw [List.isChain_append]
        refine ⟨hchP, by simp, ?_⟩
        intro x hx y hy
        simp at hy
        subst hy
        rw [List.getLast?_map, Option.mem_def, Option.map_eq_some_iff] at hx
        obtain ⟨p, hp, rfl⟩ := hx
        exact hlast p hp
      · intro x hx y hy
        rw [List.getLast?_map, hSlast] at hx
        simp at hx
        subst hx
        cases P with
        | nil =>
          simp at hy
          subst hy
          -- then off = 0
          have h00 : off = 0 := by
            rcases hM with rfl | ⟨m, rfl, hm⟩
            · simp at eG
              have h1 : (⟨0, v⟩ : Pt) ∈ S := by rw [← eG]; exact List.mem_of_mem_head? hghead
              have := hSlt _ h1
              simp only at this; linarith
            · rw [eG] at hghead
              simp at hghead
              rw [hghead] at hm; exact hm.symm
          left
          rw [h00] at hio ⊢
          rw [(hG.zero g0).1 hio]
          simp
        | cons p P' =>
          simp at hy
          subst hy
          rw [eG] at hghead
          simp at hghead
          left
          rw [hghead]
          simp
  have hpos : ∀ p ∈ (S.map (fun p => (⟨p.t - off, p.v + c⟩ : Pt)) ++ P.map (fun p => (⟨p.t - (off - day), p.v + c⟩ : Pt)) ++ [⟨day, zero + c⟩]), 0 ≤ p.v := by
    intro p hp
    simp only [List.mem_append, List.mem_map, List.mem_singleton] at hp
    rcases hp with (⟨q, hq, rfl⟩ | ⟨q, hq, rfl⟩) | rfl
    · have := hG.pos q (by rw [eG]; simp [hq]); simp only; linarith
    · have := hG.pos q (by rw [eG]; simp [hq]); simp only; linarith
    · simp only; linarith
  have happ : appendPoint co 0 [] ⟨0, zero + c⟩ = some [⟨0, zero + c⟩] := by
    obtain ⟨r, e, ha⟩ := append_spec (co := co) (res := []) (p := ⟨0, zero + c⟩) (by simp [Ch]) (by simp only; linarith) (by simp)
    rw [e, ha.first rfl]
  obtain ⟨r, k1, k2, k3, k4, k5, k6⟩ := fold_lin (co := co) (H := H) _ [⟨0, zero + c⟩] ⟨0, zero + c⟩ ⟨0, zero + c⟩ (by simp [Ch]) rfl rfl (by simp; linarith) (by
    intro t ht1 ht2
    simp only at ht1 ht2
    have : t = 0 := le_antisymm ht2 ht1
    subst this
    refine ⟨zero + c, ?_, .inl ⟨⟨0, zero + c⟩, by simp, rfl, rfl⟩⟩
    show TravelTime G (0 + c) (zero + c - c)
    rw [zero_add, show zero + c - c = zero by ring]; exact hz0) hpos hchain
  have hl : r.getLast? = some ⟨day, zero + c⟩ := by rw [k3]; simp [List.getLast?_cons]
  have hok := ok_of_cov k2 k5 k4 hl
  refine ⟨zero, r, e0, ?_, setLast_same hl, hok, ?_⟩
  · rw [ek]
    show (shiftPoints c off zero G).foldlM _ _ = _
    rw [hlist, List.foldlM_cons, happ]
    exact k1
  · intro t ht1 ht2
    obtain ⟨y, a, b⟩ := k6 _ hl t ht1 ht2
    exact ⟨y, a, b.interp hok.ch hok.two⟩

/-! ### A constant second -/

theorem link_then_const {F : List Pt} (hF : Ok F) {c : Rat} (hc : 0 ≤ c) : Ok (F.map (fun p => (⟨p.t, p.v + c⟩ : Pt))) ∧
    ∀ t y, Interp F t y → Interp (F.map (fun p => (⟨p.t, p.v + c⟩ : Pt))) t (y + c) := by
  obtain ⟨v, h0, hz⟩ := hF.ends
  refine ⟨⟨by simpa using hF.two, ?_, ?_, v + c, by simp [h0], by simp [hz]⟩, ?_⟩
  · rw [Ch, List.isChain_map]
    refine List.IsChain.imp ?_ hF.ch
    intro a b h
    exact ⟨h.1, by simp only; linarith [h.2]⟩
  · intro p hp
    obtain ⟨q, hq, rfl⟩ := List.mem_map.1 hp
    have := hF.pos q hq
    simp only; linarith
  · rintro t y ⟨A, p, q, B, e, h1, h2, h3⟩
    refine ⟨A.map (fun p => ⟨p.t, p.v + c⟩), ⟨p.t, p.v + c⟩, ⟨q.t, q.v + c⟩, B.map (fun p => ⟨p.t, p.v + c⟩), by rw [e]; simp, h1, h2, ?_⟩
    simp only
    linarith

/-! ### Together -/

theorem tt_const {v t y : Rat} : TravelTime [⟨0, v⟩] t y ↔ y = v := by
  constructor
  · rintro (⟨p, e, h⟩ | ⟨k, _, _, h⟩)
    · simp at e; rw [← e] at h; exact h
    · exact (interp_short h).elim
  · intro h; exact .inl ⟨_, rfl, h⟩

/-- a function known on one day is known on all days -/
theorem tt_of_day {r : List Pt} (hr : Ok r) {H : Rat → Rat → Prop} (hu : ∀ t y y', H t y → H t y' → y = y') (hper : ∀ t y (k : Int), H t y → H (t - k * day) y)
    (h : ∀ t, 0 ≤ t → t ≤ day → ∃ y, H t y ∧ Interp r t y) {t y : Rat} (ht : H t y) : TravelTime r t y := by
  obtain ⟨k, _, h1, h2⟩ := splitDay_spec t
  obtain ⟨y', a, b⟩ := h _ h1 h2.le
  have := hu _ _ _ a (hper _ _ k ht)
  subst this
  exact hr.tt.2 ⟨k, h1, h2, b⟩

theorem link_spec {bs : Search} (hbs : SearchBy bs) (co : Bool) {F G : List Pt} (hF : ValidTtf F) (hG : ValidTtf G) :
    ∃ r, link bs co 0 F G = some r ∧ ValidTtf r ∧ ∀ t y z, TravelTime F t y → TravelTime G (t + y) z → TravelTime r t (y + z) := by
  rcases valid_cases hF with ⟨a, rfl, ha⟩ | hF <;> rcases valid_cases hG with ⟨b, rfl, hb⟩ | hG
  · refine ⟨_, rfl, .inl ⟨_, rfl, by simp only; linarith⟩, ?_⟩
    intro t y z h1 h2
    rw [tt_const] at h1 h2 ⊢
    rw [h1, h2]
  · obtain ⟨zero, r, e1, e2, e3, hok, hcov⟩ := link_const hbs co hG ha
    refine ⟨r, ?_, hok.valid, ?_⟩
    · have h2 := hG.two
      match G, h2, e1, e2 with
      | p :: q :: B, _, e1, e2 => simp only [link, e1, e2, e3, Option.bind_eq_bind, Option.bind_some]
    · intro t y z h1 h2
      rw [tt_const] at h1
      subst h1
      refine tt_of_day hok (H := fun t w => TravelTime G (t + y) (w - y)) ?_ ?_ hcov (by rw [show y + z - y = z by ring]; exact h2)
      · intro t w w' k1 k2
        have := hG.tt_unique k1 k2
        linarith
      · intro t w k k1
        have := hG.tt_shift (-k) k1
        convert this using 1
        push_cast; ring
  · obtain ⟨hok, hcov⟩ := link_then_const hF hb
    refine ⟨_, ?_, hok.valid, ?_⟩
    · have h2 := hF.two
      match F, h2 with
      | p :: q :: B, _ => simp only [link]
    · intro t y z h1 h2
      rw [tt_const] at h2
      subst h2
      obtain ⟨k, k1, k2, k3⟩ := hF.tt.1 h1
      exact hok.tt.2 ⟨k, k1, k2, hcov _ _ k3⟩
  · obtain ⟨fc, res, r, first, e1, e2, e3, e4, e5, e6, hok, hcov⟩ := link_both hbs co hF hG
    refine ⟨r, ?_, hok.valid, ?_⟩
    · have h2 := hF.two
      have h2' := hG.two
      have ha : assert (decide (r.length ≤ F.length + G.length + 1)) = some () := by simp [assert, e6]
      match F, G, h2, h2', e1, e2, ha with
      | p :: q :: B, p' :: q' :: B', _, _, e1, e2, ha => simp only [link, e1, e2, e3, e4, e5, ha, Option.bind_eq_bind, Option.bind_some, Option.pure_def]
    · intro t y z h1 h2
      refine tt_of_day hok (H := fun t w => ∃ a b, TravelTime F t a ∧ TravelTime G (t + a) b ∧ w = a + b) ?_ ?_ ?_ ⟨y, z, h1, h2, rfl⟩
      · rintro t w w' ⟨a, b, k1, k2, rfl⟩ ⟨a', b', k1', k2', rfl⟩
        have := hF.tt_unique k1 k1'
        subst this
        rw [hG.tt_unique k2 k2']
      · rintro t w k ⟨a, b, k1, k2, rfl⟩
        have c1 := hF.tt_shift (-k) k1
        have c2 := hG.tt_shift (-k) k2
        exact ⟨a, b, by convert c1 using 1; push_cast; ring, by convert c2 using 1; push_cast; ring, rfl⟩
      · intro t ht1 ht2
        obtain ⟨w, ⟨a, b, k1, k2, k3⟩, k4⟩ := hcov t ht1 ht2
        refine ⟨w, ⟨a, b, ?_, k2, k3⟩, k4⟩
        exact hF.tt_of 0 (by simpa using ht1) (by simpa using ht2) (by simpa using k1)

/-! ### Who leaves later does not arrive earlier -/

theorem interp_fifo : ∀ {l : List Pt}, Ch l → ∀ {t y t' y' : Rat}, Interp l t y → Interp l t' y' → t ≤ t' → t + y ≤ t' + y'
  | [], _, _, _, _, _, ⟨A, a, b, C, e, h⟩, _, _ => by simp at e
  | [p], _, _, _, _, _, h, _, _ => (interp_short h).elim
  | p :: q :: B, hc, t, y, t', y', h, h', hle => by
    rw [Ch, List.isChain_cons_cons] at hc
    rcases interp_cons.1 h with h | h <;> rcases interp_cons.1 h' with h' | h'
    · exact seg_fifo hc.1 h h' hle
    · -- over the point q
      have h2 : Interp (q :: B) q.t q.v := by
        cases B with
        | nil => exact (interp_short h').elim
        | cons r B => exact interp_at hc.2 (by simp) (i := 0) rfl
      have k1 := seg_fifo hc.1 h ((slope_right hc.1.1).2 rfl) h.2.1
      have k2 := interp_fifo hc.2 h2 h' (interp_ge hc.2 h')
      linarith
    · have e : t = q.t := le_antisymm (hle.trans h'.2.1) (interp_ge hc.2 h)
      have e' : t' = q.t := le_antisymm h'.2.1 (by linarith)
      subst e
      rw [e', slope_right hc.1.1] at h'
      rw [interp_first hc.2 h, h', e']
    · exact interp_fifo hc.2 h h' hle

theorem fifo {f : List Pt} (hf : ValidTtf f) {t y t' y' : Rat} (h : TravelTime f t y) (h' : TravelTime f t' y') (hle : t ≤ t') : t + y ≤ t' + y' := by
  rcases valid_cases hf with ⟨v, rfl, hv⟩ | hok
  · rw [tt_const] at h h'
    rw [h, h']; linarith
  · obtain ⟨k, a1, a2, a3⟩ := hok.tt.1 h
    obtain ⟨k', b1, b2, b3⟩ := hok.tt.1 h'
    have hd := day_pos
    have hk : k ≤ k' := by
      by_contra hc
      have : (k' : Rat) + 1 ≤ k := by exact_mod_cast Int.lt_iff_add_one_le.1 (not_le.1 hc)
      have := mul_le_mul_of_nonneg_right this hd.le
      linarith
    rcases Int.lt_or_eq_of_le hk with hk | hk
    · obtain ⟨v, h0, _⟩ := hok.ends
      have c1 := interp_fifo hok.ch a3 (hok.end h0) a2.le
      have c2 := interp_fifo hok.ch ((hok.zero h0).2 rfl) b3 b1
      have : (k : Rat) + 1 ≤ k' := by exact_mod_cast Int.lt_iff_add_one_le.1 hk
      have := mul_le_mul_of_nonneg_right this hd.le
      linarith
    · subst hk
      have := interp_fifo hok.ch a3 b3 (by linarith)
      linarith

end Fl
end Verif
