import Verif.Proof.MultiMetricBuilt
import Verif.Props.BiTopo
import Verif.Props.TdAStar
set_option linter.unusedSimpArgs false
set_option linter.unusedVariables false
/- Queries to the `MultiMetric` potential. -/
namespace Verif
namespace MultiMetric
open Spec CCH

/-- the arcs with their travel times -/
abbrev FG (g : TD.Graph) : Nat → Nat → (Nat → Nat) → Prop := TimedArc g.firstOut g.head (fun e t d => d = g.val e t)
/-- the arcs of a metric -/
abbrev MA (g : TD.Graph) (x : List Nat) : Nat → Nat → Nat → Prop := (FOGraph.mk g.firstOut g.head x).Arc

section
variable {bs : List Nat → Nat → Lookup} {g : TD.Graph} {n B : Nat} {c : Cch} {mm : MM} {metrics : List (List Nat)} {u : List Nat} {W0 W : Nat → Weights} {iG : Nat}
  {w0U wU : Weights} {pU : PW}

theorem fg_cases (hg : g.Valid) {a b : Nat} {f : Nat → Nat} (h : FG g a b f) : ∃ e, e < g.head.length ∧ (∀ t, f t = t + g.val e t) ∧
    a < g.firstOut.length - 1 ∧ b < g.firstOut.length - 1 ∧
    ∀ x : List Nat, x.length = g.head.length → ∃ w, x[e]? = some w ∧ MA g x a b w := by
  obtain ⟨i, j, e, h1, h2, h3, h4, h5, h6⟩ := h
  have he : e < g.head.length := (List.getElem?_eq_some_iff.1 h5).1
  have hf : ∀ t, f t = t + g.val e t := by
    intro t; obtain ⟨d, rfl, h7⟩ := h6 t; exact h7
  have ha := (List.getElem?_eq_some_iff.1 h2).1
  refine ⟨e, he, hf, by omega, hg.topo.heads b (List.mem_of_getElem? h5), ?_⟩
  intro x hx
  have he' : e < x.length := by omega
  exact ⟨x[e], List.getElem?_eq_getElem he', (edgeAt_arc (metric_wf hg hx)).2 ⟨e, i, j, h1, h2, h3, h4, h5, List.getElem?_eq_getElem he'⟩⟩

theorem ma_cases (hg : g.Valid) {x : List Nat} (hx : x.length = g.head.length) {a b w : Nat} (h : MA g x a b w) :
    ∃ e, x[e]? = some w ∧ FG g a b (fun t => t + g.val e t) := by
  obtain ⟨e, i, j, h1, h2, h3, h4, h5, h6⟩ := (edgeAt_arc (metric_wf hg hx)).1 h
  exact ⟨e, h6, i, j, e, h1, h2, h3, h4, h5, fun t => ⟨_, rfl, rfl⟩⟩

theorem fg_ge (hg : g.Valid) : ∀ a b f, FG g a b f → ∀ t, t ≤ f t := by
  intro a b f h t
  obtain ⟨e, _, h2, _⟩ := fg_cases hg h
  rw [h2]; omega

theorem fg_mono (hb : BinarySearch bs) (hg : g.Valid) : ∀ a b f, FG g a b f → ∀ t t', t ≤ t' → f t ≤ f t' := by
  intro a b f h t t' htt
  obtain ⟨e, h1, h2, _⟩ := fg_cases hg h
  rw [h2, h2]
  exact (hg.ev hb).fifo e h1 t t' htt

theorem val_shift (e t j : Nat) : g.val e (t + j * PERIOD) = g.val e t := by
  simp only [TD.Graph.val]
  congr 2
  funext f
  exact Plf.valAt_congr (Nat.add_mul_mod_self_right _ _ _)

theorem Built.upper_arc (h : Built n g B c mm metrics u W0 W iG w0U wU pU) (hg : g.Valid) : ∀ a b d, MA g u a b d → ∃ f, FG g a b f ∧ ∀ t, f t ≤ t + d := by
  intro a b d ha
  obtain ⟨e, h1, h2⟩ := ma_cases hg h.ul ha
  exact ⟨_, h2, fun t => by have := h.uge e d t h1; omega⟩

/-- a timed walk gives a walk with upper bounds -/
theorem Built.reach (h : Built n g B c mm metrics u W0 W iG w0U wU pU) (hg : g.Valid) {s τ t y : Nat} (hw : TWalk (FG g) s τ t y) : ∃ d, Walk (MA g u) s t d := by
  induction hw with
  | nil => exact ⟨0, .nil _⟩
  | snoc _ hf ih =>
    obtain ⟨d, hd⟩ := ih
    obtain ⟨e, _, _, _, _, hx⟩ := fg_cases hg hf
    obtain ⟨w, _, hw⟩ := hx u h.ul
    exact ⟨_, hd.append (.cons hw (.nil _))⟩

theorem Built.dist_le (h : Built n g B c mm metrics u W0 W iG w0U wU pU) (hg : g.Valid) (hn : g.firstOut.length - 1 = n) {s t d : Nat}
    (hd : IsDist (MA g u) s t d) : d ≤ n * B := by
  refine BiT.dist_le (W := B) ?_ hd
  intro a b w ha
  obtain ⟨e, h1, h2⟩ := ma_cases hg h.ul ha
  obtain ⟨_, _, _, h3, h4, _⟩ := fg_cases hg h2
  exact ⟨by omega, by omega, h.usmall w (List.mem_of_getElem? h1)⟩

/-! ### the metrics of a query -/

def startOf (cur : List (TRange × Nat)) (m : Nat) : Nat := ((cur[m]?).map (fun e => e.1.start)).getD 0
def idxOf (cur : List (TRange × Nat)) (m : Nat) : Nat := ((cur[m]?).map (fun e => e.2)).getD 0

theorem startOf_eq {cur : List (TRange × Nat)} {m : Nat} {e : TRange × Nat} (h : cur[m]? = some e) : startOf cur m = e.1.start := by simp [startOf, h]
theorem idxOf_eq {cur : List (TRange × Nat)} {m : Nat} {e : TRange × Nat} (h : cur[m]? = some e) : idxOf cur m = e.2 := by simp [idxOf, h]

theorem Chosen.mono {ranges : List Entry} {dep latest : Nat} {cur : List (TRange × Nat)} (h : Chosen ranges dep latest cur) {m rel : Nat} (hm : m ≤ rel)
    (hr : rel < cur.length) : startOf cur m ≤ startOf cur rel := by
  rw [startOf_eq (List.getElem?_eq_getElem (by omega)), startOf_eq (List.getElem?_eq_getElem hr)]
  rcases Nat.lt_or_ge m rel with hlt | hge
  · exact List.pairwise_iff_getElem.1 h.sorted m rel (by omega) hr hlt
  · have : m = rel := by omega
    subst this; exact Nat.le_refl _

theorem Chosen.pos {ranges : List Entry} {dep latest : Nat} {cur : List (TRange × Nat)} (h : Chosen ranges dep latest cur) : 0 < cur.length := by
  obtain ⟨e, h1, _⟩ := h.first; exact (List.getElem?_eq_some_iff.1 h1).1

theorem Chosen.start0 {ranges : List Entry} {dep latest : Nat} {cur : List (TRange × Nat)} (h : Chosen ranges dep latest cur) : startOf cur 0 ≤ dep := by
  obtain ⟨e, h1, h2⟩ := h.first; rw [startOf_eq h1]; exact h2

theorem relevant_spec {ranges : List Entry} {dep latest : Nat} {cur : List (TRange × Nat)} (h : Chosen ranges dep latest cur) {x : Nat} (hx : dep ≤ x) :
    relevant cur x < cur.length ∧ startOf cur (relevant cur x) ≤ x := by
  have hpos := h.pos
  have hle : (cur.takeWhile (fun r => r.1.includes x)).length ≤ cur.length := (List.takeWhile_sublist _).length_le
  have hlt : relevant cur x < cur.length := by unfold relevant; omega
  refine ⟨hlt, ?_⟩
  by_cases h0 : (cur.takeWhile (fun r => r.1.includes x)).length = 0
  · have : relevant cur x = 0 := by unfold relevant; omega
    rw [this]; have := h.start0; omega
  · have h1 : relevant cur x < (cur.takeWhile (fun r => r.1.includes x)).length := by unfold relevant; omega
    have h2 : (cur.takeWhile (fun r => r.1.includes x))[relevant cur x] = cur[relevant cur x] :=
      (List.takeWhile_prefix _).getElem h1
    have h3 := List.all_eq_true.1 (List.all_takeWhile (p := fun r : TRange × Nat => r.1.includes x) (l := cur)) _ (List.getElem_mem h1)
    rw [h2] at h3
    rw [startOf_eq (List.getElem?_eq_getElem hlt)]
    simp only [TRange.includes, Bool.and_eq_true, decide_eq_true_eq] at h3
    exact h3.1

/-- the lower bounds of a chosen metric hold from its start on -/
theorem Built.chosen_low (h : Built n g B c mm metrics u W0 W iG w0U wU pU) {dep latest : Nat} {cur : List (TRange × Nat)} (hc : Chosen mm.ranges dep latest cur)
    {m : Nat} (hm : m < cur.length) :
    ∃ x, metrics[idxOf cur m]? = some x ∧ ∀ e w t, x[e]? = some w → startOf cur m ≤ t → t ≤ latest → w ≤ g.val e t := by
  have he := List.getElem?_eq_getElem hm
  rw [idxOf_eq he, startOf_eq he]
  obtain ⟨⟨r, h1, j, h2, h3, h4, h5⟩, h6⟩ := hc.copy cur[m] (List.getElem_mem hm)
  obtain ⟨x, k1, k2⟩ := h.table.low r h1
  refine ⟨x, by rw [h5]; exact k1, ?_⟩
  intro e w t hw ha hb
  have := k2 e w (t - j * PERIOD) hw (by omega) (by omega)
  rwa [← val_shift e (t - j * PERIOD) j, Nat.sub_add_cancel (by omega)] at this

/-! ### states -/

/-- the paths for which the potentials are lower bounds -/
def PathP (n : Nat) (c : Cch) (W : Nat → Weights) (iG : Nat) (pU : PW) (τ ub tr : Nat) (cur : List (TRange × Nat)) (p a : Nat → Nat) (k : Nat) : Prop :=
  TPath n τ (τ + ub) tr (startOf cur) cur.length (fun m => KUp c (W iG) pU (W (idxOf cur m))) (fun m => KDown c (W iG) pU (W (idxOf cur m))) k p a

/-- the state during a query with a reachable target -/
structure Run (n : Nat) (g : TD.Graph) (c : Cch) (mm : MM) (u : List Nat) (W : Nat → Weights) (iG : Nat) (pU : PW) (s t τ ub tr : Nat) (st : St)
    (b : Nat → Nat) (f : Nat → Option (Nat × Nat)) : Prop where
  dist : IsDist (MA g u) s t ub
  chosen : Chosen mm.ranges τ (τ + ub) st.current
  rank : c.order.rank t = some tr
  pots : TRep n none st.pots f
  bwd : TRep n INFINITY st.bwDist b
  bi : ∀ x, b x ≤ INFINITY
  b0 : b tr = 0
  relax : ∀ y x w, KDown c (W iG) pU (W (idxOf st.current 0)) y x w → b y + w ≤ ub → b x ≤ b y + w
  memo : MemoM c.elimTree (PathP n c W iG pU τ ub tr st.current) st.current.length (startOf st.current) b f
  clean : Clean n st.srv

/-- the state during a query if the target cannot be reached -/
structure Idle (n : Nat) (g : TD.Graph) (u : List Nat) (s t : Nat) (st : St) : Prop where
  none : ¬ ∃ d, Walk (MA g u) s t d
  empty : st.current = []
  pots : ∃ f, TRep n (Option.none : Option (Nat × Nat)) st.pots f
  bwd : ∃ b, TRep n INFINITY st.bwDist b
  clean : Clean n st.srv

/-- the state between queries -/
structure Rest (n : Nat) (st : St) : Prop where
  pots : ∃ f, TRep n (Option.none : Option (Nat × Nat)) st.pots f
  bwd : ∃ b, TRep n INFINITY st.bwDist b
  clean : Clean n st.srv

theorem Rest.new (n m : Nat) : Rest n (St.new n m) := ⟨⟨_, TRep.new⟩, ⟨_, TRep.new⟩, clean_new n m⟩

def During (n : Nat) (g : TD.Graph) (c : Cch) (mm : MM) (u : List Nat) (W : Nat → Weights) (iG : Nat) (pU : PW) (s t τ : Nat) (st : St) : Prop :=
  Idle n g u s t st ∨ ∃ ub tr b f, Run n g c mm u W iG pU s t τ ub tr st b f

theorem init_spec (h : Built n g B c mm metrics u W0 W iG w0U wU pU) (hg : g.Valid) (hn : g.firstOut.length - 1 = n) (hlim : n * B + PERIOD ≤ INFINITY)
    {srt : List (TRange × Nat) → List (TRange × Nat)} (hsrt : ∀ l, (srt l).Perm l ∧ (srt l).Pairwise (fun a b => a.1.start ≤ b.1.start))
    {st : St} (hr : Rest n st) {s t τ : Nat} (hs : s < n) (ht : t < n) (hτ : τ < PERIOD) :
    ∃ st', init srt mm c st s t τ = some st' ∧ During n g c mm u W iG pU s t τ st' := by
  obtain ⟨r, r1, r2⟩ := serveOn_spec (A := MA g u) h.ord (by
    intro a b l ha
    obtain ⟨e, h1, h2⟩ := ma_cases hg h.ul ha
    obtain ⟨_, _, _, h3, h4, _⟩ := fg_cases hg h2
    exact ⟨by omega, by omega⟩) h.perf.serves hs ht 0
  obtain ⟨srv', s1, s2⟩ := r2 st.srv hr.clean
  have s1' : servePerfect c mm.upper st.srv s t 0 = some (r, srv') := by rw [h.upper]; exact s1
  have hmod : τ % PERIOD = τ := Nat.mod_eq_of_lt hτ
  obtain ⟨f0, hf0⟩ := hr.pots
  obtain ⟨b0, hb0⟩ := hr.bwd
  cases hans : r.1 with
  | none =>
    refine ⟨⟨st.pots.reset, st.bwDist, srv', []⟩, ?_, .inl ⟨?_, rfl, ⟨_, hf0.reset⟩, ⟨b0, hb0⟩, s2⟩⟩
    · simp only [init, s1', hans, Option.bind_eq_bind, Option.bind_some, Option.pure_def]
    · rintro ⟨d, hd⟩
      obtain ⟨d', _, hd'⟩ := exists_isDist hd
      have h1 := h.dist_le hg hn hd'
      have := (r1.ans d').2 ⟨hd', by simp only [PERIOD, INFINITY] at *; omega⟩
      rw [hans] at this; exact absurd this (by simp)
  | some ub =>
    obtain ⟨hd, hdi⟩ := (r1.ans ub).1 hans
    have hub := h.dist_le hg hn hd
    obtain ⟨cur, c1, c2⟩ := select_spec hsrt h.table.ok (dep := τ) (ub := ub) (by simp only [PERIOD, INFINITY] at *; omega)
    obtain ⟨e, e1, e2⟩ := c2.first
    obtain ⟨x, x1, _⟩ := h.chosen_low c2 c2.pos
    obtain ⟨y, y1, y2, y3⟩ := h.bw _ x x1
    obtain ⟨tr, t1, t2, _⟩ := h.ord.rank_lt ht
    obtain ⟨v1, v', f', w1, w2, w3, w4, w5, w6, w7⟩ := walk_spec h.good.treeOK y2 t1 hdi hb0
    rw [idxOf_eq e1] at y1
    refine ⟨⟨st.pots.reset, v', srv', cur⟩, ?_, .inr ⟨ub, tr, f', fun _ => none, hd, c2, t2, hf0.reset, w4, w5, w6, ?_, ?_, s2⟩⟩
    · simp only [init, s1', hans, hmod, c1, e1, backward, y1, t2, w1, w2, w3, Option.bind_eq_bind, Option.bind_some, Option.pure_def]
    · intro a b w hk hle
      exact w7 a b w (y3 a b w hk) hle
    · exact ⟨fun _ _ _ h => by simp at h, fun _ _ _ h => by simp at h, fun _ _ _ _ h => by simp at h⟩

/-- the main part of `potential` -/
theorem Run.body (h : Built n g B c mm metrics u W0 W iG w0U wU pU) {s t τ ub tr : Nat} {st : St} {b : Nat → Nat} {f : Nat → Option (Nat × Nat)}
    (hr : Run n g c mm u W iG pU s t τ ub tr st b f) {rel : Nat} (hrel : rel < st.current.length) {v : Nat} (hv : v < n) :
    ∃ e w rv stack pots' f' d m, st.current[rel]? = some e ∧ metricAt mm.fwMetrics mm.fwHead.length e.2 = some w ∧ c.order.rank v = some rv ∧ rv < n ∧
      climb c.elimTree st.pots rel (c.elimTree.length + 1) [] rv = some stack ∧ popAll ⟨mm.fwFo, mm.fwHead, w⟩ st.bwDist rel stack st.pots = some pots' ∧
      f' rv = some (d, m) ∧ m ≤ rel ∧ pots'.get rv = some (some (d, m)) ∧ d ≤ INFINITY ∧ (∀ x, stored f' x ≤ stored f x) ∧
      Run n g c mm u W iG pU s t τ ub tr { st with pots := pots' } b f' := by
  obtain ⟨x, x1, _⟩ := h.chosen_low hr.chosen hrel
  obtain ⟨w, w1, w2, w3⟩ := h.fw _ x x1
  have he := List.getElem?_eq_getElem hrel
  obtain ⟨rv, v1, v2, _⟩ := h.ord.rank_lt hv
  have ht := h.good.treeOK
  obtain ⟨stack, k1, k2, _, k4⟩ := climbM_spec ht hr.pots rel (c.elimTree.length + 1) [] rv v1 (by rw [ht.len]; omega) trivial (by simp)
  obtain ⟨pots', f', p1, p2, p3, p4, p5, p6⟩ := popAllM_spec (KF := fun m => KUp c (W iG) pU (W (idxOf st.current m)))
    (KB := fun m => KDown c (W iG) pU (W (idxOf st.current m))) (dep := τ) (latest := τ + ub) (t := tr) (S := startOf st.current) (M := st.current.length)
    ht w2 hr.bwd hr.bi (fun k p a hp i hi hmax => hp.bw hr.chosen.pos hr.chosen.start0 (Nat.le_refl _) hr.b0 hr.relax (k - i) i (by omega) hi hmax)
    hrel (fun m hm => hr.chosen.mono hm hrel) w3 stack st.pots f hr.pots hr.memo k2
  obtain ⟨d, m, d1, d2⟩ : Known f' rel rv := by
    rcases k4 with k4 | k4
    · exact p5 rv k4
    · exact p6 rv k4
  have hd := (p3.le rv d m d1).1
  rw [idxOf_eq he] at w1
  refine ⟨_, w, rv, stack, pots', f', d, m, he, w1, v2, v1, k1, p1, d1, d2, by rw [p2.get v1, d1], Nat.le_trans hd (hr.bi rv), p4, ?_⟩
  exact ⟨hr.dist, hr.chosen, hr.rank, p2, hr.bwd, hr.bi, hr.b0, hr.relax, p3, hr.clean⟩

/-- the estimate for a node at a time is a lower bound -/
theorem Run.low (hb : BinarySearch bs) (hg : g.Valid) (hn : g.firstOut.length - 1 = n) (hlim : n * B + PERIOD ≤ INFINITY)
    (h : Built n g B c mm metrics u W0 W iG w0U wU pU) {s t τ ub tr : Nat} {st : St} {b : Nat → Nat} {f : Nat → Option (Nat × Nat)}
    (hr : Run n g c mm u W iG pU s t τ ub tr st b f) (hτ : τ < PERIOD) {v rv d m x y : Nat} (hv : v < n) (hrv : c.order.rank v = some rv) (hf : f rv = some (d, m))
    (hx : τ ≤ x) (hm : startOf st.current m ≤ x) (hw : TWalk (FG g) v x t y) (hy : y ≤ τ + ub) : x + d ≤ y := by
  obtain ⟨k, q, a, o1, o2, o3⟩ := opt_path (fg_ge hg) (fg_mono hb hg) hw
  have hq : ∀ i, i ≤ k → q i < n := by
    intro i hi
    cases i with
    | zero => rw [o1.q0]; exact hv
    | succ i =>
      obtain ⟨f, h1, _⟩ := o1.arc i (by omega)
      obtain ⟨_, _, _, _, h2, _⟩ := fg_cases hg h1
      omega
  have hrk : ∀ v, ∃ r, v < n → r < n ∧ c.order.rank v = some r ∧ c.order.node r = some v := by
    intro v
    by_cases hv : v < n
    · obtain ⟨r, hr⟩ := h.ord.rank_lt hv; exact ⟨r, fun _ => hr⟩
    · exact ⟨0, fun h => absurd h hv⟩
  obtain ⟨rk, hrk⟩ := Classical.axiomOfChoice hrk
  have hub := h.dist_le hg hn hr.dist
  have hlat : τ + ub < INFINITY := by simp only [PERIOD, INFINITY] at *; omega
  have hmono : ∀ i j, i ≤ j → j ≤ k → a i ≤ a j := by
    intro i j hij hj
    refine mono_le hij (fun l _ hl => ?_)
    obtain ⟨f, h1, h2⟩ := o1.arc l (by omega)
    rw [h2]; exact fg_ge hg _ _ _ h1 _
  have hstep : ∀ l, l < k → ∃ e, a (l + 1) = a l + g.val e (a l) ∧ ∀ x : List Nat, x.length = g.head.length → ∃ w, x[e]? = some w ∧
      InRanks (MA g x) c.order.node (rk (q l)) (rk (q (l + 1))) w := by
    intro l hl
    obtain ⟨f, h1, h2⟩ := o1.arc l hl
    obtain ⟨e, e1, e2, _, _, e3⟩ := fg_cases hg h1
    refine ⟨e, by rw [h2, e2], ?_⟩
    intro x hx
    obtain ⟨w, w1, w2⟩ := e3 x hx
    exact ⟨w, w1, q l, q (l + 1), (hrk _ (hq l (by omega))).2.2, (hrk _ (hq (l + 1) (by omega))).2.2, w2⟩
  have htr : rk (q k) = tr := by
    have h1 := (hrk _ (hq k (Nat.le_refl _))).2.1
    rw [o2, hr.rank] at h1; injection h1 with h1
    rw [o2]; exact h1.symm
  obtain ⟨xG, g1, g2⟩ := h.glob
  have hP : PathP n c W iG pU τ ub tr st.current (fun i => rk (q i)) a k := by
    refine tpath_of (h.cust iG xG g1) h.perf (O := fun m => InRanks (MA g ((metrics[idxOf st.current m]?).getD [])) c.order.node) (W0 := fun m => W0 (idxOf st.current m))
      (W := fun m => W (idxOf st.current m)) ?_ hlat htr (fun i hi => (hrk _ (hq i hi)).1) (by rw [o1.a0]; exact hx) (by omega) ?_ ?_ ?_
    · intro m hm
      obtain ⟨x, x1, _⟩ := h.chosen_low hr.chosen hm
      simp only [x1, Option.getD_some]
      exact h.cust _ x x1
    · intro l hl
      obtain ⟨e, e1, e2⟩ := hstep l hl
      obtain ⟨w, w1, w2⟩ := e2 xG (h.table.len _ (List.mem_of_getElem? g1))
      have h1 := hmono l k (by omega) (Nat.le_refl _)
      have := g2 e w (a l) w1 (by omega)
      exact ⟨w, w2, by omega⟩
    · intro m l hm hl hS
      obtain ⟨x, x1, x2⟩ := h.chosen_low hr.chosen hm
      obtain ⟨e, e1, e2⟩ := hstep l hl
      obtain ⟨w, w1, w2⟩ := e2 x (h.table.len _ (List.mem_of_getElem? x1))
      have h1 := hmono l k (by omega) (Nat.le_refl _)
      have := x2 e w (a l) w1 hS (by omega)
      refine ⟨w, ?_, by omega⟩
      simp only [x1, Option.getD_some]
      exact w2
    · intro i j d hij hj hw
      have hw' := walk_inRanks hw (hrk _ (hq i (by omega))).2.2 (hrk _ (hq j hj)).2.2
      obtain ⟨z, z1, z2⟩ := upper_walk (fg_mono hb hg) (h.upper_arc hg) hw' (a i)
      exact Nat.le_trans (o1.min j z hj (twalk_trans (o1.walk i (by omega)) z2)) z1
  have hrv' : rk (q 0) = rv := by
    have h1 := (hrk _ (hq 0 (by omega))).2.1
    rw [o1.q0, hrv] at h1; injection h1 with h1
    rw [o1.q0]; exact h1.symm
  have := hr.memo.val rv d m hf k (fun i => rk (q i)) a hP 0 (by omega) hrv' (by rw [o1.a0]; exact hm)
  rw [o1.a0] at this; omega

end
end MultiMetric
end Verif
