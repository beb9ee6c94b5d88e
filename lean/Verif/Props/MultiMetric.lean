import Verif.Proof.MultiMetricQuery
set_option linter.unusedSimpArgs false
set_option linter.unusedVariables false
/- C67: the potential with lower bounds for several ranges of time on one CCH. -/
namespace Verif
open Spec CCH MultiMetric
open TdAStar (rounds)

section
variable {n : Nat}

/-- the last value for a node, `INFINITY` if there is none -/
def MultiMetric.curOf (n : Nat) (c : Cch) (st : St) (v : Nat) : Nat :=
  if st.current = [] then INFINITY else
    match c.order.rank v with
    | none => INFINITY
    | some r => if r < n then (match st.pots.get r with | some (some p) => p.1 | _ => INFINITY) else INFINITY

theorem MultiMetric.curOf_eq {c : Cch} {st : St} {f : Nat → Option (Nat × Nat)} (hp : TRep n none st.pots f) (h : st.current ≠ []) {v r : Nat}
    (hr : c.order.rank v = some r) (hrn : r < n) : curOf n c st v = stored f r := by
  simp only [curOf, if_neg h, hr, if_pos hrn, hp.get hrn, stored]
  cases f r <;> rfl

/-- arrival with upper bounds, or 0 -/
noncomputable def MultiMetric.lastOf (g : TD.Graph) (u : List Nat) (s t τ : Nat) : Nat :=
  @dite _ (∃ d, IsDist (MA g u) s t d) (Classical.propDecidable _) (fun h => τ + h.choose) (fun _ => 0)

theorem MultiMetric.lastOf_eq {g : TD.Graph} {u : List Nat} {s t τ ub : Nat} (h : IsDist (MA g u) s t ub) : lastOf g u s t τ = τ + ub := by
  have hex : ∃ d, IsDist (MA g u) s t d := ⟨ub, h⟩
  rw [lastOf, dif_pos hex, hex.choose_spec.unique h]

theorem MultiMetric.timed {bs : List Nat → Nat → Lookup} (hb : BinarySearch bs) {g : TD.Graph} (hg : g.Valid) (hn : g.firstOut.length - 1 = n) {B : Nat}
    (hlim : n * B + PERIOD ≤ INFINITY) {c : Cch} {mm : MM} {metrics : List (List Nat)} {u : List Nat} {W0 W : Nat → Weights} {iG : Nat} {w0U wU : Weights} {pU : PW}
    (h : Built n g B c mm metrics u W0 W iG w0U wU pU)
    {srt : List (TRange × Nat) → List (TRange × Nat)} (hsrt : ∀ l, (srt l).Perm l ∧ (srt l).Pairwise (fun a b => a.1.start ≤ b.1.start)) :
    TimedPotential n (FG g) (pot false srt mm c) PERIOD (Rest n) (During n g c mm u W iG pU) (fun _ _ _ => curOf n c) (lastOf g u) where
  init := fun st s t τ hr hs ht hτ => init_spec h hg hn hlim hsrt hr hs ht hτ
  target := by
    intro st s t τ hd hs ht hτ
    rcases hd with hi | ⟨ub, tr, b, f, hr⟩
    · refine ⟨st, none, ?_, .inl hi, by simp, fun _ y hw => absurd (h.reach hg hw) hi.none⟩
      simp [pot, potential, hi.empty]
    · obtain ⟨e, w, rv, stack, pots', f', d, m, e1, e2, e3, e4, e5, e6, e7, e8, e9, e10, e11, e12⟩ := hr.body h hr.chosen.pos ht
      have hrv : rv = tr := by
        have := hr.rank; rw [e3] at this; injection this
      have hd0 : d = 0 := by
        have := (e12.memo.le rv d m e7).1
        rw [hrv, hr.b0] at this; omega
      refine ⟨_, some 0, ?_, .inr ⟨ub, tr, b, f', e12⟩, by simp [INFINITY], by simp⟩
      simp only [pot, potential, e1, e2, e3, e5, e6, e9, hd0, Option.bind_eq_bind, Option.bind_some, Option.pure_def]
      simp [INFINITY]
  latest := by
    intro s t τ hs ht hτ _ y hw hy
    obtain ⟨d, hd⟩ := h.reach hg hw
    obtain ⟨ub, _, hub⟩ := exists_isDist hd
    rw [lastOf_eq hub]
    obtain ⟨z, z1, z2⟩ := upper_walk (fg_mono hb hg) (h.upper_arc hg) hub.1 τ
    by_cases hyz : y ≤ z
    · exact ⟨y, Nat.le_refl _, by omega, hw⟩
    · exact ⟨z, by omega, z1, z2⟩
  get := by
    intro st s t τ v x hd hs ht hτ hv hx hw
    have hτx := twalk_le (fg_ge hg) hw
    rcases hd with hi | ⟨ub, tr, b, f, hr⟩
    · refine ⟨st, none, ?_, .inl hi, fun _ => Nat.le_refl _, by simp [curOf, hi.empty], by simp, ?_⟩
      · simp [pot, potential, hi.empty]
      · intro y hy _
        exact absurd (h.reach hg (twalk_trans hw hy)) hi.none
    · obtain ⟨r1, r2⟩ := relevant_spec hr.chosen hτx
      obtain ⟨e, w, rv, stack, pots', f', d, m, e1, e2, e3, e4, e5, e6, e7, e8, e9, e10, e11, e12⟩ := hr.body h r1 hv
      have hne : st.current ≠ [] := by
        intro hc; have := hr.chosen.pos; rw [hc] at this; simp at this
      refine ⟨{ st with pots := pots' }, if d < INFINITY then some d else none, ?_, .inr ⟨ub, tr, b, f', e12⟩, ?_, ?_, ?_, ?_⟩
      · simp only [pot, potential, Bool.false_and, Bool.false_eq_true, if_false, e1, e2, e3, e5, e6, e9, Option.bind_eq_bind, Option.bind_some, Option.pure_def]
      · intro v'
        cases hrk : c.order.rank v' with
        | none => simp [curOf, hrk]
        | some r =>
          have hrn := h.ord.rank_range hrk
          rw [curOf_eq hr.pots hne hrk hrn, curOf_eq (st := { st with pots := pots' }) e12.pots hne hrk hrn]
          exact e11 r
      · rw [curOf_eq (st := { st with pots := pots' }) e12.pots hne e3 e4]
        simp only [stored, e7]
        split
        · rfl
        · simp; omega
      · intro p hp
        split at hp
        · injection hp with hp; omega
        · exact absurd hp (by simp)
      · intro y hy hyl
        rw [lastOf_eq hr.dist] at hyl
        have hlow := e12.low hb hg hn hlim h hτ hv e3 e7 hτx (Nat.le_trans (hr.chosen.mono e8 r1) r2) hy hyl
        have hub := h.dist_le hg hn hr.dist
        exact ⟨d, if_pos (by simp only [PERIOD, INFINITY] at *; omega), hlow⟩
  back := by
    intro st s t τ hd _ _ _
    rcases hd with hi | ⟨ub, tr, b, f, hr⟩
    · exact ⟨hi.pots, hi.bwd, hi.clean⟩
    · exact ⟨⟨f, hr.pots⟩, ⟨b, hr.bwd⟩, hr.clean⟩

end

section
variable {bs : List Nat → Nat → Lookup} (hb : BinarySearch bs) {g : TD.Graph} (hg : g.Valid)
  -- the CCH, built for the topology of the graph and any order
  (orig : FOGraph) (ho : orig.WF) (hfo : orig.firstOut = g.firstOut) (hhd : orig.head = g.head)
  (l : List Nat) (hl : l.length = orig.numNodes) (order : NodeOrder) (hord : NodeOrder.fromNodeOrder l = some order)
  (c : Cch) (hc : build orig order = some c)
  -- travel times are at most `B`, and paths of `n` arcs are short enough
  {B : Nat} (hB : ∀ e t d, e < g.head.length → g.Takes e t d → d ≤ B) (hlim : (g.firstOut.length - 1) * B + PERIOD ≤ INFINITY)
  -- the ranges are not empty and end on the next day; there are fewer than 65535
  (times : List TRange) (ht : ∀ r ∈ times, r.start < r.fin ∧ r.fin < 2 * PERIOD) (hfew : times.length + 1 < 65536)
  -- the metrics may be merged, then squared differences must fit
  (pick : Nat → Nat) (reduce : Option Nat)
  (hred : reduce ≠ none → g.head.length * (B * B) < 18446744073709551616 ∧ g.head.length < 2147483648)
  -- `k` parallel tasks: each gets an edge, and the lowest node is not isolated (see C35)
  {k : Nat} (hk : 0 < k) (hen : (k - 1) * ((c.head.length + k - 1) / k) < c.head.length) (h0 : c.tail[0]? = some 0)
  -- the sort
  {srt : List (TRange × Nat) → List (TRange × Nat)} (hsrt : ∀ l, (srt l).Perm l ∧ (srt l).Pairwise (fun a b => a.1.start ≤ b.1.start))
include hb hg ho hfo hhd hl hord hc hB hlim ht hfew hred hk hen h0 hsrt

/-- **C67.** Whatever the ranges, preprocessing succeeds and the `MultiMetric` potential keeps the promises of a `TimedPotential` for
all departures within the first day, in builds without debug assertions. -/
theorem C67_multi_metric : ∃ pre mm, Pre.new bs pick c k times g reduce = some pre ∧ MM.new c k pre = some mm ∧
    ∃ R I cur L, TimedPotential (g.firstOut.length - 1) (TimedArc g.firstOut g.head g.Takes) (pot false srt mm c) PERIOD R I cur L ∧
      ∀ m, R (St.new (g.firstOut.length - 1) m) := by
  have hok : order.OK orig.numNodes := by rw [← hl]; exact NodeOrder.ok_of_fromNodeOrder hord
  have hn : orig.numNodes = g.firstOut.length - 1 := by simp [FOGraph.numNodes, hfo]
  have hB' : ∀ e t, e < g.head.length → g.val e t ≤ B := by
    intro e t he
    obtain ⟨f, h1, h2⟩ := hg.ttf e he
    refine hB e t _ he ⟨f, h1, ?_⟩
    rw [val_eq h1]; exact (Plf.valAt_spec hb h2 t).2
  rcases build_spec ho hok with h | ⟨c', h1, hgood, hbf⟩
  · rw [hc] at h; simp at h
  · rw [hc] at h1; simp at h1; subst h1
    obtain ⟨pre, mm, p1, p2, metrics, u, W0, W, iG, w0U, wU, pU, hbuilt⟩ := new_spec hb hg ho hfo hhd hok hgood hbf hB' ht hfew pick reduce hred hk hen h0
    refine ⟨pre, mm, p1, p2, Rest _, During (g.firstOut.length - 1) g c mm u W iG pU, fun _ _ _ => curOf (g.firstOut.length - 1) c, lastOf g u, ?_, fun m => Rest.new _ m⟩
    rw [hn] at hbuilt
    rw [← hg.arcs hb]
    exact timed hb hg rfl hlim hbuilt hsrt

/-- **C67**, with C66: any sequence of queries to a time-dependent A* server with this potential is answered, and every answer is the
travel time for the earliest arrival, if that is before `INFINITY`. -/
theorem C67_exact (deg : Nat → Option SymDeg) (hdeg : ∀ v, v < g.firstOut.length - 1 → ∃ d, deg v = some d)
    {fuel : Nat} (hf : rounds (g.firstOut.length - 1) ≤ fuel) (m : Nat) (qs : List (Nat × Nat × Nat))
    (hq : ∀ q ∈ qs, q.1 < g.firstOut.length - 1 ∧ q.2.1 < PERIOD ∧ q.2.2 < g.firstOut.length - 1) :
    ∃ pre mm rs d st, Pre.new bs pick c k times g reduce = some pre ∧ MM.new c k pre = some mm ∧
      TdAStar.queries fuel (g.firstOut.length - 1) ⟨false, false⟩ ⟨TD.links g.firstOut g.head, deg⟩ (TD.ops (g.eval bs)) (pot false srt mm c)
        (DData.new (g.firstOut.length - 1) ()) (St.new (g.firstOut.length - 1) m) qs = some (rs, d, st) ∧
      List.Forall₂ (fun q r => ArrivalAnswer (TimedArc g.firstOut g.head g.Takes) q.1 q.2.1 q.2.2 (r.map (q.2.1 + ·))) qs rs := by
  obtain ⟨pre, mm, h1, h2, R, I, cur, L, h3, h4⟩ := C67_multi_metric hb hg orig ho hfo hhd l hl order hord c hc hB hlim times ht hfew pick reduce hred hk hen h0 hsrt
  obtain ⟨rs, d, st, h5, _, h6⟩ := C66_td_astar hb hg deg hdeg h3 (by simp [PERIOD, INFINITY]) hf _ (h4 m) qs hq
  exact ⟨pre, mm, rs, d, st, h1, h2, h5, h6⟩

end

/-! The hypotheses are met: four nodes, the arc 0→1 has a rush hour at noon; ranges for the morning and the afternoon, four tasks. -/
namespace MultiMetricEx
open MultiMetric

def graph : TD.Graph := ⟨[0, 2, 3, 4, 4], [1, 2, 2, 3], [0, 5, 6, 7, 8], rushHour.dt ++ [0, 0, 0], rushHour.tt ++ [7000000, 1800000, 600000]⟩

theorem ttfs : graph.ttf 0 = some rushHour ∧ graph.ttf 1 = some ⟨[0], [7000000]⟩ ∧ graph.ttf 2 = some ⟨[0], [1800000]⟩ ∧ graph.ttf 3 = some ⟨[0], [600000]⟩ := by
  decide +kernel

theorem valid : graph.Valid where
  topo := ⟨by decide, rfl, rfl, rfl, FOGraph.mono_of_check (by decide), by decide⟩
  ttf := by
    intro e he
    have hc : ∀ c, c < 2147483647 → ValidPlf [0] [c] := by
      intro c hc
      refine ⟨rfl, rfl, rfl, .inl rfl, by simp, ?_, ?_⟩
      · intro i x y a b hx hy; simp at hy
      · intro i x a hx ha
        match i, hx, ha with
        | 0, hx, ha => cases hx; cases ha; omega
        | n + 1, hx, ha => cases hx
    match e, he with
    | 0, _ => exact ⟨_, ttfs.1, rushHour_valid⟩
    | 1, _ => exact ⟨_, ttfs.2.1, hc _ (by omega)⟩
    | 2, _ => exact ⟨_, ttfs.2.2.1, hc _ (by omega)⟩
    | 3, _ => exact ⟨_, ttfs.2.2.2, hc _ (by omega)⟩
    | n + 4, he => exact absurd he (by simp [graph])

def orig : FOGraph := ⟨graph.firstOut, graph.head, [0, 0, 0, 0]⟩
def order : NodeOrder := ⟨[0, 1, 2, 3], [0, 1, 2, 3]⟩
def times : List TRange := [⟨0, 36000000⟩, ⟨21600000, 93600000⟩]
def qs : List (Nat × Nat × Nat) := [(0, 0, 3), (0, 43200000, 3), (3, 0, 0), (0, 86000000, 2)]

theorem orig_wf : orig.WF := ⟨by decide, by decide, by decide, by decide, FOGraph.mono_of_check (by decide), by decide⟩

theorem built : (build orig order).map (fun c => (c.head, c.tail)) = some ([1, 2, 2, 3], [0, 0, 1, 2]) := by decide +kernel

theorem short : ∀ e t d, e < graph.head.length → graph.Takes e t d → d ≤ 7200000 := by
  rintro e t d he ⟨f, h1, h2⟩
  obtain ⟨f', k1, k2⟩ := valid.ttf e he
  rw [h1] at k1; injection k1 with k1; subst k1
  obtain ⟨_, w, hw, hle⟩ := Plf.value_between k2 h2
  obtain ⟨t0, t1, t2, t3⟩ := ttfs
  have he4 : e < 4 := he
  rcases (by omega : e = 0 ∨ e = 1 ∨ e = 2 ∨ e = 3) with rfl | rfl | rfl | rfl
  · rw [t0] at h1; injection h1 with h1; subst h1
    simp only [rushHour, List.mem_cons, List.mem_nil_iff, or_false] at hw; omega
  · rw [t1] at h1; injection h1 with h1; subst h1; simp at hw; omega
  · rw [t2] at h1; injection h1 with h1; subst h1; simp at hw; omega
  · rw [t3] at h1; injection h1 with h1; subst h1; simp at hw; omega

def sort : List (TRange × Nat) → List (TRange × Nat) := isort (fun e => e.1.start)

example (c : Cch) (hc : build orig order = some c) (reduce : Option Nat) : ∃ pre mm rs d st, Pre.new Bits.stdSearch id c 4 times graph reduce = some pre ∧ MM.new c 4 pre = some mm ∧
    TdAStar.queries (rounds 4) 4 ⟨false, false⟩ ⟨TD.links graph.firstOut graph.head, fun _ => some .greaterEqFour⟩ (TD.ops (graph.eval Bits.stdSearch)) (pot false sort mm c)
      (DData.new 4 ()) (St.new 4 4) qs = some (rs, d, st) ∧
    List.Forall₂ (fun q r => ArrivalAnswer (TimedArc graph.firstOut graph.head graph.Takes) q.1 q.2.1 q.2.2 (r.map (q.2.1 + ·))) qs rs := by
  have h := built
  rw [hc] at h; simp at h
  exact C67_exact Bits.stdSearch_spec.1 valid orig orig_wf rfl rfl [0, 1, 2, 3] rfl order (by decide +kernel) c hc short (by decide) times (by decide) (by decide) id reduce
    (fun _ => by decide) (by decide) (by rw [h.1]; decide) (by rw [h.2]; rfl) (fun l => isort_ok _ l) _ (fun _ _ => ⟨_, rfl⟩) (Nat.le_refl _) 4 qs (by decide)

-- the answers; ten rounds suffice
example : ((build orig order).bind fun c => (Pre.new Bits.stdSearch id c 4 times graph (some 2)).bind fun pre => (MM.new c 4 pre).bind fun mm =>
    (TdAStar.queries 10 4 ⟨false, false⟩ ⟨TD.links graph.firstOut graph.head, fun _ => some .greaterEqFour⟩ (TD.ops (graph.eval Bits.stdSearch)) (pot false sort mm c)
      (DData.new 4 ()) (St.new 4 4) qs).map Prod.fst) = some [some 6000000, some 7600000, none, some 5400000] := by decide +kernel

end MultiMetricEx

/-! Five nodes: 0→1→2→4 and 0→3→4. The arc 2→4 is fast at 17:45, when it takes 10 minutes, and takes 25 minutes at 17:30. There is one
range, from 18:00 to 17:30 on the next day. -/
namespace MultiMetricLater
open MultiMetric

def dip : Plf.Fn := ⟨[0, 63000000, 63900000, 64800000, 86400000], [10800000, 1500000, 600000, 10800000, 10800000]⟩
def graph : TD.Graph := ⟨[0, 2, 3, 4, 5, 5], [1, 3, 2, 4, 4], [0, 1, 2, 3, 8, 9], [0, 0, 0] ++ dip.dt ++ [0], [60000, 1800000, 2640000] ++ dip.tt ++ [1800000]⟩
def orig : FOGraph := ⟨graph.firstOut, graph.head, [0, 0, 0, 0, 0]⟩
def order : NodeOrder := ⟨[0, 1, 2, 3, 4], [0, 1, 2, 3, 4]⟩
def times : List TRange := [⟨64800000, 149400000⟩]

theorem dip_valid : ValidPlf dip.dt dip.tt := by
  refine ⟨rfl, rfl, rfl, Or.inr rfl, by simp [dip], ?_, ?_⟩
  · intro i x y a b hx hy ha hb
    have : i < 4 := by have := (List.getElem?_eq_some_iff.1 hy).1; simp [dip] at this; omega
    rcases (by omega : i = 0 ∨ i = 1 ∨ i = 2 ∨ i = 3) with rfl | rfl | rfl | rfl <;> simp [dip] at hx hy ha hb <;> omega
  · intro i x a hx ha
    have : i < 5 := by have := (List.getElem?_eq_some_iff.1 hx).1; simp [dip] at this; omega
    rcases (by omega : i = 0 ∨ i = 1 ∨ i = 2 ∨ i = 3 ∨ i = 4) with rfl | rfl | rfl | rfl | rfl <;> simp [dip] at hx ha <;> omega

theorem valid : graph.Valid where
  topo := ⟨by decide, rfl, rfl, rfl, FOGraph.mono_of_check (by decide), by decide⟩
  ttf := by
    intro e he
    have hc : ∀ c, c < 2147483647 → ValidPlf [0] [c] := by
      intro c hc
      refine ⟨rfl, rfl, rfl, .inl rfl, by simp, ?_, ?_⟩
      · intro i x y a b hx hy; simp at hy
      · intro i x a hx ha
        match i, hx, ha with
        | 0, hx, ha => cases hx; cases ha; omega
        | n + 1, hx, ha => cases hx
    match e, he with
    | 0, _ => exact ⟨⟨[0], [60000]⟩, by decide +kernel, hc _ (by omega)⟩
    | 1, _ => exact ⟨⟨[0], [1800000]⟩, by decide +kernel, hc _ (by omega)⟩
    | 2, _ => exact ⟨⟨[0], [2640000]⟩, by decide +kernel, hc _ (by omega)⟩
    | 3, _ => exact ⟨dip, by decide +kernel, dip_valid⟩
    | 4, _ => exact ⟨⟨[0], [1800000]⟩, by decide +kernel, hc _ (by omega)⟩
    | n + 5, he => exact absurd he (by simp [graph])

end MultiMetricLater

open MultiMetricLater in
/-- **C67 fails for departures on later days**, in all builds: departing at 17:00 on the second day, the answer is one hour; it takes 55 minutes,
as at 17:00 on the first day. (The departure is reduced to the first day when the ranges are chosen, the times of the labels are not.) -/
theorem C67_later_days_fail : ∃ (c : Cch) (pre : Pre) (mm : MM), build orig order = some c ∧ Pre.new Bits.stdSearch id c 4 times graph none = some pre ∧
    MM.new c 4 pre = some mm ∧ ∀ dbg, ∃ r d st,
      TdAStar.queries 10 5 ⟨false, false⟩ ⟨TD.links graph.firstOut graph.head, fun _ => some .greaterEqFour⟩ (TD.ops (graph.eval Bits.stdSearch))
        (pot dbg MultiMetricEx.sort mm c) (DData.new 5 ()) (St.new 5 7) [(0, 61200000, 4), (0, 61200000 + PERIOD, 4)] = some ([some 3300000, r], d, st) ∧
      r = some 3600000 ∧
      IsEarliest (TimedArc graph.firstOut graph.head graph.Takes) 0 (61200000 + PERIOD) 4 (61200000 + PERIOD + 3300000) := by
  have h : ((build orig order).bind fun c => (Pre.new Bits.stdSearch id c 4 times graph none).bind fun pre => (MM.new c 4 pre).map fun mm =>
      [false, true].map fun dbg => (TdAStar.queries 10 5 ⟨false, false⟩ ⟨TD.links graph.firstOut graph.head, fun _ => some .greaterEqFour⟩
        (TD.ops (graph.eval Bits.stdSearch)) (pot dbg MultiMetricEx.sort mm c) (DData.new 5 ()) (St.new 5 7)
        [(0, 61200000, 4), (0, 61200000 + PERIOD, 4)]).map Prod.fst) = some [some [some 3300000, some 3600000], some [some 3300000, some 3600000]] := by decide +kernel
  simp only [Option.bind_eq_some_iff, Option.map_eq_some_iff] at h
  obtain ⟨c, h1, pre, h2, mm, h3, h4⟩ := h
  refine ⟨c, pre, mm, h1, h2, h3, fun dbg => ?_⟩
  simp only [List.map_cons, List.map_nil, List.cons.injEq, and_true, Option.map_eq_some_iff] at h4
  have hd : (TD.queries graph.firstOut graph.head (graph.eval Bits.stdSearch) (DData.new 5 ()) [(0, 61200000 + PERIOD, 4)]).map Prod.fst = some [some 150900000] := by
    decide +kernel
  have hear : IsEarliest (TimedArc graph.firstOut graph.head graph.Takes) 0 (61200000 + PERIOD) 4 (61200000 + PERIOD + 3300000) := by
    obtain ⟨rs, d, k1, k2⟩ := C47_td_dijkstra Bits.stdSearch_spec.1 valid [(0, 61200000 + PERIOD, 4)] (by decide)
    have k1' : TD.queries graph.firstOut graph.head (graph.eval Bits.stdSearch) (DData.new 5 ()) [(0, 61200000 + PERIOD, 4)] = some (rs, d) := k1
    rw [k1'] at hd
    simp at hd; subst hd
    cases k2 with
    | cons k3 _ => exact ((k3 150900000).1 rfl).1
  obtain ⟨⟨⟨rs, d, st⟩, e1, e2⟩, ⟨⟨rs', d', st'⟩, e3, e4⟩⟩ := h4
  simp only at e2 e4
  subst e2 e4
  cases dbg
  · exact ⟨_, d, st, e1, rfl, hear⟩
  · exact ⟨_, d', st', e3, rfl, hear⟩

end Verif
