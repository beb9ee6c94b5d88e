import Verif.Proof.FlTdGraph
import Verif.Spec.FlTdGraph
set_option linter.unusedSimpArgs false
set_option linter.unusedVariables false
/- C80: the graphs of CATCHUp are built from the same files as the graphs in milliseconds, and have the same roads. -/
namespace Verif
open Spec Fl FlTd
open Catchup (INF)

/-- Input files from which graphs can be built: valid adjacency arrays, and for each arc break points within the day from time 0 on that keep FIFO. -/
structure RawInput (raw : TD.Graph) : Prop where
  topo : TD.TopoOK raw.firstOut raw.head
  first : raw.firstIpp[0]? = some 0
  arcs : ∀ e, e < raw.head.length → ∃ f, raw.ttf e = some f ∧ RawPlf f
  small : raw.dt.length + 2 * raw.head.length < U32

/-- `roads` are the roads of the input, in seconds, and travel times in milliseconds (`g`) are theirs, rounded down. -/
structure SameRoads (raw g : TD.Graph) (roads : List (Nat × Nat × (Rat → Rat))) : Prop where
  topo : g.firstOut = raw.firstOut ∧ g.head = raw.head
  points : ∀ (e : Nat) (r : Nat × Nat × (Rat → Rat)) (f : Plf.Fn) (i x a : Nat), roads[e]? = some r → raw.ttf e = some f → f.dt[i]? = some x → f.tt[i]? = some a →
    r.2.2 ((x : Rat) / 1000) = (a : Rat) / 1000
  rounded : ∀ (e : Nat) (r : Nat × Nat × (Rat → Rat)) (τ d : Nat), roads[e]? = some r → g.Takes e τ d →
    (d : Rat) ≤ 1000 * r.2.2 ((τ : Rat) / 1000) ∧ 1000 * r.2.2 ((τ : Rat) / 1000) < d + 1

/-- **C80.** From the same input files, the constructors of both kinds of time-dependent graphs yield graphs with valid travel time functions for the same
roads: the functions of CATCHUp's graph go exactly through the break points of the input, and travel times in milliseconds are theirs, rounded down.
Partial: exact arithmetic. -/
theorem C80_same_roads_partial {raw : TD.Graph} (h : RawInput raw) :
    ∃ g G roads, TD.Graph.new raw.firstOut raw.head raw.firstIpp raw.dt raw.tt = some g ∧
      FlTd.Graph.new raw.firstOut raw.head raw.firstIpp raw.dt raw.tt = some G ∧ g.Valid ∧ G.firstOut = raw.firstOut ∧ G.head = raw.head ∧
      GraphOK G roads ∧ SameRoads raw g roads := by
  obtain ⟨g, h1, h2, h3, h4, h5⟩ := C44_graph_new h.topo h.first h.arcs h.small
  have hlen : g.head.length = raw.head.length := by rw [h4]
  obtain ⟨roads, r1, r2⟩ := choose_list (P := fun e (r : Nat × Nat × (Rat → Rat)) =>
      (∃ (a b : Nat), g.firstOut[r.1]? = some a ∧ g.firstOut[r.1 + 1]? = some b ∧ a ≤ e ∧ e < b) ∧ g.head[e]? = some r.2.1 ∧
        ∃ f, g.ttf e = some f ∧ ValidPlf f.dt f.tt ∧ r.2.2 = fn (points f.dt f.tt)) g.head.length (by
    intro e he
    obtain ⟨u, a, b, k1, k2, k3, k4⟩ := edge_tail h2.topo he
    obtain ⟨f, f1, f2⟩ := h2.ttf e he
    exact ⟨(u, g.head[e], fn (points f.dt f.tt)), ⟨a, b, k1, k2, k3, k4⟩, List.getElem?_eq_getElem he, f, f1, f2, rfl⟩)
  refine ⟨g, ⟨g.firstOut, g.head, g.firstIpp, points g.dt g.tt⟩, roads, h1, by simp [FlTd.Graph.new, h1], h2, h3, h4, ⟨h2.topo, r1, ?_⟩, ⟨h3, h4⟩, ?_, ?_⟩
  · intro e r hr
    obtain ⟨k1, k2, f, f1, f2, f3⟩ := r2 e r hr
    refine ⟨k1, k2, points f.dt f.tt, ttf_points f1, valid_points f2, fun τ => ?_⟩
    rw [fn_iff (valid_points f2), f3]
  · intro e r f i x a hr hf hx ha
    obtain ⟨_, k2, f', f1, f2, f3⟩ := r2 e r hr
    have he : e < raw.head.length := by rw [← hlen]; exact (List.getElem?_eq_some_iff.1 k2).1
    obtain ⟨f'', g1, g2⟩ := h5 e f he hf
    rw [f1] at g1; cases g1
    obtain ⟨f0, g3, g4⟩ := h.arcs e he
    rw [hf] at g3; cases g3
    obtain ⟨g5, g6⟩ := g2 i x a hx ha
    rw [f3]
    exact ((fn_iff (valid_points f2)).1 (at_point f2 g5 g6 (g4.within x (List.mem_iff_getElem?.2 ⟨i, hx⟩)))).symm
  · intro e r τ d hr hd
    obtain ⟨_, k2, f, f1, f2, f3⟩ := r2 e r hr
    obtain ⟨f', g1, g2⟩ := hd
    rw [f1] at g1; cases g1
    exact FlTd.rounded f2 g2 (by rw [fn_iff (valid_points f2), f3])

/-- A trip in seconds has a counterpart in milliseconds that does not arrive later. -/
theorem trip_ms {bs : List Nat → Nat → Lookup} (hb : BinarySearch bs) {raw g : TD.Graph} {G : FlTd.Graph} {roads : List (Nat × Nat × (Rat → Rat))} (hg : g.Valid)
    (hG : GraphOK G roads) (hfo : G.firstOut = g.firstOut) (hhd : G.head = g.head) (hs : SameRoads raw g roads) {s t : Nat} {y z : Rat}
    (ht : Trip (roadNet roads) s y t z) : ∀ (τ : Nat), (τ : Rat) ≤ 1000 * y → ∃ x : Nat, TWalk (TimedArc g.firstOut g.head g.Takes) s τ t x ∧ (x : Rat) ≤ 1000 * z := by
  induction ht with
  | here v y => exact fun τ hτ => ⟨τ, .nil, hτ⟩
  | @there u v w y y' z hr _ ih =>
    intro τ hτ
    obtain ⟨r, hm, rfl, rfl, rfl⟩ := hr
    obtain ⟨e, he⟩ := List.mem_iff_getElem?.1 hm
    obtain ⟨⟨a, b, k1, k2, k3, k4⟩, k5, p, p1, p2, p3⟩ := hG.road e r he
    have hel : e < g.head.length := by rw [← hhd]; exact (List.getElem?_eq_some_iff.1 k5).1
    obtain ⟨f, f1, f2⟩ := hg.ttf e hel
    have htk : ∀ t, g.Takes e t (Plf.valAt f t) := fun t => ⟨f, f1, (Plf.valAt_spec hb f2 t).2⟩
    have hτ' : (τ : Rat) / 1000 ≤ y := by linarith
    have hfi := fifo p2 (p3 ((τ : Rat) / 1000)) (p3 y) hτ'
    have hro := (hs.rounded e r τ _ he (htk τ)).1
    obtain ⟨x, x1, x2⟩ := ih (τ + Plf.valAt f τ) (by push_cast; linarith)
    refine ⟨x, TWalk.cons (f := fun t => t + Plf.valAt f t) ?_ x1, x2⟩
    exact ⟨a, b, e, hfo ▸ k1, hfo ▸ k2, k3, k4, hhd ▸ k5, fun t => ⟨_, htk t, rfl⟩⟩

/-- The answer `r` (an arrival in milliseconds) to the query `q` (source, departure in milliseconds, target) is not later than what the search on `G` answers,
whatever it did before, if that is before `INFINITY`. -/
def NotLater (bs : Search) (G : FlTd.Graph) (q : Nat × Nat × Nat) (r : Option Nat) : Prop :=
  ∀ S fuel, G.n + 1 ≤ fuel → ∃ x S', FlTd.distance bs 0 G fuel S q.1 q.2.2 ((q.2.1 : Rat) / 1000) = some (x, S') ∧
    ∀ d, x = some d → 1000 * ((q.2.1 : Rat) / 1000 + d) < INFINITY → ∃ y : Nat, r = some y ∧ (y : Rat) ≤ 1000 * ((q.2.1 : Rat) / 1000 + d)

/-- **C80, queries.** Where Dijkstra in seconds finds a way, Dijkstra in milliseconds on the graph from the same files finds one as well, if it arrives before
`INFINITY`, and its answer, rounded, is never later. Partial: exact arithmetic for the search in seconds. -/
theorem C80_never_later_partial {raw : TD.Graph} (h : RawInput raw) {bs : List Nat → Nat → Lookup} (hb : BinarySearch bs) {bs' : Search} (hbs : SearchBy bs')
    (qs : List (Nat × Nat × Nat)) (hq : ∀ q ∈ qs, q.1 < raw.firstOut.length - 1 ∧ q.2.1 < INFINITY) :
    ∃ g G rs d, TD.Graph.new raw.firstOut raw.head raw.firstIpp raw.dt raw.tt = some g ∧
      FlTd.Graph.new raw.firstOut raw.head raw.firstIpp raw.dt raw.tt = some G ∧
      TD.queries g.firstOut g.head (g.eval bs) (DData.new (g.firstOut.length - 1) ()) qs = some (rs, d) ∧
      List.Forall₂ (NotLater bs' G) qs rs := by
  obtain ⟨g, G, roads, h1, h2, h3, h4, h5, h6, h7⟩ := C80_same_roads_partial h
  obtain ⟨rs, d, h8, h9⟩ := C47_td_dijkstra hb h3 qs (by rw [h7.topo.1]; exact hq)
  refine ⟨g, G, rs, d, h1, h2, h8, ?_⟩
  have key : ∀ (qs : List (Nat × Nat × Nat)) (rs : List (Option Nat)), (∀ q ∈ qs, q.1 < raw.firstOut.length - 1 ∧ q.2.1 < INFINITY) →
      List.Forall₂ (fun q r => ArrivalAnswer (TimedArc g.firstOut g.head g.Takes) q.1 q.2.1 q.2.2 r) qs rs →
      List.Forall₂ (NotLater bs' G) qs rs := by
    intro qs rs hq hF
    induction hF with
    | nil => exact .nil
    | @cons q r qs rs hqr _ ih =>
      refine .cons ?_ (ih (fun q hq' => hq q (by simp [hq'])))
      obtain ⟨q1, q2⟩ := hq q (by simp)
      intro S fuel hfuel
      have hI : (q.2.1 : Rat) / 1000 < INF := by
        have : (q.2.1 : Rat) < INFINITY := by exact_mod_cast q2
        simp only [INF, INFINITY] at *
        push_cast at this
        linarith
      obtain ⟨x, S', e1, _, e3⟩ := C78_exact_partial hbs h6 S (s := q.1) (t := q.2.2) (by rw [FlTd.Graph.n, h4]; exact q1) hI hfuel
      refine ⟨x, S', e1, ?_⟩
      intro d hd hfin
      obtain ⟨⟨ht, _⟩, _, _⟩ := e3 d hd
      obtain ⟨w, w1, w2⟩ := trip_ms hb h3 h6 (h4.trans h7.topo.1.symm) (h5.trans h7.topo.2.symm) h7 ht q.2.1 (by linarith)
      -- the earliest arrival exists, as times are natural numbers
      have hex : ∃ y, IsEarliest (TimedArc g.firstOut g.head g.Takes) q.1 q.2.1 q.2.2 y ∧ y ≤ w := by
        classical
        let P := fun y => TWalk (TimedArc g.firstOut g.head g.Takes) q.1 q.2.1 q.2.2 y
        have hP : ∃ y, P y := ⟨w, w1⟩
        exact ⟨Nat.find hP, ⟨Nat.find_spec hP, fun a ha => Nat.find_min' hP ha⟩, Nat.find_min' hP w1⟩
      obtain ⟨y, y1, y2⟩ := hex
      have y3 : (y : Rat) ≤ w := by exact_mod_cast y2
      refine ⟨y, (hqr y).2 ⟨y1, ?_⟩, by linarith⟩
      have : (y : Rat) < INFINITY := by linarith
      exact_mod_cast this
  exact key qs rs hq h9

/-- **C80, paths.** Along connected roads, `get_path_with_times` yields the nodes with the times at which one is there. Partial: exact arithmetic. -/
theorem C80_path_with_times_partial {bs : Search} (hbs : SearchBy bs) {G : FlTd.Graph} {roads : List (Nat × Nat × (Rat → Rat))} (hG : GraphOK G roads)
    (tail : Nat → Option Nat) (htail : ∀ (e : Nat) (r : Nat × Nat × (Rat → Rat)), roads[e]? = some r → tail e = some r.1) (dep : Rat) {u : Nat} {es : List Nat}
    (hc : Connected roads u es) (hne : es ≠ []) : ∃ P, pathWithTimes tail bs 0 G dep es = some P ∧ DriveAlong roads u dep es P := by
  have key : ∀ {u : Nat} {es : List Nat}, Connected roads u es → ∀ a, ∃ P, timesLoop G.head (G.time bs 0) es a = some P ∧ DriveAlong roads u a es ((u, a) :: P) := by
    intro u es hc
    induction hc with
    | nil u => exact fun a => ⟨[], rfl, .stop u a⟩
    | @cons e r es he _ ih =>
      intro a
      obtain ⟨_, k5, p, p1, p2, p3⟩ := hG.road e r he
      obtain ⟨y, y1, _, y3⟩ := C72_evaluate_partial hbs p2 a
      have hy := (y3 _).1 (p3 a)
      obtain ⟨P, P1, P2⟩ := ih (a + y)
      refine ⟨(r.2.1, a + y) :: P, ?_, ?_⟩
      · simp only [timesLoop, FlTd.Graph.time, p1, k5, Option.bind_eq_bind, Option.bind_some, y1, Option.pure_def]
        rw [P1]; rfl
      · exact .step he (by rw [hy]; exact P2)
  cases hc with
  | nil => exact absurd rfl hne
  | @cons e r es he hc =>
    obtain ⟨P, P1, P2⟩ := key (.cons he hc) dep
    refine ⟨(r.1, dep) :: P, ?_, P2⟩
    simp only [pathWithTimes, List.getElem?_cons_zero, Option.bind_eq_bind, Option.bind_some, htail e r he, P1, Option.pure_def]

namespace FlTdGraphExample

/-- three nodes, a road with a rush hour and two with constant travel times, as in the files -/
def raw : TD.Graph := ⟨[0, 2, 3, 3], [1, 2, 2], [0, 4, 5, 6], [0, 36000000, 43200000, 54000000, 0, 0], [3600000, 3600001, 7200000, 3600000, 7000000, 1800000]⟩

theorem const_ok (c : Nat) (hc : c < 100000000) : RawPlf ⟨[0], [c]⟩ where
  len := rfl
  zero := rfl
  mono := by simp
  within := by simp [PERIOD]
  fifo := by intro i x y a b _ hy; simp at hy
  wrap := by
    intro x a c' h1 h2 h3
    simp at h1 h2 h3
    simp only [PERIOD]; omega
  small := by
    intro a ha
    simp at ha
    simp only [PERIOD]; omega

theorem raw_ok : RawInput raw where
  topo := by
    refine ⟨by decide, rfl, rfl, rfl, ?_, by decide⟩
    intro i a b ha hb
    match i, ha, hb with
    | 0, ha, hb => cases ha; cases hb; decide
    | 1, ha, hb => cases ha; cases hb; decide
    | 2, ha, hb => cases ha; cases hb; decide
    | n + 3, ha, hb => cases hb
  first := rfl
  arcs := by
    intro e he
    match e, he with
    | 0, _ =>
      refine ⟨⟨[0, 36000000, 43200000, 54000000], [3600000, 3600001, 7200000, 3600000]⟩, by decide +kernel, rfl, rfl, by simp, by simp [PERIOD], ?_, ?_, by simp [PERIOD]⟩
      · intro i x y a b hx hy ha hb
        have : i < 3 := by have := (List.getElem?_eq_some_iff.1 hy).1; simp at this; omega
        rcases (by omega : i = 0 ∨ i = 1 ∨ i = 2) with rfl | rfl | rfl <;> simp at hx hy ha hb <;> omega
      · intro x a c h1 h2 h3
        simp at h1 h2 h3
        simp only [PERIOD]; omega
    | 1, _ => exact ⟨⟨[0], [7000000]⟩, by decide +kernel, const_ok _ (by omega)⟩
    | 2, _ => exact ⟨⟨[0], [1800000]⟩, by decide +kernel, const_ok _ (by omega)⟩
    | n + 3, he => exact absurd he (by simp [raw])
  small := by decide

end FlTdGraphExample

open FlTdGraphExample in
example : ∃ g G roads, TD.Graph.new raw.firstOut raw.head raw.firstIpp raw.dt raw.tt = some g ∧
    FlTd.Graph.new raw.firstOut raw.head raw.firstIpp raw.dt raw.tt = some G ∧ GraphOK G roads ∧ SameRoads raw g roads := by
  obtain ⟨g, G, roads, h1, h2, _, _, _, h3, h4⟩ := C80_same_roads_partial raw_ok
  exact ⟨g, G, roads, h1, h2, h3, h4⟩

-- at 11:06:40 the road takes 1 h 33 min 20.0003… s; in milliseconds this is rounded down
open FlTdGraphExample in
example : ((FlTd.Graph.new raw.firstOut raw.head raw.firstIpp raw.dt raw.tt).bind (fun G => G.time FlPlfExample.linear 0 0 40000),
    (TD.Graph.new raw.firstOut raw.head raw.firstIpp raw.dt raw.tt).bind (fun g => g.eval Bits.stdSearch 0 40000000)) = (some (50400004 / 9000), some 5600000) := by
  decide +kernel

open FlTdGraphExample in
example : (FlTd.Graph.new raw.firstOut raw.head raw.firstIpp raw.dt raw.tt).bind (fun G => pathWithTimes (fun e => [0, 0, 1][e]?) FlPlfExample.linear 0 G 0 [0, 2]) =
    some [(0, 0), (1, 3600), (2, 5400)] := by
  decide +kernel

end Verif
