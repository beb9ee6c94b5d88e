import Verif.Proof.TdGraph
import Verif.Props.Plf
set_option linter.unusedSimpArgs false
set_option linter.unusedVariables false
/- C47: time-dependent Dijkstra, on predicted travel times and with both kinds of live traffic. C44 for the constructor of graphs. -/
namespace Verif
open Spec

/-- A time-dependent graph with valid travel time functions. -/
structure TD.Graph.Valid (g : TD.Graph) : Prop where
  topo : TD.TopoOK g.firstOut g.head
  ttf : ∀ e, e < g.head.length → ∃ f, g.ttf e = some f ∧ ValidPlf f.dt f.tt

/-- "travelling arc `e` of `g`, departing at `t`, takes `d`": by interpolation between the break points of the arc -/
def TD.Graph.Takes (g : TD.Graph) (e t d : Nat) : Prop := ∃ f, g.ttf e = some f ∧ PlfValue f.dt f.tt (t % PERIOD) d

/-- C44: the constructor turns the arrays of the input files into a graph with valid functions, with the same break points. -/
theorem C44_graph_new {raw : TD.Graph} (ht : TD.TopoOK raw.firstOut raw.head) (h0 : raw.firstIpp[0]? = some 0)
    (hraw : ∀ e, e < raw.head.length → ∃ f, raw.ttf e = some f ∧ RawPlf f)
    (hsmall : raw.dt.length + 2 * raw.head.length < U32) :
    ∃ g, TD.Graph.new raw.firstOut raw.head raw.firstIpp raw.dt raw.tt = some g ∧ g.Valid ∧
      g.firstOut = raw.firstOut ∧ g.head = raw.head ∧
      ∀ e f, e < raw.head.length → raw.ttf e = some f → ∃ f', g.ttf e = some f' ∧
        ∀ (i x a : Nat), f.dt[i]? = some x → f.tt[i]? = some a → f'.dt[i]? = some x ∧ f'.tt[i]? = some a := by
  obtain ⟨g, h1, h2, h3, h4⟩ := TD.new_spec h0 (fun e he => by
    obtain ⟨f, h1, h2⟩ := hraw e he
    obtain ⟨g, h3, _⟩ := C44_normalize h2
    exact ⟨f, g, h1, h3⟩) hsmall
  refine ⟨g, h1, ⟨by rw [h2, h3]; exact ht, ?_⟩, h2, h3, ?_⟩
  · intro e he
    rw [h3] at he
    obtain ⟨f, h5, h6⟩ := hraw e he
    obtain ⟨f', h7, h8, _⟩ := C44_normalize h6
    exact ⟨f', by rw [h4 e f he h5, h7], h8⟩
  · intro e f he hf
    obtain ⟨f0, h5, h6⟩ := hraw e he
    rw [hf] at h5; injection h5 with h5; subst h5
    obtain ⟨f', h7, _, h8⟩ := C44_normalize h6
    exact ⟨f', by rw [h4 e f he hf, h7], h8⟩

/-- the value of arc `e` -/
noncomputable def TD.Graph.val (g : TD.Graph) (e t : Nat) : Nat := ((g.ttf e).map (fun f => Plf.valAt f t)).getD 0

theorem TD.Graph.Valid.ev {g : TD.Graph} (hg : g.Valid) {bs : List Nat → Nat → Lookup} (hb : BinarySearch bs) :
    TD.EvOK g.head.length (g.eval bs) g.val := by
  constructor
  · intro e l he hl
    obtain ⟨f, h1, h2⟩ := hg.ttf e he
    have h3 := Plf.valAt_small hb h2 l
    simp only [TD.Graph.eval, TD.Graph.val, h1, Option.bind_eq_bind, Option.bind_some, Option.map_some, Option.getD_some]
    exact ⟨(Plf.valAt_spec hb h2 l).1, by simp only [INFINITY, U32] at *; omega⟩
  · intro e he
    obtain ⟨f, h1, h2⟩ := hg.ttf e he
    have : g.val e = Plf.valAt f := by funext t; simp [TD.Graph.val, h1]
    rw [this]; exact Plf.valAt_fifo hb h2

theorem TD.timedArc_congr {fo hd : List Nat} {T T' : Nat → Nat → Nat → Prop} (ht : TD.TopoOK fo hd)
    (h : ∀ e t d, e < hd.length → (T e t d ↔ T' e t d)) : TimedArc fo hd T = TimedArc fo hd T' := by
  funext u v f
  apply propext
  constructor
  · rintro ⟨a, b, e, h1, h2, h3, h4, h5, h6⟩
    refine ⟨a, b, e, h1, h2, h3, h4, h5, fun t => ?_⟩
    obtain ⟨d, h7, h8⟩ := h6 t
    exact ⟨d, (h e t d (ht.edge h1 h2 h3 h4)).1 h7, h8⟩
  · rintro ⟨a, b, e, h1, h2, h3, h4, h5, h6⟩
    refine ⟨a, b, e, h1, h2, h3, h4, h5, fun t => ?_⟩
    obtain ⟨d, h7, h8⟩ := h6 t
    exact ⟨d, (h e t d (ht.edge h1 h2 h3 h4)).2 h7, h8⟩

theorem TD.Graph.Valid.arcs {g : TD.Graph} (hg : g.Valid) {bs : List Nat → Nat → Lookup} (hb : BinarySearch bs) :
    TimedArc g.firstOut g.head (fun e t d => d = g.val e t) = TimedArc g.firstOut g.head g.Takes := by
  apply TD.timedArc_congr hg.topo
  intro e t d he
  obtain ⟨f, h1, h2⟩ := hg.ttf e he
  have h3 := (Plf.valAt_spec hb h2 t).2
  constructor
  · rintro rfl; exact ⟨f, h1, by simpa [TD.Graph.val, h1] using h3⟩
  · rintro ⟨f', h4, h5⟩
    rw [h1] at h4; injection h4 with h4; subst h4
    rw [Plf.value_unique h2 h5 h3]; simp [TD.Graph.val, h1]

/-- the data of a server that has answered some queries -/
def TD.ReachableServer (fo hd : List Nat) (ev : Nat → Nat → Option Nat) (d : DData Unit) : Prop :=
  ∃ qs rs, (∀ q ∈ qs, q.1 < fo.length - 1 ∧ q.2.1 < INFINITY) ∧ TD.queries fo hd ev (DData.new (fo.length - 1) ()) qs = some (rs, d)

theorem TD.ReachableServer.refines {fo hd : List Nat} (h : TD.TopoOK fo hd) {ev : Nat → Nat → Option Nat} {val : Nat → Nat → Nat}
    (hev : TD.EvOK hd.length ev val) {d : DData Unit} (hd' : TD.ReachableServer fo hd ev d) : ∃ a, DData.Refines (fo.length - 1) d a := by
  obtain ⟨qs, rs, h1, h2⟩ := hd'
  obtain ⟨rs', d', a, h3, h4, _⟩ := TD.queries_spec h hev qs h1 _ _ (DData.refines_new (fo.length - 1) ())
  rw [h2] at h3
  injection h3 with h3
  injection h3 with _ h3
  exact ⟨a, h3 ▸ h4⟩

/-- **C47.** Every sequence of queries (source, departure, target) to a time-dependent Dijkstra server is answered, without panic or
overflow, and every answer is exactly the earliest arrival, if it is before `INFINITY`. -/
theorem C47_td_dijkstra {bs : List Nat → Nat → Lookup} (hb : BinarySearch bs) {g : TD.Graph} (hg : g.Valid)
    (qs : List (Nat × Nat × Nat)) (hq : ∀ q ∈ qs, q.1 < g.firstOut.length - 1 ∧ q.2.1 < INFINITY) :
    ∃ rs d, TD.queries g.firstOut g.head (g.eval bs) (DData.new (g.firstOut.length - 1) ()) qs = some (rs, d) ∧
      List.Forall₂ (fun q r => ArrivalAnswer (TimedArc g.firstOut g.head g.Takes) q.1 q.2.1 q.2.2 r) qs rs := by
  obtain ⟨rs, d, a, h1, _, h3⟩ := TD.queries_spec hg.topo (hg.ev hb) qs hq _ _ (DData.refines_new _ ())
  rw [hg.arcs hb] at h3
  exact ⟨rs, d, h1, h3⟩

/-- **C47** with a potential (A*) on a server that has answered any queries before: exact if the potential never exceeds travel time
plus the potential of the head, whatever the time, and is undefined only where the target cannot be reached. The reported node path
starts at the source, ends at the target and realises the arrival. -/
theorem C47_td_astar {bs : List Nat → Nat → Lookup} (hb : BinarySearch bs) {g : TD.Graph} (hg : g.Valid)
    {σ : Type} (pot : σ → Nat → Option (σ × Option Nat)) (I : σ → Prop) (π : Nat → Option Nat)
    (hpot : ∀ c v, I c → v < g.firstOut.length - 1 → ∃ c', pot c v = some (c', π v) ∧ I c')
    (hbound : ∀ v x, π v = some x → x < INFINITY)
    (s τ t : Nat) (hs : s < g.firstOut.length - 1) (hτ : τ < INFINITY)
    (hfeas : ∀ u v f pu pv l, TimedArc g.firstOut g.head g.Takes u v f → π u = some pu → π v = some pv → l < INFINITY → l + pu ≤ f l + pv)
    (hreach : ∀ u a x, TWalk (TimedArc g.firstOut g.head g.Takes) u a t x → x < INFINITY → π u ≠ none)
    (c : σ) (hc : I c) (d0 : DData Unit) (hd : TD.ReachableServer g.firstOut g.head (g.eval bs) d0) :
    ∃ r d c', TD.distance g.firstOut g.head (g.eval bs) pot d0 c s τ t = some (r, d, c') ∧ I c' ∧
      ArrivalAnswer (TimedArc g.firstOut g.head g.Takes) s τ t r ∧
      ∀ x, r = some x → ∃ p, d.nodePath s t = some p ∧ p.getLast? = some t ∧ TPathOf (TimedArc g.firstOut g.head g.Takes) s τ p x := by
  obtain ⟨a0, ha0⟩ := hd.refines hg.topo (hg.ev hb)
  rw [← hg.arcs hb] at hfeas hreach ⊢
  obtain ⟨r, d, c', a, h1, h2, h3, h4, h5⟩ := TD.distance_spec hg.topo (hg.ev hb) hpot hbound hs hτ hfeas hreach hc ha0
  refine ⟨r, d, c', h1, h2, h4, fun x hx => ?_⟩
  obtain ⟨ns, h6, h7⟩ := h5 x hx
  exact ⟨_, h6, by simp, h7⟩

/-- live values: one entry per arc, live value plus switch time fit a `u32` -/
structure TD.LiveGraph.Valid (g : TD.LiveGraph) : Prop where
  graph : g.graph.Valid
  len : g.live.length = g.graph.head.length
  small : ∀ l, some l ∈ g.live → l + g.soon < U32

/-- **C47** with live traffic: exact for travel times as given by `LiveTDGraph::eval` (see C46). -/
theorem C47_live {bs : List Nat → Nat → Lookup} (hb : BinarySearch bs) {g : TD.LiveGraph} (hg : g.Valid)
    (qs : List (Nat × Nat × Nat)) (hq : ∀ q ∈ qs, q.1 < g.graph.firstOut.length - 1 ∧ q.2.1 < INFINITY) :
    ∃ rs d, TD.queries g.graph.firstOut g.graph.head (g.eval bs) (DData.new (g.graph.firstOut.length - 1) ()) qs = some (rs, d) ∧
      List.Forall₂ (fun q r => ArrivalAnswer (TimedArc g.graph.firstOut g.graph.head (fun e t d => g.eval bs e t = some d)) q.1 q.2.1 q.2.2 r) qs rs := by
  let val : Nat → Nat → Nat := fun e t => (g.eval bs e t).getD 0
  have key : ∀ e, e < g.graph.head.length → (∀ t, g.eval bs e t = some (val e t)) ∧ (∀ l, l < INFINITY → l + val e l < U32) ∧ Fifo (val e) := by
    intro e he
    obtain ⟨f, h1, h2⟩ := hg.graph.ttf e he
    have hlen : e < g.live.length := by rw [hg.len]; exact he
    have hl : g.live[e]? = some g.live[e] := List.getElem?_eq_getElem hlen
    have hmem := List.getElem_mem hlen
    generalize g.live[e] = lv at hl hmem
    have hev : ∀ t, g.eval bs e t = Plf.evalLive bs f g.soon lv t := by
      intro t; simp only [TD.LiveGraph.eval, h1, hl, Option.bind_eq_bind, Option.bind_some]
    cases lv with
    | none =>
      have hev' : ∀ t, g.eval bs e t = some (Plf.valAt f t) := by
        intro t; rw [hev]
        simp only [Plf.evalLive, (Plf.valAt_spec hb h2 t).1, Option.bind_eq_bind, Option.bind_some, Option.pure_def]
      have hval : val e = Plf.valAt f := by funext t; simp [val, hev']
      rw [hval]
      refine ⟨hev', ?_, Plf.valAt_fifo hb h2⟩
      intro l hl
      have := Plf.valAt_small hb h2 l
      simp only [INFINITY, U32] at *; omega
    | some l =>
      have hls := hg.small l hmem
      have hev' : ∀ t, g.eval bs e t = some (Plf.liveAt f g.soon l t) := by
        intro t; rw [hev, Plf.evalLive_spec hb h2 hls t]
      have hval : val e = Plf.liveAt f g.soon l := by funext t; simp [val, hev']
      rw [hval]
      refine ⟨hev', ?_, Plf.liveAt_fifo hb h2 hls⟩
      intro x hx
      have := Plf.valAt_small hb h2 x
      unfold Plf.liveAt
      simp only [INFINITY, U32] at *
      split
      · omega
      · split <;> omega
  have hev : TD.EvOK g.graph.head.length (g.eval bs) val :=
    ⟨fun e l he hl => ⟨(key e he).1 l, (key e he).2.1 l hl⟩, fun e he => (key e he).2.2⟩
  obtain ⟨rs, d, a, h1, _, h3⟩ := TD.queries_spec hg.graph.topo hev qs hq _ _ (DData.refines_new _ ())
  refine ⟨rs, d, h1, ?_⟩
  rw [TD.timedArc_congr hg.graph.topo (T' := fun e t d => g.eval bs e t = some d)] at h3
  · exact h3
  · intro e t d he
    rw [(key e he).1 t]
    exact ⟨fun h => by rw [h], fun h => by injection h with h; exact h.symm⟩

/-- live values: one entry per arc; switch times are at most `INFINITY` -/
structure TD.PessGraph.Valid (g : TD.PessGraph) : Prop where
  graph : g.graph.Valid
  len : g.live.length = g.graph.head.length
  small : ∀ l soon, some (l, soon) ∈ g.live → soon ≤ INFINITY

/-- **C47** with pessimistic live traffic: exact for travel times as given by `PessimisticLiveTDGraph::eval` (see C46). -/
theorem C47_pessimistic {bs : List Nat → Nat → Lookup} (hb : BinarySearch bs) {g : TD.PessGraph} (hg : g.Valid)
    (qs : List (Nat × Nat × Nat)) (hq : ∀ q ∈ qs, q.1 < g.graph.firstOut.length - 1 ∧ q.2.1 < INFINITY) :
    ∃ rs d, TD.queries g.graph.firstOut g.graph.head (g.eval bs) (DData.new (g.graph.firstOut.length - 1) ()) qs = some (rs, d) ∧
      List.Forall₂ (fun q r => ArrivalAnswer (TimedArc g.graph.firstOut g.graph.head (fun e t d => g.eval bs e t = some d)) q.1 q.2.1 q.2.2 r) qs rs := by
  let val : Nat → Nat → Nat := fun e t => (g.eval bs e t).getD 0
  have key : ∀ e, e < g.graph.head.length → (∀ t, g.eval bs e t = some (val e t)) ∧ (∀ l, l < INFINITY → l + val e l < U32) ∧ Fifo (val e) := by
    intro e he
    obtain ⟨f, h1, h2⟩ := hg.graph.ttf e he
    have hlen : e < g.live.length := by rw [hg.len]; exact he
    have hl : g.live[e]? = some g.live[e] := List.getElem?_eq_getElem hlen
    have hmem := List.getElem_mem hlen
    generalize g.live[e] = lv at hl hmem
    have hev' : ∀ t, g.eval bs e t = some (Plf.pessAt f lv t) := by
      intro t; simp only [TD.PessGraph.eval, h1, hl, Option.bind_eq_bind, Option.bind_some, Plf.evalPess_spec hb h2]
    have hval : val e = Plf.pessAt f lv := by funext t; simp [val, hev']
    have hso : ∀ l soon, lv = some (l, soon) → soon ≤ INFINITY := by
      rintro l soon rfl; exact hg.small l soon hmem
    rw [hval]
    refine ⟨hev', ?_, Plf.pessAt_fifo hb h2 hso⟩
    intro x hx
    have h3 := Plf.valAt_small hb h2 x
    cases lv with
    | none => simp only [Plf.pessAt, INFINITY, U32] at *; omega
    | some p =>
      obtain ⟨l, soon⟩ := p
      have h4 := Plf.valAt_small hb h2 soon
      have h5 := hso l soon rfl
      simp only [Plf.pessAt]
      split
      · simp only [INFINITY, U32] at *; omega
      · rw [Plf.satAdd_val hb h2 h5]
        simp only [INFINITY, U32] at *; omega
  have hev : TD.EvOK g.graph.head.length (g.eval bs) val :=
    ⟨fun e l he hl => ⟨(key e he).1 l, (key e he).2.1 l hl⟩, fun e he => (key e he).2.2⟩
  obtain ⟨rs, d, a, h1, _, h3⟩ := TD.queries_spec hg.graph.topo hev qs hq _ _ (DData.refines_new _ ())
  refine ⟨rs, d, h1, ?_⟩
  rw [TD.timedArc_congr hg.graph.topo (T' := fun e t d => g.eval bs e t = some d)] at h3
  · exact h3
  · intro e t d he
    rw [(key e he).1 t]
    exact ⟨fun h => by rw [h], fun h => by injection h with h; exact h.symm⟩

/-- three nodes; 0→1 has a rush hour at noon, 1→2 and 0→2 are constant -/
def exTD : TD.Graph := ⟨[0, 2, 3, 3], [1, 2, 2], [0, 5, 6, 7], rushHour.dt ++ [0, 0], rushHour.tt ++ [7000000, 1800000]⟩

theorem exTD_valid : exTD.Valid where
  topo := by
    refine ⟨by decide, rfl, rfl, rfl, ?_, by decide⟩
    intro i a b ha hb
    match i, ha, hb with
    | 0, ha, hb => cases ha; cases hb; decide
    | 1, ha, hb => cases ha; cases hb; decide
    | 2, ha, hb => cases ha; cases hb; decide
    | n + 3, ha, hb => cases hb
  ttf := by
    intro e he
    have hc : ∀ c, c < 2147483647 → ValidPlf [0] [c] := by
      intro c hc
      refine ⟨rfl, rfl, rfl, .inl rfl, by simp, ?_, ?_⟩
      · intro i x y a b hx hy; simp at hy
      · intro i x a hx ha
        match i, hx, ha with
        | 0, hx, ha => cases hx; cases ha; omega
        | n + 1, hx, ha => cases hx
    match e, he with
    | 0, _ => exact ⟨rushHour, by decide +kernel, rushHour_valid⟩
    | 1, _ => exact ⟨⟨[0], [7000000]⟩, by decide +kernel, hc _ (by omega)⟩
    | 2, _ => exact ⟨⟨[0], [1800000]⟩, by decide +kernel, hc _ (by omega)⟩
    | n + 3, he => exact absurd he (by simp [exTD])

-- At night the way over node 1 is faster, at noon the direct one.
example : (TD.queries exTD.firstOut exTD.head (exTD.eval Bits.stdSearch) (DData.new 3 ()) [(0, 0, 2), (0, 43200000, 2), (2, 0, 0)]).map Prod.fst
    = some [some 5400000, some 50200000, none] := by decide +kernel

/-- the same with a jam of three hours on 1→2 until 1:00 -/
def exLive : TD.LiveGraph := ⟨exTD, 3600000, [none, none, some 10800000]⟩

example : exLive.Valid := ⟨exTD_valid, rfl, by intro l hl; simp [exLive] at hl; subst hl; decide⟩
example : (TD.queries exTD.firstOut exTD.head (exLive.eval Bits.stdSearch) (DData.new 3 ()) [(0, 0, 2), (1, 3600000, 2), (1, 20000000, 2)]).map Prod.fst
    = some [some 7000000, some 14400000, some 21800000] := by decide +kernel

def exPess : TD.PessGraph := ⟨exTD, [none, none, some (10800000, 3600000)]⟩

example : exPess.Valid := ⟨exTD_valid, rfl, by intro l soon hl; simp [exPess] at hl; obtain ⟨rfl, rfl⟩ := hl; decide⟩
example : (TD.queries exTD.firstOut exTD.head (exPess.eval Bits.stdSearch) (DData.new 3 ()) [(1, 0, 2), (1, 3600000, 2)]).map Prod.fst
    = some [some 5400000, some 5400000] := by decide +kernel

-- the constructor on two arcs, one of them constant
example : TD.Graph.new [0, 2, 2, 2] [1, 2] [0, 2, 3] [0, 43200000, 7] [5, 6, 7]
    = some ⟨[0, 2, 2, 2], [1, 2], [0, 3, 4], [0, 43200000, PERIOD, 0], [5, 6, 5, 7]⟩ := by decide +kernel

end Verif
