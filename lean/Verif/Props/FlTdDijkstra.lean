import Verif.Proof.FlTdDijkstra
import Verif.Props.Ftd
/- C78: Dijkstra on the time-dependent graphs of CATCHUp, in exact arithmetic. -/
set_option linter.unusedSimpArgs false
set_option linter.unusedVariables false
namespace Verif
open Spec Fl Ftd
open Catchup (INF)

namespace FlTd

theorem net_ok {g : Graph} {roads : List (Nat × Nat × (Rat → Rat))} (hg : GraphOK g roads) : NoOvertaking (roadNet roads) := by
  have hro : ∀ r ∈ roads, ∃ p, ValidTtf p ∧ ∀ t, r.2.2 t = fn p t := by
    intro r h
    obtain ⟨e, he⟩ := List.mem_iff_getElem?.1 h
    obtain ⟨_, _, p, _, q2, q3⟩ := hg.road e r he
    exact ⟨p, q2, fun t => (fn_iff q2).1 (q3 t)⟩
  constructor
  · rintro u v τ y ⟨r, h, rfl, rfl, rfl⟩
    obtain ⟨p, q1, q2⟩ := hro r h
    rw [q2]; linarith [fn_nonneg q1 τ]
  · rintro u v τ y τ' ⟨r, h, rfl, rfl, rfl⟩ hle
    obtain ⟨p, q1, q2⟩ := hro r h
    refine ⟨τ' + r.2.2 τ', ?_, r, h, rfl, rfl, rfl⟩
    rw [q2, q2]; exact fn_fifo q1 hle

theorem env_ok {bs : Search} (hbs : SearchBy bs) {g : Graph} {roads : List (Nat × Nat × (Rat → Rat))} (hg : GraphOK g roads) :
    Env g.n (TD.links g.firstOut g.head) (g.time bs 0) (roadNet roads) := by
  have htime : ∀ (e : Nat) (r : Nat × Nat × (Rat → Rat)), roads[e]? = some r → ∀ τ, g.time bs 0 e τ = some (r.2.2 τ) ∧ 0 ≤ r.2.2 τ := by
    intro e r he τ
    obtain ⟨_, _, p, q1, q2, q3⟩ := hg.road e r he
    obtain ⟨y, h1, h2, h3⟩ := C72_evaluate_partial hbs q2 τ
    have := (h3 _).1 (q3 τ)
    rw [this]
    exact ⟨by simp only [Graph.time, q1, Option.bind_eq_bind, Option.bind_some, h1], h2⟩
  refine ⟨fun u hu => hg.topo.total hu, ?_, ?_, net_ok hg⟩
  · intro u ls hls w e hm
    obtain ⟨a, b, h1, h2, h3, h4, h5⟩ := (TD.mem_links hls w e).1 hm
    have hel : e < g.head.length := (List.getElem?_eq_some_iff.1 h5).1
    obtain ⟨r, hr⟩ : ∃ r, roads[e]? = some r := ⟨roads[e]'(by rw [hg.len]; exact hel), List.getElem?_eq_getElem _⟩
    obtain ⟨⟨a', b', g1, g2, g3, g4⟩, g5, _⟩ := hg.road e r hr
    have hw : r.2.1 = w := by rw [g5] at h5; injection h5
    have hu : r.1 = u := by
      have mono : ∀ (i j a b : Nat), i ≤ j → g.firstOut[i]? = some a → g.firstOut[j]? = some b → a ≤ b := fun i j a b h h1 h2 => hg.topo.mono' h h1 h2
      rcases Nat.lt_trichotomy r.1 u with h | h | h
      · have := mono (r.1 + 1) u _ _ h g2 h1; omega
      · exact h
      · have := mono (u + 1) r.1 _ _ h h2 g1; omega
    refine ⟨hg.topo.heads w (List.mem_iff_getElem?.2 ⟨e, h5⟩), fun τ => ?_⟩
    obtain ⟨q1, q2⟩ := htime e r hr τ
    exact ⟨_, q1, q2, r, List.mem_iff_getElem?.2 ⟨e, hr⟩, hu, hw, rfl⟩
  · rintro u w τ y ⟨r, hr, rfl, rfl, rfl⟩
    obtain ⟨e, he⟩ := List.mem_iff_getElem?.1 hr
    obtain ⟨⟨a, b, g1, g2, g3, g4⟩, g5, _⟩ := hg.road e r he
    have hu : r.1 < g.firstOut.length - 1 := by have := (List.getElem?_eq_some_iff.1 g2).1; omega
    obtain ⟨ls, hls⟩ := hg.topo.total hu
    exact ⟨ls, e, _, hls, (TD.mem_links hls _ e).2 ⟨a, b, g1, g2, g3, g4, g5⟩, (htime e r he τ).1, rfl⟩

end FlTd
open FlTd

/-- Dijkstra returns the travel time of the earliest arrival before the end of time, and nothing iff there is none; its path is a drive without waiting that
leaves at the departure and arrives then. The state left behind by earlier queries (`S`) does not matter. Partial: exact arithmetic. -/
theorem C78_exact_partial {bs : Search} (hbs : SearchBy bs) {g : Graph} {roads : List (Nat × Nat × (Rat → Rat))} (hg : GraphOK g roads) (S : State) {s t : Nat}
    (hs : s < g.n) {dep : Rat} (hI : dep < INF) {fuel : Nat} (hf : g.n + 1 ≤ fuel) :
    ∃ d S', distance bs 0 g fuel S s t dep = some (d, S') ∧ (d = none ↔ ¬ ∃ y, Trip (roadNet roads) s dep t y ∧ y < INF) ∧
      ∀ x, d = some x → EarliestTrip (roadNet roads) s dep t (dep + x) ∧ dep + x < INF ∧
        ∃ P, path g.n S' fuel s t = some P ∧ Drive (roadNet roads) s dep P t (dep + x) := by
  have hE := env_ok hbs hg
  obtain ⟨s0, h1, h2, h3⟩ := begin_ok (R := roadNet roads) hs hI S
  obtain ⟨d, S', h4, h5⟩ := loop_ok hE hI (t := t) fuel s0 [] h2 h3 (by simp) (by simp; omega)
  refine ⟨d.map (· - dep), S', by simp only [distance, h1, Option.bind_eq_bind, Option.bind_some, h4, Option.pure_def], ?_, ?_⟩
  · rcases h5 with ⟨rfl, h6⟩ | ⟨D', rfl, h6, h7, h8⟩
    · simp only [Option.map_none, true_iff]
      rintro ⟨y, a, b⟩; exact absurd (h6 y a) (not_le.2 b)
    · constructor
      · intro h; simp at h
      · intro h; exact absurd ⟨_, h8.1, h6.fin t h7⟩ h
  · intro x hx
    rcases h5 with ⟨rfl, h6⟩ | ⟨D', rfl, h6, h7, h8⟩
    · simp at hx
    · simp only [Option.map_some, Option.some.injEq] at hx
      subst hx
      have e : dep + (S'.dist t - dep) = S'.dist t := by linarith
      rw [e]
      exact ⟨h8, h6.fin t h7, path_ok hE hI h6 h7 (by omega)⟩

/-- `ranks` calls back with the nodes of rank 1, 2, 4, … in this order, with their earliest arrivals: the nodes that can be reached, ordered by arrival, are
the `order` below, and call `k` has its entry `2 ^ k`. Partial: exact arithmetic. -/
theorem C78_ranks_partial {bs : Search} (hbs : SearchBy bs) {g : Graph} {roads : List (Nat × Nat × (Rat → Rat))} (hg : GraphOK g roads) (S : State) {s : Nat}
    (hs : s < g.n) {dep : Rat} (hI : dep < INF) {fuel : Nat} (hf : g.n + 1 ≤ fuel) :
    ∃ (L : List (Nat × Rat × Nat)) (order : List (Nat × Rat)), ranks bs 0 g fuel S s dep = some L ∧ (order.map (·.1)).Nodup ∧ order.Pairwise (fun a b => a.2 ≤ b.2) ∧
      (∀ x y, (x, y) ∈ order ↔ EarliestTrip (roadNet roads) s dep x y ∧ y < INF) ∧
      ∀ (k x : Nat) (y : Rat) (r : Nat), L[k]? = some (x, y, r) ↔ r = k ∧ order[2 ^ k - 1]? = some (x, y) := by
  have hE := env_ok hbs hg
  obtain ⟨s0, h1, h2, h3⟩ := begin_ok (R := roadNet roads) hs hI S
  obtain ⟨O, g1, g2, g3, g4, g5, g6⟩ := ranksLoop_ok hE hI fuel s0 [] h2 h3 (by simp; omega)
  refine ⟨_, O, by simp only [ranks, h1, Option.bind_eq_bind, Option.bind_some]; exact g1, g3, g4, ?_, ?_⟩
  · intro x y
    constructor
    · intro h; obtain ⟨_, a, b, _⟩ := g2 _ h; exact ⟨a, b⟩
    · rintro ⟨a, b⟩
      rcases g5 x y a.1 b with h | h
      · exact absurd h (by simp)
      · obtain ⟨⟨x', y'⟩, hm, e⟩ := List.mem_map.1 h
        simp only at e; subst e
        obtain ⟨_, a', _⟩ := g2 _ hm
        have : y = y' := le_antisymm (a.2 _ a'.1) (a'.2 _ a.1)
        rw [this]; exact hm
  · intro k x y r
    have hn : g.n < 2 ^ 63 := by
      have := hg.topo.small.1
      have e : U32 - 1 < 2 ^ 63 := by decide
      simp only [Graph.n]; simp only at this; omega
    have := calls_get O 0 0 (by decide) (by decide) (by simp only [List.length_nil] at g6; omega) k x y r
    simp only [Nat.zero_add, Nat.sub_zero] at this
    exact this

namespace FlTd

/-- the roads with the nodes numbered by rank -/
def ranked (rank : Nat → Nat) (roads : List (Nat × Nat × (Rat → Rat))) : List (Nat × Nat × (Rat → Rat)) := roads.map (fun r => (rank r.1, rank r.2.1, r.2.2))

theorem trip_to {rank : Nat → Nat} {roads : List (Nat × Nat × (Rat → Rat))} {u w : Nat} {τ z : Rat} (h : Trip (roadNet roads) u τ w z) :
    Trip (roadNet (ranked rank roads)) (rank u) τ (rank w) z := by
  induction h with
  | here => exact .here _ _
  | there hr _ ih =>
    obtain ⟨r, h, rfl, rfl, rfl⟩ := hr
    exact .there ⟨_, List.mem_map.2 ⟨r, h, rfl⟩, rfl, rfl, rfl⟩ ih

theorem trip_from {rank : Nat → Nat} {roads : List (Nat × Nat × (Rat → Rat))} (hr : ∀ u v, rank u = rank v → u = v) {u' w' : Nat} {τ z : Rat}
    (h : Trip (roadNet (ranked rank roads)) u' τ w' z) : ∀ u, u' = rank u → ∃ w, w' = rank w ∧ Trip (roadNet roads) u τ w z := by
  induction h with
  | here v τ => intro u e; exact ⟨u, e, .here _ _⟩
  | there h _ ih =>
    intro u e
    obtain ⟨r', h0, h1, h2, h3⟩ := h
    obtain ⟨r, hm, rfl⟩ := List.mem_map.1 h0
    obtain rfl : r.1 = u := hr _ _ (h1.trans e)
    obtain ⟨w, a, b⟩ := ih _ h2.symm
    exact ⟨w, a, .there ⟨r, hm, rfl, rfl, h3⟩ b⟩

theorem trip_iff {rank : Nat → Nat} {roads : List (Nat × Nat × (Rat → Rat))} (hr : ∀ u v, rank u = rank v → u = v) {u w : Nat} {τ z : Rat} :
    Trip (roadNet (ranked rank roads)) (rank u) τ (rank w) z ↔ Trip (roadNet roads) u τ w z := by
  refine ⟨fun h => ?_, trip_to⟩
  obtain ⟨w', a, b⟩ := trip_from hr h u rfl
  rw [hr _ _ a]; exact b

theorem earliest_iff {rank : Nat → Nat} {roads : List (Nat × Nat × (Rat → Rat))} (hr : ∀ u v, rank u = rank v → u = v) {u w : Nat} {τ z : Rat} :
    EarliestTrip (roadNet (ranked rank roads)) (rank u) τ (rank w) z ↔ EarliestTrip (roadNet roads) u τ w z := by
  simp only [EarliestTrip, trip_iff hr]

end FlTd

/-- CATCHUp agrees with Dijkstra: with a hierarchy customized for the roads of the graph, for every query that Dijkstra answers with an arrival at least the tolerance
before the end of time, CATCHUp returns the same travel time, and if there is no way at all, both return nothing. `rank`: the node order of the hierarchy. Partial: as in
`C76_exact_partial`. -/
theorem C78_catchup_agrees_partial {c : Cfg} (hbs : SearchBy c.bs) (htl : c.tl = Tol.exact) (hsrt : ∀ k l, (c.srt k l).Perm l) {arcs : List (Nat × Nat)}
    {n : Nat} {parent : Nat → Option Nat} (hT : HierarchyOK arcs n parent) {g : Graph} {roads : List (Nat × Nat × (Rat → Rat))} (hg : GraphOK g roads) (hn : g.n = n) {rank : Nat → Nat}
    (hinj : ∀ u v, rank u = rank v → u = v) (hrank : ∀ u, u < n → rank u < n) {fwd bwd : List (List Nat)} (hr : RoadsOK (ranked rank roads) c.ttf arcs fwd bwd)
    (hpre : PreReady c.pre c.ttf arcs fwd bwd) :
    ∃ G, Ftd.customize c arcs n parent fwd bwd = some G ∧ ∀ {eps : Rat}, 0 < eps → ∀ {S : Catchup.Server}, Catchup.Used G eps S → ∀ (S₂ : State) {s t : Nat}, s < n → t < n →
      ∀ {dep : Rat}, 0 ≤ dep → dep < INF → ∀ {fuel : Nat}, Catchup.enough G ≤ fuel → n + 1 ≤ fuel →
      ∃ d S' d₂ S₂', Catchup.distance false eps G n fuel S (rank s) (rank t) dep = some (d, S') ∧ distance c.bs 0 g fuel S₂ s t dep = some (d₂, S₂') ∧
        ((¬ ∃ y, Trip (roadNet roads) s dep t y) → d = none ∧ d₂ = none) ∧ ∀ x, d₂ = some x → dep + x + eps < INF → d = some x := by
  obtain ⟨G, h1, h2⟩ := C76_exact_partial hbs htl hsrt hT hr hpre
  refine ⟨G, h1, ?_⟩
  intro eps he S hU S₂ s t hs ht dep hd hI fuel hf hf'
  obtain ⟨d, S', h3, h4, h5⟩ := h2 he hU (hrank s hs) (hrank t ht) hd hI hf
  obtain ⟨d₂, S₂', h6, h7, h8⟩ := C78_exact_partial hbs hg S₂ (t := t) (by rw [hn]; exact hs) hI (fuel := fuel) (by rw [hn]; exact hf')
  refine ⟨d, S', d₂, S₂', h3, h6, ?_, ?_⟩
  · intro h
    refine ⟨h4 ?_, h7.2 ?_⟩
    · rintro ⟨y, hy⟩; exact h ⟨y, (trip_iff hinj).1 hy⟩
    · rintro ⟨y, hy, _⟩; exact h ⟨y, hy⟩
  · intro x hx hxe
    obtain ⟨a, b, _⟩ := h8 x hx
    obtain ⟨Y, c1, c2⟩ := h5 ⟨_, (trip_iff hinj).2 a.1⟩
    have c1 := (earliest_iff hinj).1 c1
    have : Y = dep + x := le_antisymm (c1.2 _ a.1) (a.2 _ c1.1)
    rw [c2 (by rw [this]; exact hxe), this]
    congr 1; linarith

namespace FlTdExample
open FlPlfExample

/-- from 0 to 1, from 0 to 2 (slow in the morning), from 1 to 2, from 2 to 2, 3 cannot be reached -/
def functions : List (List Pt) := [[⟨0, 2⟩], [⟨0, 20⟩, ⟨1000, 5⟩, ⟨86400, 20⟩], [⟨0, 10⟩], [⟨0, 0⟩]]
def g : Graph := ⟨[0, 2, 3, 4, 4], [1, 2, 2, 2], [0, 1, 4, 5, 6], functions.flatten⟩
def time (e : Nat) (τ : Rat) : Rat := ((functions[e]?).bind (fun f => evaluate linear 0 f τ)).getD INF
def roads : List (Nat × Nat × (Rat → Rat)) := [(0, 1, time 0), (0, 2, time 1), (1, 2, time 2), (2, 2, time 3)]

theorem graph_ok : GraphOK g roads := by
  have key : ∀ e f, g.ttf e = some f → functions[e]? = some f → ValidTtf f → ∃ p, g.ttf e = some p ∧ ValidTtf p ∧ ∀ τ, TravelTime p τ (time e τ) := by
    intro e f h h' hv
    refine ⟨f, h, hv, fun τ => ?_⟩
    obtain ⟨y, h1, _, h2⟩ := C72_evaluate_partial linear_ok hv τ
    rw [h2]
    simp [time, h', h1]
  refine ⟨⟨by decide, rfl, rfl, rfl, ?_, by decide⟩, rfl, ?_⟩
  · intro i a b h1 h2
    match i, h1, h2 with
    | 0, h1, h2 => simp [g] at h1 h2; omega
    | 1, h1, h2 => simp [g] at h1 h2; omega
    | 2, h1, h2 => simp [g] at h1 h2; omega
    | 3, h1, h2 => simp [g] at h1 h2; omega
    | i + 4, h1, h2 => simp [g] at h2
  · intro e r h
    match e, h with
    | 0, h => simp [roads] at h; subst h; exact ⟨⟨0, 2, rfl, rfl, by decide, by decide⟩, rfl, key 0 _ rfl rfl (valid_ok (by decide +kernel))⟩
    | 1, h => simp [roads] at h; subst h; exact ⟨⟨0, 2, rfl, rfl, by decide, by decide⟩, rfl, key 1 _ rfl rfl (valid_ok (by decide +kernel))⟩
    | 2, h => simp [roads] at h; subst h; exact ⟨⟨2, 3, rfl, rfl, by decide, by decide⟩, rfl, key 2 _ rfl rfl (valid_ok (by decide +kernel))⟩
    | 3, h => simp [roads] at h; subst h; exact ⟨⟨3, 4, rfl, rfl, by decide, by decide⟩, rfl, key 3 _ rfl rfl (valid_ok (by decide +kernel))⟩
    | e + 4, h => simp [roads] at h

example := C78_exact_partial linear_ok graph_ok (.new 4) (s := 0) (t := 2) (by decide) (show 0 < INF by decide +kernel) (Nat.le_refl _)
example := C78_ranks_partial linear_ok graph_ok (.new 4) (s := 0) (by decide) (show 0 < INF by decide +kernel) (Nat.le_refl _)
example : (distance linear 0 g 5 (.new 4) 0 2 0).bind (fun r => (path 4 r.2 5 0 2).map (fun p => (r.1, p))) = some (some 12, [(0, 0), (1, 2), (2, 12)]) := by decide +kernel
example : (distance linear 0 g 5 (.new 4) 0 2 1000).bind (fun r => (path 4 r.2 5 0 2).map (fun p => (r.1, p))) = some (some 5, [(0, 1000), (2, 1005)]) := by decide +kernel
example : (distance linear 0 g 5 (.new 4) 0 3 0).map (·.1) = some none := by decide +kernel
example : ranks linear 0 g 5 (.new 4) 0 0 = some [(0, 0, 0), (1, 2, 1)] := by decide +kernel

end FlTdExample

namespace FlTdExample2
open FlPlfExample

/-- the graph of `FtdExample`, where node 0 has rank 1 and node 1 has rank 0 -/
def functions : List (List Pt) := [[⟨0, 2⟩], [⟨0, 20⟩, ⟨1000, 5⟩, ⟨86400, 20⟩], [⟨0, 10⟩]]
def g : Graph := ⟨[0, 2, 3, 3], [1, 2, 2], [0, 1, 4, 5], functions.flatten⟩
def time (e : Nat) (τ : Rat) : Rat := ((functions[e]?).bind (fun f => evaluate linear 0 f τ)).getD INF
def roads : List (Nat × Nat × (Rat → Rat)) := [(0, 1, time 0), (0, 2, time 1), (1, 2, time 2)]
def rank (v : Nat) : Nat := if v = 0 then 1 else if v = 1 then 0 else v
def fwd : List (List Nat) := [[], [2], [1]]
def bwd : List (List Nat) := [[0], [], []]
def cfg : Cfg := ⟨linear, true, Tol.exact, false, fun e => functions[e]?, fun _ l => l⟩

theorem key (e : Nat) (f : List Pt) (h' : functions[e]? = some f) (hv : ValidTtf f) : ∀ τ, TravelTime f τ (time e τ) := by
  intro τ
  obtain ⟨y, h1, _, h2⟩ := C72_evaluate_partial linear_ok hv τ
  rw [h2]
  simp [time, h', h1]

theorem graph_ok : GraphOK g roads := by
  refine ⟨⟨by decide, rfl, rfl, rfl, ?_, by decide⟩, rfl, ?_⟩
  · intro i a b h1 h2
    match i, h1, h2 with
    | 0, h1, h2 => simp [g] at h1 h2; omega
    | 1, h1, h2 => simp [g] at h1 h2; omega
    | 2, h1, h2 => simp [g] at h1 h2; omega
    | i + 3, h1, h2 => simp [g] at h2
  · intro e r h
    have k := fun e f h1 (h2 : valid f = true) => key e f h1 (valid_ok h2)
    match e, h with
    | 0, h => simp [roads] at h; subst h; exact ⟨⟨0, 2, rfl, rfl, by decide, by decide⟩, rfl, _, rfl, valid_ok (by decide +kernel), k 0 _ rfl (by decide +kernel)⟩
    | 1, h => simp [roads] at h; subst h; exact ⟨⟨0, 2, rfl, rfl, by decide, by decide⟩, rfl, _, rfl, valid_ok (by decide +kernel), k 1 _ rfl (by decide +kernel)⟩
    | 2, h => simp [roads] at h; subst h; exact ⟨⟨2, 3, rfl, rfl, by decide, by decide⟩, rfl, _, rfl, valid_ok (by decide +kernel), k 2 _ rfl (by decide +kernel)⟩
    | e + 3, h => simp [roads] at h

theorem roads_ok : RoadsOK (ranked rank roads) cfg.ttf FtdExample.arcs fwd bwd := by
  constructor
  · intro e r h
    have k := fun e f h1 (h2 : valid f = true) => key e f h1 (valid_ok h2)
    match e, h with
    | 0, h => simp [roads, ranked] at h; subst h; exact ⟨_, rfl, valid_ok (by decide +kernel), k 0 _ rfl (by decide +kernel)⟩
    | 1, h => simp [roads, ranked] at h; subst h; exact ⟨_, rfl, valid_ok (by decide +kernel), k 1 _ rfl (by decide +kernel)⟩
    | 2, h => simp [roads, ranked] at h; subst h; exact ⟨_, rfl, valid_ok (by decide +kernel), k 2 _ rfl (by decide +kernel)⟩
    | e + 3, h => simp [roads, ranked] at h
  · exact ⟨rfl, rfl⟩
  · intro i es h
    match i, h with
    | 0, h => simp [fwd] at h; subst h; simp
    | 1, h => simp [fwd] at h; subst h; exact ⟨by decide, fun e he => by simp at he; subst he; exact ⟨_, _, rfl, rfl, rfl, rfl⟩⟩
    | 2, h => simp [fwd] at h; subst h; exact ⟨by decide, fun e he => by simp at he; subst he; exact ⟨_, _, rfl, rfl, rfl, rfl⟩⟩
    | i + 3, h => simp [fwd] at h
  · intro i es h
    match i, h with
    | 0, h => simp [bwd] at h; subst h; exact ⟨by decide, fun e he => by simp at he; subst he; exact ⟨_, _, rfl, rfl, rfl, rfl⟩⟩
    | 1, h => simp [bwd] at h; subst h; simp
    | 2, h => simp [bwd] at h; subst h; simp
    | i + 3, h => simp [bwd] at h
  · intro e r h _
    match e, h with
    | 0, h => simp [roads, ranked] at h; subst h; exact ⟨0, [0], .inr ⟨rfl, rfl, by simp⟩⟩
    | 1, h => simp [roads, ranked] at h; subst h; exact ⟨2, [1], .inl ⟨rfl, rfl, by simp⟩⟩
    | 2, h => simp [roads, ranked] at h; subst h; exact ⟨1, [2], .inl ⟨rfl, rfl, by simp⟩⟩
    | e + 3, h => simp [roads, ranked] at h

example := C78_catchup_agrees_partial (c := cfg) linear_ok rfl (fun _ _ => .refl _) FtdExample.hierarchy_ok graph_ok rfl (rank := rank)
  (by intro u v h; unfold rank at h; split at h <;> split at h <;> (try split at h) <;> (try split at h) <;> omega)
  (by intro u h; unfold rank; split <;> (try split) <;> omega) roads_ok (fun h => (nomatch h))

end FlTdExample2
end Verif
