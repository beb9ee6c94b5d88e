import Verif.Proof.TopoDijkstra
import Verif.Proof.Topocore
import Verif.Props.Dijkstra
import Verif.Props.TdDijkstra
set_option linter.unusedSimpArgs false
set_option linter.unusedVariables false
/-
C57: searches that pass through nodes of degree two (and three) without queueing them.
-/
namespace Verif
open Spec DData

/-- What a classification of nodes by degree has to guarantee: whoever enters a node of degree at most two (three) over an arc from `u` finds at
most one (two) arcs that do not lead back to `u`. (True if degrees count neighbours of the graph with all arcs made bidirectional.) -/
structure Topo.SoundDegrees {α : Type} (n : Nat) (links : Nat → Option (List α)) (head : α → Nat) (deg : Nat → Option SymDeg) : Prop where
  total : ∀ v, v < n → ∃ c, deg v = some c
  two : ∀ u lu b lv, links u = some lu → b ∈ lu → deg (head b) = some .lessEqTwo → links (head b) = some lv →
    (lv.filter (fun e => decide (head e ≠ u))).length ≤ 1
  three : ∀ u lu b lv, links u = some lu → b ∈ lu → deg (head b) = some .three → links (head b) = some lv →
    (lv.filter (fun e => decide (head e ≠ u))).length ≤ 2

/-- A potential that can be used for target `t`: after `init` it always answers `π`, which is below `INFINITY`, at most the weight plus the potential
of the head along every arc, defined at the target, and, if defined at a node, also defined at the tails of its incoming arcs. `I0`, `I`: invariants
of the internal state before and after `init`. -/
structure Topo.GoodPot (n : Nat) (F : Nat → Nat → (Nat → Nat) → Prop) (t : Nat) {σ : Type} (P : Potential σ) (I0 I : σ → Prop) (π : Nat → Option Nat) : Prop where
  init : ∀ c, I0 c → ∃ c', P.init c t = some c' ∧ I c'
  get : ∀ c v, I c → v < n → ∃ c', P.get c v = some (c', π v) ∧ I c'
  bound : ∀ v x, π v = some x → x < INFINITY
  feas : ∀ u v f pu pv l, F u v f → π u = some pu → π v = some pv → l < INFINITY → l + pu ≤ f l + pv
  closed : ∀ u v f, F u v f → π v ≠ none → π u ≠ none
  target : π t ≠ none

/-- arcs with fixed weights, as arcs with arrival functions -/
def FOGraph.Fixed (g : FOGraph) (u v : Nat) (f : Nat → Nat) : Prop := ∃ w, g.Arc u v w ∧ ∀ x, f x = x + w

/-- The data of a server after any sequence of queries. -/
inductive Topo.Reachable {α β : Type} (n : Nat) (G : Topo.TGraph α) (ops : DOps α β) (F : Nat → Nat → (Nat → Nat) → Prop) (sk : Topo.Skip) (b0 : β) : DData β → Prop
  | new : Topo.Reachable n G ops F sk b0 (DData.new n b0)
  | query {σ : Type} {P : Potential σ} {I0 I : σ → Prop} {π : Nat → Option Nat} {c c' : σ} {s τ t cap : Nat} {r : Option Nat} {d d' : DData β} :
      Topo.Reachable n G ops F sk b0 d → Topo.GoodPot n F t P I0 I π → I0 c → s < n → t < n → τ < INFINITY →
      Topo.distance n sk G ops P d c s τ t cap = some (r, d', c') → Topo.Reachable n G ops F sk b0 d'
  | all {s : Nat} {d d' : DData β} : Topo.Reachable n G ops F sk b0 d → s < n →
      Topo.oneToAll n sk G ops d s = some d' → Topo.Reachable n G ops F sk b0 d'

/-- a server on a graph with fixed weights -/
def Topo.ReachableStatic (g : FOGraph) (sk : Topo.Skip) (deg : Nat → Option SymDeg) : DData Unit → Prop :=
  Topo.Reachable g.numNodes ⟨g.linkIter, deg⟩ defaultOps g.Fixed sk ()

namespace Topo
variable {α β σ : Type}

/-- the potential as a function of the search problem -/
def pival (π : Nat → Option Nat) (v : Nat) : Nat := (π v).getD INFINITY

theorem pival_lt {n : Nat} {F : Nat → Nat → (Nat → Nat) → Prop} {t : Nat} {P : Potential σ} {I0 I : σ → Prop} {π : Nat → Option Nat}
    (h : GoodPot n F t P I0 I π) (v : Nat) : pival π v < INFINITY ↔ π v ≠ none := by
  unfold pival
  cases hv : π v with
  | none => simp
  | some x => have := h.bound v x hv; simp [this]

theorem GoodPot.clOK {p : Prob α β} {n : Nat} {F : Nat → Nat → (Nat → Nat) → Prop} {t : Nat} {P : Potential σ} {I0 I : σ → Prop} {π : Nat → Option Nat}
    (h : GoodPot n F t P I0 I π) (hn : p.n = n) (hpi : p.pi = pival π) : ClOK p (potClosures P) I := by
  constructor
  · intro c v l hc _ _; exact ⟨c, rfl, hc⟩
  · intro c v l hc hv hl
    obtain ⟨c', h1, h2⟩ := h.get c v hc (by omega)
    refine ⟨c', ?_, h2⟩
    simp only [potClosures, h1, Option.bind_eq_bind, Option.bind_some, hpi]
    cases hx : π v with
    | none => simp [pival, hx]
    | some x =>
      have hlt := h.bound v x hx
      have h3 : add32 x l = some (x + l) := add32_of_lt (by simp only [INFINITY, U32] at *; omega)
      simp [pival, hx, hlt, h3, Nat.add_comm]

theorem GoodPot.target_get {n : Nat} {F : Nat → Nat → (Nat → Nat) → Prop} {t : Nat} {P : Potential σ} {I0 I : σ → Prop} {π : Nat → Option Nat}
    (h : GoodPot n F t P I0 I π) (ht : t < n) : ∀ c, I c → ∃ c', P.get c t = some (c', some (pival π t)) ∧ I c' := by
  intro c hc
  obtain ⟨c', h1, h2⟩ := h.get c t hc ht
  refine ⟨c', ?_, h2⟩
  cases hx : π t with
  | none => exact absurd hx h.target
  | some x => rw [h1, hx]; simp [pival, hx]

theorem GoodPot.prob {g : FOGraph} (hg : g.WF) (hw : g.Bounded) {t : Nat} {P : Potential σ} {I0 I : σ → Prop} {π : Nat → Option Nat}
    (h : GoodPot g.numNodes g.Fixed t P I0 I π) : (staticProb g.numNodes g.linkIter (pival π)).OK ∧ Closed (staticProb g.numNodes g.linkIter (pival π)) := by
  constructor
  · apply staticProb_ok (hg.linksOK hw)
    intro u v w harc hu
    have hu' := (pival_lt h u).1 hu
    unfold pival
    cases hv : π v with
    | none => simp only [pival] at hu; simp; omega
    | some pv =>
      cases hpu : π u with
      | none => exact absurd hpu hu'
      | some pu =>
        have := h.feas u v (fun x => x + w) pu pv 0 ⟨w, harc, fun _ => rfl⟩ hpu hv (by simp [INFINITY])
        simp only [Option.getD_some]; omega
  · intro v ls b h1 h2 h3
    exact (pival_lt h v).2 (h.closed v b.node (fun x => x + b.weight) ⟨b.weight, ⟨ls, h1, h2⟩, fun _ => rfl⟩ ((pival_lt h _).1 h3))

theorem SoundDegrees.degOK {g : FOGraph} {deg : Nat → Option SymDeg} (h : SoundDegrees g.numNodes g.linkIter Link.node deg) (pi : Nat → Nat) :
    DegOK (staticProb g.numNodes g.linkIter pi) deg := ⟨h.total, h.two, h.three⟩

theorem Reachable.refines {mk : (Nat → Nat) → Prob α β} {n : Nat} {G : TGraph α} {ops : DOps α β} {F : Nat → Nat → (Nat → Nat) → Prop} {b0 : β}
    (hmk : ∀ pi, (mk pi).n = n ∧ (mk pi).links = G.links ∧ (mk pi).ops = ops ∧ (mk pi).pi = pi) (hdeg : ∀ pi, DegOK (mk pi) G.deg)
    (hok : ∀ {σ : Type} {t : Nat} {P : Potential σ} {I0 I : σ → Prop} {π : Nat → Option Nat}, GoodPot n F t P I0 I π → (mk (pival π)).OK ∧ Closed (mk (pival π)))
    (hzero : (mk (fun _ => 0)).OK) {sk : Skip} {d : DData β} (h : Reachable n G ops F sk b0 d) : ∃ a, Refines n d a := by
  induction h with
  | new => exact ⟨_, refines_new n b0⟩
  | @query σ P I0 I π c c' s τ t cap r d d' _ hP hc hs ht hτ hd ih =>
    obtain ⟨a0, ha0⟩ := ih
    obtain ⟨hp, hclo⟩ := hok hP
    obtain ⟨e1, e2, e3, e4⟩ := hmk (pival π)
    obtain ⟨r2, d2, c2, a2, h1, _, h2, _⟩ := distance_spec (sk := sk) (s := s) (τ := τ) (cap := cap) hp hclo (hdeg _) (hP.clOK e1 e4)
      (by rw [e1]; exact hs) hτ (by rw [e1]; exact ht) hc hP.init (by rw [e4]; exact hP.target_get ht) (by rw [e4]; exact (pival_lt hP t).2 hP.target)
      (by rw [e1]; exact ha0)
    rw [e1, e2, e3] at h1
    rw [e1] at h2
    rw [hd] at h1
    simp at h1
    obtain ⟨_, rfl, _⟩ := h1
    exact ⟨a2, h2⟩
  | @all s d d' _ hs hd ih =>
    obtain ⟨a0, ha0⟩ := ih
    obtain ⟨e1, e2, e3, e4⟩ := hmk (fun _ => 0)
    obtain ⟨d2, a2, h1, h2, _⟩ := oneToAll_spec (sk := sk) hzero (by rw [e4]; intro v; rfl) (hdeg _) (by rw [e1]; exact hs) (by rw [e1]; exact ha0)
    rw [e1, e2, e3] at h1
    rw [e1] at h2
    rw [hd] at h1
    simp at h1
    subst h1
    exact ⟨a2, h2⟩

theorem ReachableStatic.refines {g : FOGraph} (hg : g.WF) (hw : g.Bounded) {sk : Skip} {deg : Nat → Option SymDeg}
    (hdeg : SoundDegrees g.numNodes g.linkIter Link.node deg) {d : DData Unit} (h : ReachableStatic g sk deg d) : ∃ a, Refines g.numNodes d a :=
  Reachable.refines (mk := staticProb g.numNodes g.linkIter) (fun _ => ⟨rfl, rfl, rfl, rfl⟩) (fun pi => hdeg.degOK pi) (fun hP => hP.prob hg hw)
    (staticProb_ok (hg.linksOK hw) (zero_feasible _)) h
end Topo

/-- **C57**, with a cap: a query on a server that skips nodes of low degree always answers; what it reports is the length of a walk, a node path of
at most that length is available, and the shortest distance is reported if distance plus potential of the target is at most the cap. -/
theorem C57_topo_cap (g : FOGraph) (hg : g.WF) (hw : g.Bounded) (sk : Topo.Skip) (deg : Nat → Option SymDeg)
    (hdeg : Topo.SoundDegrees g.numNodes g.linkIter Link.node deg) {σ : Type} (P : Potential σ) (I0 I : σ → Prop) (π : Nat → Option Nat)
    (s t : Nat) (hs : s < g.numNodes) (ht : t < g.numNodes) (hP : Topo.GoodPot g.numNodes g.Fixed t P I0 I π) (cap : Nat) (c : σ) (hc : I0 c)
    (d0 : DData Unit) (hd : Topo.ReachableStatic g sk deg d0) :
    ∃ r d c', Topo.distance g.numNodes sk ⟨g.linkIter, deg⟩ defaultOps P d0 c s 0 t cap = some (r, d, c') ∧ I c' ∧
      (∀ x, r = some x → Walk g.Arc s t x ∧ x < INFINITY ∧
        ∃ path y, nodePath d s t = some path ∧ path.head? = some s ∧ path.getLast? = some t ∧ PathOf g.Arc path y ∧ y ≤ x) ∧
      (∀ x pt, IsDist g.Arc s t x → x < INFINITY → π t = some pt → x + pt ≤ cap → r = some x) := by
  obtain ⟨a0, ha0⟩ := hd.refines hg hw hdeg
  obtain ⟨hp, hclo⟩ := hP.prob hg hw
  obtain ⟨r, d, c', a, h1, h2, h3, h4, h5⟩ := Topo.distance_spec (sk := sk) (s := s) (τ := 0) (cap := cap) hp hclo (hdeg.degOK _) (hP.clOK rfl rfl)
    hs (by simp [INFINITY]) ht hc hP.init (hP.target_get ht) ((Topo.pival_lt hP t).2 hP.target) ha0
  refine ⟨r, d, c', by simpa only [staticProb] using h1, h2, ?_, ?_⟩
  · intro x hx
    rw [h5] at hx
    split at hx
    · rename_i hlt
      simp at hx; subst hx
      obtain ⟨y, h6, h7⟩ := static_walk.1 (h4.inv.walk t hlt)
      obtain ⟨ns, as, l, h8, h9, h10, _⟩ := Topo.paths_spec hp (Nat.le_refl _) hs h3 h4.inv hlt
      obtain ⟨h11, z, h12, h13⟩ := apath_static h8
      refine ⟨?_, hlt, ns ++ [t], z, h10, h11, by simp, h13, by omega⟩
      rw [h7, Nat.zero_add]; exact h6
    · simp at hx
  · intro x pt hx hxi hpt hcap
    have hpi : Topo.pival π t = pt := by simp [Topo.pival, hpt]
    have h6 := h4.exact hp hclo hs ((Topo.pival_lt hP t).2 hP.target) (x := x) (static_walk.2 ⟨x, hx.1, by omega⟩) hxi (by
      show x + Topo.pival π t ≤ cap
      omega)
    have hlt : a.D t < INFINITY := by omega
    obtain ⟨y, h7, h8⟩ := static_walk.1 (h4.inv.walk t hlt)
    have := hx.2 y h7
    rw [h5, if_pos hlt]
    simp; omega

/-- **C57.** With a potential that is zero at the target, every query is answered exactly, and the node path belongs to it. -/
theorem C57_topo_exact (g : FOGraph) (hg : g.WF) (hw : g.Bounded) (sk : Topo.Skip) (deg : Nat → Option SymDeg)
    (hdeg : Topo.SoundDegrees g.numNodes g.linkIter Link.node deg) {σ : Type} (P : Potential σ) (I0 I : σ → Prop) (π : Nat → Option Nat)
    (s t : Nat) (hs : s < g.numNodes) (ht : t < g.numNodes) (hP : Topo.GoodPot g.numNodes g.Fixed t P I0 I π) (hπ : π t = some 0) (c : σ) (hc : I0 c)
    (d0 : DData Unit) (hd : Topo.ReachableStatic g sk deg d0) :
    ∃ r d c', Topo.distance g.numNodes sk ⟨g.linkIter, deg⟩ defaultOps P d0 c s 0 t INFINITY = some (r, d, c') ∧ I c' ∧ Answer g.Arc s t r ∧
      ∀ x, r = some x → ∃ path, nodePath d s t = some path ∧ path.head? = some s ∧ path.getLast? = some t ∧ PathOf g.Arc path x := by
  obtain ⟨r, d, c', h1, h2, h3, h4⟩ := C57_topo_cap g hg hw sk deg hdeg P I0 I π s t hs ht hP INFINITY c hc d0 hd
  have hans : Answer g.Arc s t r := by
    intro x
    constructor
    · intro hx
      obtain ⟨h5, h6, _⟩ := h3 x hx
      obtain ⟨y, hy, hyx⟩ : ∃ y, IsDist g.Arc s t y ∧ y ≤ x := by
        obtain ⟨y, hy, hd⟩ := exists_isDist h5
        exact ⟨y, hd, hy⟩
      have := h4 y 0 hy (by omega) hπ (by omega)
      rw [hx] at this
      simp at this; subst this
      exact ⟨hy, h6⟩
    · rintro ⟨h5, h6⟩
      exact h4 x 0 h5 h6 hπ (by omega)
  refine ⟨r, d, c', h1, h2, hans, ?_⟩
  intro x hx
  obtain ⟨_, _, path, y, h5, h6, h7, h8, h9⟩ := h3 x hx
  have hy : y = x := by
    obtain ⟨s', t', g1, g2, g3⟩ := h8.walk
    rw [h6] at g1; rw [h7] at g2
    injection g1 with g1; injection g2 with g2
    subst g1; subst g2
    have := ((hans x).1 hx).1.2 y g3
    omega
  exact ⟨path, h5, h6, h7, hy ▸ h8⟩

/-- **C57**, one to all: afterwards the label of every node is its distance, or `INFINITY` if there is none below. -/
theorem C57_one_to_all (g : FOGraph) (hg : g.WF) (hw : g.Bounded) (sk : Topo.Skip) (deg : Nat → Option SymDeg)
    (hdeg : Topo.SoundDegrees g.numNodes g.linkIter Link.node deg) (s : Nat) (hs : s < g.numNodes) (d0 : DData Unit) (hd : Topo.ReachableStatic g sk deg d0) :
    ∃ d, Topo.oneToAll g.numNodes sk ⟨g.linkIter, deg⟩ defaultOps d0 s = some d ∧
      ∀ v, v < g.numNodes → ∃ x, d.dist.get v = some x ∧ CappedDist g.Arc s v x := by
  obtain ⟨a0, ha0⟩ := hd.refines hg hw hdeg
  obtain ⟨d, a, h1, h2, h3, h4⟩ := Topo.oneToAll_spec (sk := sk) (staticProb_ok (hg.linksOK hw) (zero_feasible _)) (fun _ => rfl) (hdeg.degOK _) hs ha0
  refine ⟨d, h1, ?_⟩
  intro v hv
  refine ⟨a.D v, h2.get hv, h3.ub v, ?_⟩
  intro x
  constructor
  · intro hx
    split at hx
    · rename_i hlt
      simp at hx; subst hx
      obtain ⟨y, h5, h6⟩ := static_walk.1 (h3.walk v hlt)
      refine ⟨⟨?_, ?_⟩, hlt⟩
      · rw [h6, Nat.zero_add]; exact h5
      · intro d' hd'
        by_cases hi : d' < INFINITY
        · exact h4 v d' (static_walk.2 ⟨d', hd', by omega⟩) hi
        · omega
    · simp at hx
  · rintro ⟨h5, h6⟩
    have h7 := h4 v x (static_walk.2 ⟨x, h5.1, by omega⟩) h6
    have hlt : a.D v < INFINITY := by omega
    obtain ⟨y, h8, h9⟩ := static_walk.1 (h3.walk v hlt)
    have := h5.2 y h8
    rw [if_pos hlt]; simp; omega

/-- **C57**, time-dependent: the query reports the travel time; departure plus travel time is the earliest arrival, whenever that is before
`INFINITY`. Travel times are given by any FIFO functions `ev e l = val e l` of the arcs, e.g. those of C44, C46. -/
theorem C57_topo_td {bs : List Nat → Nat → Lookup} (hb : BinarySearch bs) {g : TD.Graph} (hg : g.Valid) (sk : Topo.Skip) (deg : Nat → Option SymDeg)
    (hdeg : Topo.SoundDegrees (g.firstOut.length - 1) (TD.links g.firstOut g.head) Prod.fst deg)
    {σ : Type} (P : Potential σ) (I0 I : σ → Prop) (π : Nat → Option Nat) (s τ t : Nat) (hs : s < g.firstOut.length - 1) (ht : t < g.firstOut.length - 1)
    (hτ : τ < INFINITY) (hP : Topo.GoodPot (g.firstOut.length - 1) (TimedArc g.firstOut g.head g.Takes) t P I0 I π) (hπ : π t = some 0) (c : σ) (hc : I0 c)
    (d0 : DData Unit) (hd : Topo.Reachable (g.firstOut.length - 1) ⟨TD.links g.firstOut g.head, deg⟩ (TD.ops (g.eval bs)) (TimedArc g.firstOut g.head g.Takes) sk () d0) :
    ∃ r d c', Topo.distance (g.firstOut.length - 1) sk ⟨TD.links g.firstOut g.head, deg⟩ (TD.ops (g.eval bs)) P d0 c s τ t INFINITY = some (r, d, c') ∧ I c' ∧
      ArrivalAnswer (TimedArc g.firstOut g.head g.Takes) s τ t (r.map (τ + ·)) ∧
      ∀ x, r = some x → ∃ p, d.nodePath s t = some p ∧ p.getLast? = some t ∧ TPathOf (TimedArc g.firstOut g.head g.Takes) s τ p (τ + x) := by
  have hev := hg.ev hb
  rw [← hg.arcs hb] at hP hd ⊢
  let mk := TD.prob g.firstOut g.head (g.eval bs) g.val
  have hF : ∀ pi, (mk pi).F = TimedArc g.firstOut g.head (fun e t d => d = g.val e t) := fun pi => TD.prob_F hg.topo
  have hok : ∀ {σ : Type} {t : Nat} {P : Potential σ} {I0 I : σ → Prop} {π : Nat → Option Nat},
      Topo.GoodPot (g.firstOut.length - 1) (TimedArc g.firstOut g.head (fun e t d => d = g.val e t)) t P I0 I π → (mk (Topo.pival π)).OK ∧ Topo.Closed (mk (Topo.pival π)) := by
    intro σ t P I0 I π hP
    constructor
    · apply TD.prob_ok hg.topo hev
      intro u v e a b h1 h2 h3 h4 h5 l hl hu
      have harc : TimedArc g.firstOut g.head (fun e t d => d = g.val e t) u v (fun t => t + g.val e t) := ⟨a, b, e, h1, h2, h3, h4, h5, fun t => ⟨_, rfl, rfl⟩⟩
      have hu' := (Topo.pival_lt hP u).1 hu
      unfold Topo.pival
      cases hv : π v with
      | none => simp only [Topo.pival] at hu; simp; omega
      | some pv =>
        cases hpu : π u with
        | none => exact absurd hpu hu'
        | some pu =>
          have := hP.feas u v _ pu pv l harc hpu hv hl
          simp only [Option.getD_some]; omega
    · intro v ls b h1 h2 h3
      have harc : (mk (Topo.pival π)).F v ((mk (Topo.pival π)).ops.head b) ((mk (Topo.pival π)).lf b) := ⟨ls, b, h1, h2, rfl, rfl⟩
      rw [hF] at harc
      exact (Topo.pival_lt hP v).2 (hP.closed v _ _ harc ((Topo.pival_lt hP _).1 h3))
  have hdegOK : ∀ pi, Topo.DegOK (mk pi) deg := fun pi => ⟨hdeg.total, hdeg.two, hdeg.three⟩
  obtain ⟨a0, ha0⟩ := Topo.Reachable.refines (mk := mk) (fun _ => ⟨rfl, rfl, rfl, rfl⟩) hdegOK hok
    (by apply TD.prob_ok hg.topo hev; intros; omega) hd
  obtain ⟨hp, hclo⟩ := hok hP
  obtain ⟨r, d, c', a, h1, h2, h3, h4, h5⟩ := Topo.distance_spec (sk := sk) (s := s) (τ := τ) (cap := INFINITY) hp hclo (hdegOK _) (hP.clOK rfl rfl)
    hs hτ ht hc hP.init (hP.target_get ht) ((Topo.pival_lt hP t).2 hP.target) ha0
  have hpt : Topo.pival π t = 0 := by simp [Topo.pival, hπ]
  have hex : ∀ x, TWalk (mk (Topo.pival π)).F s τ t x → x < INFINITY → a.D t ≤ x := fun x hx hxi =>
    h4.exact hp hclo hs ((Topo.pival_lt hP t).2 hP.target) hx hxi (by
      show x + Topo.pival π t ≤ INFINITY
      omega)
  have hlb := h4.inv.lb t
  have hans : ArrivalAnswer (mk (Topo.pival π)).F s τ t (r.map (τ + ·)) := by
    intro x
    rw [h5]
    constructor
    · intro hx
      split at hx
      · rename_i hlt
        simp at hx
        have : x = a.D t := by omega
        subst this
        refine ⟨⟨h4.inv.walk t hlt, ?_⟩, hlt⟩
        intro y hy
        by_cases hyi : y < INFINITY
        · exact hex y hy hyi
        · omega
      · simp at hx
    · rintro ⟨h6, h7⟩
      have h8 := hex x h6.1 h7
      have hlt : a.D t < INFINITY := by omega
      have := h6.2 _ (h4.inv.walk t hlt)
      rw [if_pos hlt]; simp; omega
  rw [hF] at hans
  refine ⟨r, d, c', h1, h2, hans, ?_⟩
  intro x hx
  rw [h5] at hx
  split at hx
  · rename_i hlt
    simp at hx
    obtain ⟨ns, as, l, h8, h9, h10, _⟩ := Topo.paths_spec hp (Nat.le_refl _) hs h3 h4.inv hlt
    have hl : l = a.D t := by
      have := hex l (Topo.APath.twalk h8 t (by simp)) (by omega)
      omega
    have : τ + x = l := by omega
    rw [this]
    exact ⟨_, h10, by simp, TD.apath_timed hg.topo h8⟩
  · simp at hx

/-- **C57**, the degrees: classifying nodes by the number of neighbours, where an arc and an arc back count once, is sound on every graph. -/
theorem C57_degrees (g : FOGraph) (hg : g.WF) :
    ∃ r, GraphOps.reversed g.numNodes g.numArcs g.linkIter = some r ∧
      Topo.SoundDegrees g.numNodes g.linkIter Link.node (fun v => (Topo.degree g r v).map Topo.classOf) := by
  obtain ⟨r, h1, h2, h3, _, h5⟩ := GraphOps.reversed_spec hg
  refine ⟨r, h1, ?_, ?_, ?_⟩
  · intro v hv
    obtain ⟨d, h6, _⟩ := Topo.degree_spec hg h2 h3 (fun u v w => h5 v u w) hv
    exact ⟨_, by simp [h6]; rfl⟩
  all_goals
    intro u lu b lv hlu hb hc hlv
    have hv : b.node < g.numNodes := hg.mem_heads hlu hb
    obtain ⟨d, h6, h7⟩ := Topo.degree_spec hg h2 h3 (fun u v w => h5 v u w) hv
    have h8 := h7 u lu b lv hlu hb rfl hlv
    simp only [h6, Option.map_some, Option.some.injEq, Topo.classOf] at hc
    split at hc
    · first | omega | simp at hc
    · split at hc
      · simp at hc
      · first | omega | simp at hc

/-! ### Examples -/

namespace TopoEx
/-- the chain 0 - 1 - 2 - 3, the triangle 3 - 4 - 5 and node 6 at 5, 4 - 3 only in this direction -/
def g : FOGraph := ⟨[0, 1, 3, 5, 7, 9, 12, 13], [1, 0, 2, 1, 3, 2, 5, 3, 5, 3, 4, 6, 5], [2, 2, 1, 1, 3, 3, 9, 1, 4, 9, 4, 1, 1]⟩
def r : FOGraph := (GraphOps.reversed g.numNodes g.numArcs g.linkIter).getD ⟨[0], [], []⟩
def deg (v : Nat) : Option SymDeg := (Topo.degree g r v).map Topo.classOf

theorem wf : g.WF where
  small := by decide
  first := by decide
  last := by decide
  weights := by decide
  mono := FOGraph.mono_of_check (by decide)
  heads := by decide

theorem bounded : g.Bounded := by unfold FOGraph.Bounded; decide +kernel

theorem sound : Topo.SoundDegrees g.numNodes g.linkIter Link.node deg := by
  obtain ⟨r', h1, h2⟩ := C57_degrees g wf
  have : r = r' := by simp [r, h1]
  subst this
  exact h2

example : (List.range 7).mapM deg = some [.lessEqTwo, .lessEqTwo, .lessEqTwo, .three, .lessEqTwo, .three, .lessEqTwo] := by decide +kernel

/-- the potential that is zero everywhere -/
theorem zeroGood (t : Nat) : Topo.GoodPot g.numNodes g.Fixed t zeroPotential (fun _ => True) (fun _ => True) (fun _ => some 0) where
  init := fun _ _ => ⟨(), rfl, trivial⟩
  get := fun _ _ _ _ => ⟨(), rfl, trivial⟩
  bound := by intro v x h; simp at h; subst h; decide
  feas := by
    rintro u v f pu pv l ⟨w, _, hf⟩ h1 h2 _
    simp at h1 h2; subst h1; subst h2
    rw [hf]; omega
  closed := by simp
  target := by simp

/-- exact distances to the target 6 as a potential -/
def dist6 : List Nat := [16, 14, 13, 10, 5, 1, 0]
def exactPot : Potential Unit := ⟨fun _ _ => some (), fun _ v => some ((), dist6[v]?)⟩

example : (Topo.distance 7 ⟨true, true⟩ ⟨g.linkIter, deg⟩ defaultOps zeroPotential (DData.new 7 ()) () 0 0 6 INFINITY).map (·.1) = some (some 16) := by
  decide +kernel
example : (Topo.distance 7 ⟨true, true⟩ ⟨g.linkIter, deg⟩ defaultOps exactPot (DData.new 7 ()) () 0 0 6 INFINITY).map (fun x => (x.1, x.2.1.nodePath 0 6)) =
    some (some 16, some [0, 1, 2, 3, 5, 6]) := by decide +kernel
example : (Topo.distance 7 ⟨true, true⟩ ⟨g.linkIter, deg⟩ defaultOps zeroPotential (DData.new 7 ()) () 6 0 0 INFINITY).map (fun x => (x.1, x.2.1.nodePath 6 0)) =
    some (some 12, some [6, 5, 4, 3, 2, 1, 0]) := by decide +kernel
example : ((Topo.oneToAll 7 ⟨true, true⟩ ⟨g.linkIter, deg⟩ defaultOps (DData.new 7 ()) 6).bind (fun d => (List.range 7).mapM d.dist.get)) =
    some [12, 10, 9, 6, 5, 1, 0] := by decide +kernel

/-- the hypotheses of the theorems hold for a second query on the same server -/
example : ∃ d, Topo.ReachableStatic g ⟨true, true⟩ deg d ∧ ∃ r d' c, Topo.distance g.numNodes ⟨true, true⟩ ⟨g.linkIter, deg⟩ defaultOps zeroPotential d () 6 0 0 INFINITY = some (r, d', c) ∧
    Spec.Answer g.Arc 6 0 r := by
  obtain ⟨r, d, c, h1, _⟩ := C57_topo_exact g wf bounded ⟨true, true⟩ deg sound zeroPotential _ _ _ 0 6 (by decide) (by decide) (zeroGood 6) rfl () trivial _ .new
  have hd : Topo.ReachableStatic g ⟨true, true⟩ deg d := .query .new (zeroGood 6) trivial (by decide) (by decide) (by decide) h1
  obtain ⟨r', d', c', h2, _, h3, _⟩ := C57_topo_exact g wf bounded ⟨true, true⟩ deg sound zeroPotential _ _ _ 6 0 (by decide) (by decide) (zeroGood 0) rfl () trivial _ hd
  exact ⟨d, hd, r', d', c', h2, h3⟩
end TopoEx
end Verif
