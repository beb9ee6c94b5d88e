import Verif.Proof.TdAStar
import Verif.Props.TopoDijkstra
set_option linter.unusedSimpArgs false
set_option linter.unusedVariables false
/- C66: time-dependent A* with potentials that depend on the time and are only admissible. -/
namespace Verif
open Spec TdAStar
variable {σ : Type}

/-- What the potential promises, for queries with departure before `T`. `R` holds of its state between queries, `I s t τ` during a query from
`s` to `t` at time `τ`; then `cur s t τ c v` is the last value for node `v`, and `L s t τ` a time at which one can be at the target, if ever.
 * no call panics;
 * asked for the target without a time, it may answer `none` only if the target cannot be reached before `INFINITY`;
 * asked for node `v` at time `x` (that some walk from the source realises), its value `p` is a lower bound: whoever leaves `v` at time `x` is at
   the target at `x + p` or later. This may be violated for walks that arrive after `L`;
 * values never grow during a query, of no node.
It need not be consistent: its value may drop along an arc by more than the travel time. -/
structure TimedPotential (n : Nat) (F : Nat → Nat → (Nat → Nat) → Prop) (P : TDPot σ) (T : Nat) (R : σ → Prop) (I : Nat → Nat → Nat → σ → Prop)
    (cur : Nat → Nat → Nat → σ → Nat → Nat) (L : Nat → Nat → Nat → Nat) : Prop where
  init : ∀ c s t τ, R c → s < n → t < n → τ < T → ∃ c1, P.init c s t τ = some c1 ∧ I s t τ c1
  target : ∀ c s t τ, I s t τ c → s < n → t < n → τ < T → ∃ c1 o, P.get c t none = some (c1, o) ∧ I s t τ c1 ∧ (∀ p, o = some p → p < INFINITY) ∧
    (o = none → ∀ y, TWalk F s τ t y → INFINITY ≤ y)
  latest : ∀ s t τ, s < n → t < n → τ < T → (∃ c, I s t τ c) → ∀ y, TWalk F s τ t y → y < INFINITY → ∃ y', y' ≤ y ∧ y' ≤ L s t τ ∧ TWalk F s τ t y'
  get : ∀ c s t τ v x, I s t τ c → s < n → t < n → τ < T → v < n → x < INFINITY → TWalk F s τ v x →
    ∃ c1 o, P.get c v (some x) = some (c1, o) ∧ I s t τ c1 ∧ (∀ u, cur s t τ c1 u ≤ cur s t τ c u) ∧ cur s t τ c1 v = o.getD INFINITY ∧
      (∀ p, o = some p → p < INFINITY) ∧ ∀ y, TWalk F v x t y → y ≤ L s t τ → ∃ p, o = some p ∧ x + p ≤ y
  back : ∀ c s t τ, I s t τ c → s < n → t < n → τ < T → R c

section
variable {n : Nat} {F : Nat → Nat → (Nat → Nat) → Prop} {P : TDPot σ} {T : Nat} {R : σ → Prop} {I : Nat → Nat → Nat → σ → Prop}
  {cur : Nat → Nat → Nat → σ → Nat → Nat} {L : Nat → Nat → Nat → Nat}

theorem TimedPotential.good (h : TimedPotential n F P T R I cur L) {s t τ : Nat} (hs : s < n) (ht : t < n) (hτ : τ < T) :
    Good n F P s τ t (L s t τ) (I s t τ) (cur s t τ) :=
  ⟨fun c v x hc hv hx hw => h.get c s t τ v x hc hs ht hτ hv hx hw⟩

/-- **C66.** Any sequence of queries (source, departure, target) is answered without panic, each after at most `rounds n` settled nodes, and every
answer is the travel time for the earliest arrival, if that is before `INFINITY`. The degrees are used for chains only and need not be right. -/
theorem C66_td_astar {bs : List Nat → Nat → Lookup} (hb : BinarySearch bs) {g : TD.Graph} (hg : g.Valid) (deg : Nat → Option SymDeg)
    (hdeg : ∀ v, v < g.firstOut.length - 1 → ∃ d, deg v = some d)
    (h : TimedPotential (g.firstOut.length - 1) (TimedArc g.firstOut g.head g.Takes) P T R I cur L) (hT : T ≤ INFINITY)
    {fuel : Nat} (hf : rounds (g.firstOut.length - 1) ≤ fuel) (c : σ) (hc : R c) (qs : List (Nat × Nat × Nat))
    (hq : ∀ q ∈ qs, q.1 < g.firstOut.length - 1 ∧ q.2.1 < T ∧ q.2.2 < g.firstOut.length - 1) :
    ∃ rs d c', TdAStar.queries fuel (g.firstOut.length - 1) ⟨false, false⟩ ⟨TD.links g.firstOut g.head, deg⟩ (TD.ops (g.eval bs)) P
        (DData.new (g.firstOut.length - 1) ()) c qs = some (rs, d, c') ∧ R c' ∧
      List.Forall₂ (fun q r => ArrivalAnswer (TimedArc g.firstOut g.head g.Takes) q.1 q.2.1 q.2.2 (r.map (q.2.1 + ·))) qs rs := by
  have hev := hg.ev hb
  rw [← hg.arcs hb] at h ⊢
  let p := TD.prob g.firstOut g.head (g.eval bs) g.val (fun _ => 0)
  have hp : p.OK := by apply TD.prob_ok hg.topo hev; intros; omega
  have hF : p.F = TimedArc g.firstOut g.head (fun e t d => d = g.val e t) := TD.prob_F hg.topo
  suffices H : ∀ (qs : List (Nat × Nat × Nat)) (d : DData Unit) (a : Abs Unit) (c : σ), DData.Refines (g.firstOut.length - 1) d a → R c →
      (∀ q ∈ qs, q.1 < g.firstOut.length - 1 ∧ q.2.1 < T ∧ q.2.2 < g.firstOut.length - 1) →
      ∃ rs d' c', TdAStar.queries fuel (g.firstOut.length - 1) ⟨false, false⟩ ⟨TD.links g.firstOut g.head, deg⟩ (TD.ops (g.eval bs)) P d c qs = some (rs, d', c') ∧
        R c' ∧ List.Forall₂ (fun q r => ArrivalAnswer p.F q.1 q.2.1 q.2.2 (r.map (q.2.1 + ·))) qs rs by
    rw [← hF]
    exact H qs _ _ c (DData.refines_new _ ()) hc hq
  intro qs
  induction qs with
  | nil => intro d a c _ hc _; exact ⟨[], d, c, rfl, hc, .nil⟩
  | cons q qs ih =>
    intro d a c hd hc hq
    obtain ⟨s, τ, t⟩ := q
    obtain ⟨hs, hτ, ht⟩ := hq _ List.mem_cons_self
    simp only at hs hτ ht
    obtain ⟨c1, k1, k2⟩ := h.init c s t τ hc hs ht hτ
    obtain ⟨c2, o, k3, k4, k5, k6⟩ := h.target c1 s t τ k2 hs ht hτ
    have hgood := h.good hs ht hτ
    have hlat := h.latest s t τ hs ht hτ ⟨c1, k2⟩
    rw [← hF] at hgood k6 hlat
    obtain ⟨r, d', c', a', e1, e2, e3, e4⟩ := TdAStar.distance_spec (G := ⟨TD.links g.firstOut g.head, deg⟩) hp rfl hdeg hgood hs ht (by omega)
      hlat k1 k3 k4 k5 k6 hd hf
    obtain ⟨rs, d2, c3, f1, f2, f3⟩ := ih d' a' c' e2 (h.back c' s t τ e3 hs ht hτ) (fun q hq' => hq q (List.mem_cons_of_mem _ hq'))
    refine ⟨r :: rs, d2, c3, ?_, f2, .cons e4 f3⟩
    have e1' : TdAStar.distance fuel (g.firstOut.length - 1) ⟨false, false⟩ ⟨TD.links g.firstOut g.head, deg⟩ (TD.ops (g.eval bs)) P d c s τ t INFINITY =
      some (r, d', c') := e1
    simp only [TdAStar.queries, e1', f1, Option.bind_eq_bind, Option.bind_some, Option.pure_def]

/-- **C66**, `TDRecyclingPotential`: not initialising the potential again for the same query keeps the promises. -/
theorem C66_recycling (h : TimedPotential n F P T R I cur L) :
    TimedPotential n F (recycling P) T
      (fun c => R c.1 ∧ ∀ s t τ, c.2 = some (s, t, τ) → s < n → t < n → τ < T → I s t τ c.1)
      (fun s t τ c => I s t τ c.1 ∧ c.2 = some (s, t, τ)) (fun s t τ c v => cur s t τ c.1 v) L := by
  constructor
  · rintro ⟨c, q⟩ s t τ ⟨h1, h2⟩ hs ht hτ
    by_cases hq : q = some (s, t, τ)
    · exact ⟨(c, q), by simp [recycling, hq], h2 s t τ hq hs ht hτ, hq⟩
    · obtain ⟨c1, k1, k2⟩ := h.init c s t τ h1 hs ht hτ
      exact ⟨(c1, some (s, t, τ)), by simp [recycling, hq, k1], k2, rfl⟩
  · rintro ⟨c, q⟩ s t τ ⟨h1, h2⟩ hs ht hτ
    obtain ⟨c1, o, k1, k2, k3, k4⟩ := h.target c s t τ h1 hs ht hτ
    exact ⟨(c1, q), o, by simp [recycling, k1], ⟨k2, h2⟩, k3, k4⟩
  · rintro s t τ hs ht hτ ⟨c, h1, _⟩
    exact h.latest s t τ hs ht hτ ⟨c.1, h1⟩
  · rintro ⟨c, q⟩ s t τ v x ⟨h1, h2⟩ hs ht hτ hv hx hw
    obtain ⟨c1, o, k1, k2, k3, k4⟩ := h.get c s t τ v x h1 hs ht hτ hv hx hw
    exact ⟨(c1, q), o, by simp [recycling, k1], ⟨k2, h2⟩, k3, k4⟩
  · rintro ⟨c, q⟩ s t τ ⟨h1, h2⟩ hs ht hτ
    refine ⟨h.back c s t τ h1 hs ht hτ, ?_⟩
    rintro s' t' τ' hq _ _ _
    simp only at h2 hq
    rw [h2] at hq; simp at hq
    obtain ⟨rfl, rfl, rfl⟩ := hq
    exact h1

/-- arcs between renamed nodes -/
def Renamed (order : NodeOrder) (F : Nat → Nat → (Nat → Nat) → Prop) (u v : Nat) (f : Nat → Nat) : Prop :=
  ∃ a b, order.node u = some a ∧ order.node v = some b ∧ F a b f

theorem TWalk.renamed {order : NodeOrder} (ho : order.OK n) (hF : ∀ u v f, F u v f → u < n ∧ v < n) {u a x b y v : Nat} (hu : u < n)
    (ha : order.node u = some a) (hv : v < n) (hb : order.node v = some b) : TWalk F a x b y ↔ TWalk (Renamed order F) u x v y := by
  have hinj : ∀ {r r' c}, r < n → r' < n → order.node r = some c → order.node r' = some c → r = r' := by
    intro r r' c h1 h2 h3 h4
    obtain ⟨d, _, h5, h6⟩ := ho.node_lt h1
    obtain ⟨d', _, h7, h8⟩ := ho.node_lt h2
    rw [h3] at h5; rw [h4] at h7; simp at h5 h7; subst h5; subst h7
    rw [h6] at h8; simpa using h8
  have h1 : ∀ {b y}, TWalk F a x b y → ∃ v, v < n ∧ order.node v = some b ∧ TWalk (Renamed order F) u x v y := by
    intro b y h
    induction h with
    | nil => exact ⟨u, hu, ha, .nil⟩
    | @snoc c d z f h1 h2 ih =>
      obtain ⟨v, hv, hvc, hw⟩ := ih
      obtain ⟨r, h3, _, h4⟩ := ho.rank_lt (hF _ _ _ h2).2
      exact ⟨r, h3, h4, .snoc hw ⟨c, d, hvc, h4, h2⟩⟩
  constructor
  · intro h
    obtain ⟨v', hv', hb', hw⟩ := h1 h
    rw [hinj hv hv' hb hb']; exact hw
  · intro h
    have h2 : ∀ {v y}, TWalk (Renamed order F) u x v y → ∀ b, order.node v = some b → TWalk F a x b y := by
      intro v y h
      induction h with
      | nil => intro b hb; rw [ha] at hb; simp at hb; subst hb; exact .nil
      | @snoc c d z f h1 h2 ih =>
        intro b hb
        obtain ⟨e, e', k1, k2, k3⟩ := h2
        rw [hb] at k2; simp at k2; subst k2
        exact .snoc (ih e k1) k3
    exact h2 h b hb

/-- **C66**, `TDPotentialForPermutated`: a search in a graph with renamed nodes can ask a potential for the original graph. -/
theorem C66_permuted {order : NodeOrder} (ho : order.OK n) (hF : ∀ u v f, F u v f → u < n ∧ v < n) (h : TimedPotential n F P T R I cur L) :
    TimedPotential n (Renamed order F) (permuted order P) T R
      (fun s t τ c => ∀ a b, order.node s = some a → order.node t = some b → I a b τ c)
      (fun s t τ c v => cur ((order.node s).getD 0) ((order.node t).getD 0) τ c ((order.node v).getD 0))
      (fun s t τ => L ((order.node s).getD 0) ((order.node t).getD 0) τ) := by
  constructor
  · intro c s t τ hc hs ht hτ
    obtain ⟨a, ha, h1, _⟩ := ho.node_lt hs
    obtain ⟨b, hb, h2, _⟩ := ho.node_lt ht
    obtain ⟨c1, k1, k2⟩ := h.init c a b τ hc ha hb hτ
    refine ⟨c1, by simp [permuted, h1, h2, k1], ?_⟩
    intro a' b' e1 e2
    rw [h1] at e1; rw [h2] at e2; simp at e1 e2; subst e1; subst e2; exact k2
  · intro c s t τ hc hs ht hτ
    obtain ⟨a, ha, h1, _⟩ := ho.node_lt hs
    obtain ⟨b, hb, h2, _⟩ := ho.node_lt ht
    obtain ⟨c1, o, k1, k2, k3, k4⟩ := h.target c a b τ (hc a b h1 h2) ha hb hτ
    refine ⟨c1, o, by simp [permuted, h2, k1], ?_, k3, ?_⟩
    · intro a' b' e1 e2
      rw [h1] at e1; rw [h2] at e2; simp at e1 e2; subst e1; subst e2; exact k2
    · intro h0 y hy; exact k4 h0 y ((TWalk.renamed ho hF hs h1 ht h2).2 hy)
  · rintro s t τ hs ht hτ ⟨c, hc⟩ y hy hyi
    obtain ⟨a, ha, h1, _⟩ := ho.node_lt hs
    obtain ⟨b, hb, h2, _⟩ := ho.node_lt ht
    obtain ⟨y', k1, k2, k3⟩ := h.latest a b τ ha hb hτ ⟨c, hc a b h1 h2⟩ y ((TWalk.renamed ho hF hs h1 ht h2).2 hy) hyi
    exact ⟨y', k1, by simpa [h1, h2] using k2, (TWalk.renamed ho hF hs h1 ht h2).1 k3⟩
  · intro c s t τ v x hc hs ht hτ hv hx hw
    obtain ⟨a, ha, h1, _⟩ := ho.node_lt hs
    obtain ⟨b, hb, h2, _⟩ := ho.node_lt ht
    obtain ⟨d, hd, h3, _⟩ := ho.node_lt hv
    obtain ⟨c1, o, k1, k2, k3, k4, k5, k6⟩ := h.get c a b τ d x (hc a b h1 h2) ha hb hτ hd hx ((TWalk.renamed ho hF hs h1 hv h3).2 hw)
    refine ⟨c1, o, by simp [permuted, h3, k1], ?_, ?_, ?_, k5, ?_⟩
    · intro a' b' e1 e2
      rw [h1] at e1; rw [h2] at e2; simp at e1 e2; subst e1; subst e2; exact k2
    · intro u; simpa [h1, h2] using k3 ((order.node u).getD 0)
    · simpa [h1, h2, h3] using k4
    · intro y hy hyL
      exact k6 y ((TWalk.renamed ho hF hv h3 ht h2).2 hy) (by simpa [h1, h2] using hyL)
  · intro c s t τ hc hs ht hτ
    obtain ⟨a, ha, h1, _⟩ := ho.node_lt hs
    obtain ⟨b, hb, h2, _⟩ := ho.node_lt ht
    exact h.back c a b τ (hc a b h1 h2) ha hb hτ

end

/-! The hypotheses can be met by an inconsistent potential: on `exTD`, from node 0 to node 2 it takes at least 1.5 hours, of which the arc to
node 1 takes at least one hour. The potential of node 0 is 1.5 hours, and that of node 1 is 0. -/
namespace TdAStarEx

def low (v : Nat) : Nat := if v = 0 then 5400000 else if v = 1 then 1800000 else 0

/-- the state is the target of the query -/
def table (t v : Nat) : Nat := if t = 2 ∧ v = 0 then 5400000 else 0

def pot : TDPot Nat where
  init _ _ t _ := some t
  get c v _ := some (c, some (table c v))

theorem arc_low {u v x : Nat} {f : Nat → Nat} (h : TimedArc exTD.firstOut exTD.head exTD.Takes u v f) : x + low u ≤ f x + low v := by
  obtain ⟨a, b, e, h1, h2, h3, h4, h5, h6⟩ := h
  obtain ⟨d, ⟨fn, h7, h8⟩, h9⟩ := h6 x
  obtain ⟨⟨w, hw, hle⟩, _⟩ := Plf.value_between (f := fn) (by
    have he : e < exTD.head.length := (List.getElem?_eq_some_iff.1 h5).1
    obtain ⟨f', k1, k2⟩ := exTD_valid.ttf e he
    rw [h7] at k1; injection k1 with k1; rw [k1]; exact k2) h8
  have hu : u < 3 := by
    have := (List.getElem?_eq_some_iff.1 h2).1
    simp [exTD] at this; omega
  have he3 : e < 3 := (List.getElem?_eq_some_iff.1 h5).1
  have t0 : exTD.ttf 0 = some rushHour := by decide +kernel
  have t1 : exTD.ttf 1 = some ⟨[0], [7000000]⟩ := by decide +kernel
  have t2 : exTD.ttf 2 = some ⟨[0], [1800000]⟩ := by decide +kernel
  rcases (by omega : e = 0 ∨ e = 1 ∨ e = 2) with rfl | rfl | rfl
  · rw [t0] at h7; injection h7 with h7; subst h7
    have : 3600000 ≤ w := by
      simp only [rushHour, List.mem_cons, List.mem_nil_iff, or_false] at hw; omega
    rcases (by omega : u = 0 ∨ u = 1 ∨ u = 2) with rfl | rfl | rfl <;> simp [exTD] at h1 h2 h5 <;> subst h5 <;> simp [low] <;> omega
  · rw [t1] at h7; injection h7 with h7; subst h7
    simp at hw
    rcases (by omega : u = 0 ∨ u = 1 ∨ u = 2) with rfl | rfl | rfl <;> simp [exTD] at h1 h2 h5 <;> subst h5 <;> simp [low] <;> omega
  · rw [t2] at h7; injection h7 with h7; subst h7
    simp at hw
    rcases (by omega : u = 0 ∨ u = 1 ∨ u = 2) with rfl | rfl | rfl <;> simp [exTD] at h1 h2 h5 <;> subst h5 <;> simp [low] <;> omega

theorem walk_low {u v x y : Nat} (h : TWalk (TimedArc exTD.firstOut exTD.head exTD.Takes) u x v y) : x + low u ≤ y + low v ∧ x ≤ y := by
  induction h with
  | nil => omega
  | @snoc c d z f h1 h2 ih =>
    have := arc_low (x := z) h2
    obtain ⟨a, b, e, _, _, _, _, _, h6⟩ := h2
    obtain ⟨w, _, h7⟩ := h6 z
    omega

theorem pot_ok : TimedPotential 3 (TimedArc exTD.firstOut exTD.head exTD.Takes) pot INFINITY (fun _ => True) (fun _ t _ c => c = t) (fun _ t _ _ v => table t v)
    (fun _ _ _ => INFINITY) where
  init := fun c s t τ _ _ _ _ => ⟨t, rfl, rfl⟩
  target := by
    rintro c s t τ rfl _ _ _
    refine ⟨c, _, rfl, rfl, ?_, by simp⟩
    intro p hp; injection hp with hp; rw [← hp]; simp only [table]; split <;> decide
  latest := fun s t τ _ _ _ _ y hy hyi => ⟨y, Nat.le_refl _, by omega, hy⟩
  get := by
    rintro c s t τ v x rfl _ _ _ _ _ _
    refine ⟨c, _, rfl, rfl, fun _ => Nat.le_refl _, rfl, ?_, ?_⟩
    · intro p hp; injection hp with hp; rw [← hp]; simp only [table]; split <;> decide
    · intro y hy _
      refine ⟨_, rfl, ?_⟩
      have := walk_low hy
      simp only [table]
      split
      · rename_i h; rw [h.1, h.2] at this; simp [low] at this; omega
      · omega
  back := fun _ _ _ _ _ _ _ _ => trivial

example : ∃ rs d c', TdAStar.queries (rounds 3) 3 ⟨false, false⟩ ⟨TD.links exTD.firstOut exTD.head, fun _ => some .greaterEqFour⟩ (TD.ops (exTD.eval Bits.stdSearch)) pot
    (DData.new 3 ()) 0 [(0, 0, 2), (0, 43200000, 2), (1, 0, 0)] = some (rs, d, c') ∧ True ∧
    List.Forall₂ (fun q r => ArrivalAnswer (TimedArc exTD.firstOut exTD.head exTD.Takes) q.1 q.2.1 q.2.2 (r.map (q.2.1 + ·))) [(0, 0, 2), (0, 43200000, 2), (1, 0, 0)] rs :=
  C66_td_astar Bits.stdSearch_spec.1 exTD_valid _ (fun _ _ => ⟨_, rfl⟩) pot_ok (Nat.le_refl _) (Nat.le_refl _) 0 trivial _ (by decide)

-- At night the way over node 1 is faster, at noon the direct one; ten rounds suffice.
example : (TdAStar.queries 10 3 ⟨false, false⟩ ⟨TD.links exTD.firstOut exTD.head, fun _ => some .greaterEqFour⟩ (TD.ops (exTD.eval Bits.stdSearch)) pot
    (DData.new 3 ()) 0 [(0, 0, 2), (0, 43200000, 2), (1, 0, 0)]).map Prod.fst = some [some 5400000, some 7000000, none] := by decide +kernel

end TdAStarEx
end Verif
