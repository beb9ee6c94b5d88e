import Verif.Proof.NearestNeighbor
set_option linter.unusedSimpArgs false
set_option linter.unusedVariables false
/- Property C41: nearest neighbour queries. -/
namespace Verif
open Spec CCH DData NN

private theorem dist_of_capMin {A : Nat → Nat → Nat → Prop} {s v x d : Nat} (h : CapMin (Walk A s v) x) : DistFrom A s v d ↔ x < INFINITY ∧ d = x := by
  constructor
  · rintro ⟨⟨h1, h2⟩, h3⟩
    have h4 := h.le d h1
    have h5 := h2 x (h.sound (by omega))
    omega
  · rintro ⟨h1, rfl⟩
    exact ⟨⟨h.sound h1, h.le⟩, h1⟩

/-- The state between two calls; `T` are the selected targets. -/
private structure StateOK (n : Nat) (T : List Nat) (s : NN.State) : Prop where
  data : ∃ a, Refines n s.data a
  ok : s.targets.OK
  len : n ≤ 64 * s.targets.data.length
  bits : ∀ j, Bits.bit s.targets.data j = decide (j ∈ T)

private theorem select_ok {n : Nat} {T : List Nat} {s : NN.State} (hs : StateOK n T s) (ts : List Nat) (hts : ∀ t ∈ ts, t < n) :
    ∃ s', NN.select s ts = some s' ∧ StateOK n ts s' := by
  obtain ⟨b0, h1, h2, h3, h4⟩ := hs.ok.clear
  have key : ∀ (ts done : List Nat) (b : Bits.FastClear), (∀ t ∈ ts, t < n) → b.OK → b.data.length = s.targets.data.length → (∀ j, Bits.bit b.data j = decide (j ∈ done)) →
      ∃ b', ts.foldlM (fun b t => b.set t) b = some b' ∧ b'.OK ∧ b'.data.length = s.targets.data.length ∧ ∀ j, Bits.bit b'.data j = decide (j ∈ done ∨ j ∈ ts) := by
    intro ts
    induction ts with
    | nil => intro done b _ hb hl hd; exact ⟨b, rfl, hb, hl, by simpa using hd⟩
    | cons t ts ih =>
      intro done b hts hb hl hd
      obtain ⟨b1, e1, e2, e3, e4⟩ := hb.set (i := t) (by have := hts t (by simp); have := hs.len; omega)
      obtain ⟨b', f1, f2, f3, f4⟩ := ih (t :: done) b1 (fun x hx => hts x (by simp [hx])) e2 (by omega) (by
        intro j; rw [e4, hd]; by_cases h : j = t <;> simp [h])
      refine ⟨b', by simp only [List.foldlM_cons, e1, Option.bind_eq_bind, Option.bind_some]; exact f1, f2, f3, ?_⟩
      intro j; rw [f4]; congr 1; simp; tauto
  obtain ⟨b', e1, e2, e3, e4⟩ := key ts [] b0 hts h2 h3 (by simpa using h4)
  refine ⟨{ s with targets := b' }, by simp [NN.select, h1, e1], hs.data, e2, by rw [e3]; exact hs.len, by simpa using e4⟩

private theorem query_ok {g : FOGraph} (hg : g.WF) (hw : g.Bounded) {T : List Nat} {s : NN.State} (hs : StateOK g.numNodes T s) {src k : Nat} (hsrc : src < g.numNodes)
    (hk : 1 ≤ k) : ∃ r s', NN.query g s src k = some (r, s') ∧ StateOK g.numNodes T s' ∧ KNearest (DistFrom g.Arc src) (· ∈ T) k r ∧ r.Pairwise (fun p q => p.1 ≤ q.1) := by
  obtain ⟨a0, hr⟩ := hs.data
  let δ := fun v => Classical.choose (exists_capMin (Walk g.Arc src v))
  have hδ : ∀ v, CapMin (Walk g.Arc src v) (δ v) := fun v => Classical.choose_spec (exists_capMin (Walk g.Arc src v))
  let out : List Nat → List (Nat × Nat) := fun S => (S.reverse.filter (fun v => decide (v ∈ T))).map (fun v => (δ v, v))
  let K : List Nat → List (Nat × Nat) → Prop := fun S x => x = out S ∧ x.length < k ∧ S.Pairwise (fun u v => δ v ≤ δ u)
  let Z : List Nat → List (Nat × Nat) → Prop := fun S x => x = out S ∧ x.length = k ∧ S.Pairwise (fun u v => δ v ≤ δ u)
  obtain ⟨d, x, a, S, h1, h2, h3, h4, h5, h6⟩ := visit_spec (vis := NN.visit s.targets k) (K := K) (Z := Z) (x0 := []) hg hw hsrc hδ (by
    rintro S x v d ⟨rfl, hl, hp⟩ hnd hst
    have hget : s.targets.get v = some (decide (v ∈ T)) := by
      rw [hs.ok.get, if_pos (by have := hst.lt; have := hs.len; omega), hs.bits]
    have hp' : (v :: S).Pairwise (fun u w => δ w ≤ δ u) := List.pairwise_cons.2 ⟨hst.below, hp⟩
    by_cases hv : v ∈ T
    · have ho : out (v :: S) = out S ++ [(δ v, v)] := by simp [out, hv]
      have hvis : NN.visit s.targets k (out S) d v = some (out (v :: S), decide ((out (v :: S)).length ≥ k)) := by
        rw [ho]; simp [NN.visit, hget, hv, hst.get]
      refine ⟨_, _, hvis, ?_, ?_⟩
      · intro hb
        refine ⟨rfl, ?_, hp'⟩
        simp only [decide_eq_true_eq] at hb
        rw [ho] at hb ⊢
        simp at hb ⊢; omega
      · intro hb
        simp only [decide_eq_false_iff_not] at hb
        exact ⟨rfl, by omega, hp'⟩
    · have ho : out (v :: S) = out S := by simp [out, hv]
      have hvis : NN.visit s.targets k (out S) d v = some (out (v :: S), decide ((out (v :: S)).length ≥ k)) := by
        rw [ho]; simp [NN.visit, hget, hv]
      refine ⟨_, _, hvis, ?_, ?_⟩
      · intro hb
        simp only [decide_eq_true_eq] at hb
        rw [ho] at hb; omega
      · intro hb
        exact ⟨rfl, by rw [ho]; exact hl, hp'⟩) hr ⟨by simp [out], by simp; omega, by simp⟩
  refine ⟨x, { s with data := d }, ?_, ⟨⟨a, h2⟩, hs.ok, hs.len, hs.bits⟩, ?_, ?_⟩
  · unfold NN.query
    cases hi : s.data.init src 0 with
    | none => rw [hi] at h1; simp at h1
    | some d1 =>
      rw [hi] at h1
      simp only [Option.bind_eq_bind, Option.bind_some] at h1 ⊢
      rw [h1]; rfl
  · have hx : x = out S := by rcases h6 with h6 | h6; exact h6.1; exact h6.1.1
    have hmem : ∀ v, v ∈ x.map Prod.snd ↔ v ∈ S ∧ v ∈ T := by intro v; rw [hx]; simp [out]
    subst hx
    refine ⟨?_, ?_, ?_, ?_, ?_⟩
    · have : ((out S).map Prod.snd) = S.reverse.filter (fun v => decide (v ∈ T)) := by simp [out, Function.comp_def]
      rw [this]
      exact ((List.reverse_perm S).nodup_iff.2 h3).filter _
    · intro p hp
      simp only [out, List.mem_map, List.mem_filter, List.mem_reverse, decide_eq_true_eq] at hp
      obtain ⟨v, ⟨hv1, hv2⟩, rfl⟩ := hp
      exact ⟨hv2, (dist_of_capMin (hδ v)).2 ⟨(h4 v hv1).2, rfl⟩⟩
    · rcases h6 with h6 | h6
      · exact Nat.le_of_eq h6.2.1
      · exact Nat.le_of_lt h6.1.2.1
    · intro hl v d hv hd
      rcases h6 with h6 | h6
      · have := h6.2.1; omega
      · rw [hmem]; exact ⟨h6.2 v ((dist_of_capMin (hδ v)).1 hd).1, hv⟩
    · intro p hp v d hv hd hn
      simp only [out, List.mem_map, List.mem_filter, List.mem_reverse, decide_eq_true_eq] at hp
      obtain ⟨u, ⟨hu1, hu2⟩, rfl⟩ := hp
      have := h5 u hu1 v (fun hvS => hn ((hmem v).2 ⟨hvS, hv⟩))
      rw [((dist_of_capMin (hδ v)).1 hd).2]
      exact this
  · have hx : x = out S ∧ S.Pairwise (fun u v => δ v ≤ δ u) := by rcases h6 with h6 | h6; exact ⟨h6.1, h6.2.2⟩; exact ⟨h6.1.1, h6.1.2.2⟩
    rw [hx.1]
    simp only [out, List.pairwise_map]
    exact (List.pairwise_reverse.2 hx.2).filter _

/-- **C41**, `DijkstraNearestNeighbor`. For every history of target selections and queries with `k ≥ 1`, no call fails and every query
returns the `k` nearest of the targets selected last (all reachable ones if there are less), each once, with their exact distances and sorted by
distance. Missing: `k = 0`, see `C41_zero_neighbours`. -/
theorem C41_dijkstra_nearest_partial (g : FOGraph) (hg : g.WF) (hw : g.Bounded) (cs : List NNCall) (hcs : ∀ c ∈ cs, c.valid g.numNodes) :
    ∃ rs s, NN.run g (NN.State.new g.numNodes) cs = some (rs, s) ∧
      List.Forall₂ (fun q r => KNearest (DistFrom g.Arc q.2.1) (· ∈ q.1) q.2.2 r ∧ r.Pairwise (fun p p' => p.1 ≤ p'.1)) (nnAsked [] cs) rs := by
  have key : ∀ (cs : List NNCall) (T : List Nat) (s : NN.State), (∀ c ∈ cs, c.valid g.numNodes) → StateOK g.numNodes T s → ∃ rs s', NN.run g s cs = some (rs, s') ∧
      List.Forall₂ (fun q r => KNearest (DistFrom g.Arc q.2.1) (· ∈ q.1) q.2.2 r ∧ r.Pairwise (fun p p' => p.1 ≤ p'.1)) (nnAsked T cs) rs := by
    intro cs
    induction cs with
    | nil => intro T s _ _; exact ⟨[], s, rfl, .nil⟩
    | cons c cs ih =>
      intro T s hcs hs
      have hc := hcs c (by simp)
      have hcs' : ∀ c ∈ cs, c.valid g.numNodes := fun c' h => hcs c' (by simp [h])
      cases c with
      | select ts =>
        obtain ⟨s1, h1, h2⟩ := select_ok hs ts hc
        obtain ⟨rs, s2, h3, h4⟩ := ih ts s1 hcs' h2
        exact ⟨rs, s2, by simp [NN.run, h1, h3], h4⟩
      | query src k =>
        obtain ⟨r, s1, h1, h2, h3, h4⟩ := query_ok hg hw hs hc.1 hc.2
        obtain ⟨rs, s2, h5, h6⟩ := ih T s1 hcs' h2
        exact ⟨r :: rs, s2, by simp [NN.run, h1, h5], .cons ⟨h3, h4⟩ h6⟩
  refine key cs [] _ hcs ⟨⟨_, refines_new g.numNodes ()⟩, Bits.FastClear.new_ok _, ?_, ?_⟩
  · simp [NN.State.new, Bits.FastClear.new]; omega
  · intro j
    simp only [NN.State.new, Bits.FastClear.new, Bits.bit, List.getD_eq_getElem?_getD, List.getElem?_replicate]
    split <;> simp

example : ∀ c ∈ [NNCall.select [3, 1, 4], .query 0 2, .query 0 5, .query 2 1, .select [4], .query 0 1], c.valid exGraph.numNodes := by
  simp [NNCall.valid, exGraph, FOGraph.numNodes]
example : (NN.run exGraph (NN.State.new exGraph.numNodes) [.select [3, 1, 4], .query 0 2, .query 0 5, .query 2 1, .select [4], .query 0 1]).map (·.1) =
    some [[(3, 1), (8, 3)], [(3, 1), (8, 3)], [(2, 1)], []] := by decide +kernel

/-- **C41**, `k = 0`: the query returns a target although none was asked for, when the source is a target. -/
theorem C41_zero_neighbours : ∃ r s, NN.run exGraph (NN.State.new exGraph.numNodes) [.select [0], .query 0 0] = some ([r], s) ∧
    ¬ KNearest (DistFrom exGraph.Arc 0) (· ∈ [0]) 0 r := by
  have h : (NN.run exGraph (NN.State.new exGraph.numNodes) [.select [0], .query 0 0]).map (·.1) = some [[(0, 0)]] := by decide +kernel
  cases hr : NN.run exGraph (NN.State.new exGraph.numNodes) [.select [0], .query 0 0] with
  | none => rw [hr] at h; simp at h
  | some x =>
    obtain ⟨rs, s⟩ := x
    rw [hr] at h; simp at h; subst h
    exact ⟨[(0, 0)], s, rfl, fun hk => by have := hk.size; simp at this⟩

/-- **C41**, `LazyRphastNearestNeighbor` with any potential that gives exact distances from the source: for every sequence of queries
`(source, targets, k)` with `k ≥ 1`, the `k` nearest targets. Missing: `k = 0`, see `C41_lazy_zero`. -/
theorem C41_lazy_nearest_partial {σ : Type} (P : Potential σ) (n : Nat) (s0 : σ) (A : Nat → Nat → Nat → Prop) (hP : Implements P n s0 (fun s v x => Answer A s v x))
    (drain : List (Nat × Nat) → List (Nat × Nat)) (hdr : ∀ l, (drain l).Perm l) (qs : List (Nat × List Nat × Nat))
    (hq : ∀ q ∈ qs, q.1 < n ∧ (∀ t ∈ q.2.1, t < n) ∧ q.2.1.Nodup ∧ 1 ≤ q.2.2) :
    ∃ rs, lazyQueries P drain s0 qs = some rs ∧ List.Forall₂ (fun q r => KNearest (DistFrom A q.1) (· ∈ q.2.1) q.2.2 r) qs rs := by
  have key : ∀ (qs : List (Nat × List Nat × Nat)) (s : σ), (∀ q ∈ qs, q.1 < n ∧ (∀ t ∈ q.2.1, t < n) ∧ q.2.1.Nodup ∧ 1 ≤ q.2.2) → PotReach P n s0 s →
      ∃ rs, lazyQueries P drain s qs = some rs ∧ List.Forall₂ (fun q r => KNearest (DistFrom A q.1) (· ∈ q.2.1) q.2.2 r) qs rs := by
    intro qs
    induction qs with
    | nil => intro s _ _; exact ⟨[], rfl, .nil⟩
    | cons q qs ih =>
      intro s hq hs
      obtain ⟨src, ts, k⟩ := q
      obtain ⟨q1, q2, q3, q4⟩ := hq (src, ts, k) (by simp)
      obtain ⟨s1, h1, h2⟩ := hP.init_step hs q1
      obtain ⟨s2, h, h3, h4, h5⟩ := consider_spec hP q4 ts [] s1 [] q2 q3 (by simp) h2 ⟨by simp, by simp, by simp, by simp, by simp⟩
      obtain ⟨rs, h6, h7⟩ := ih s2 (fun q' h' => hq q' (by simp [h'])) (.inr ⟨src, h4⟩)
      refine ⟨drain h :: rs, by simp [lazyQueries, lazyQuery, h1, h3, h6], .cons (NN.KNearest.congr h5 (by simp) (hdr h)) h7⟩
  exact key qs s0 hq (.inl rfl)

/-- The same for the potential of a customized CCH. -/
theorem C41_lazy_nearest_cch_partial (orig : FOGraph) (ho : orig.WF) (l : List Nat) (hl : l.length = orig.numNodes) (order : NodeOrder)
    (hord : NodeOrder.fromNodeOrder l = some order) (c : Cch) (hc : build orig order = some c)
    (metric : FOGraph) (hm : metric.WF) (hfo : metric.firstOut = orig.firstOut) (hhd : metric.head = orig.head)
    (drain : List (Nat × Nat) → List (Nat × Nat)) (hdr : ∀ l, (drain l).Perm l) (qs : List (Nat × List Nat × Nat))
    (hq : ∀ q ∈ qs, q.1 < orig.numNodes ∧ (∀ t ∈ q.2.1, t < orig.numNodes) ∧ q.2.1.Nodup ∧ 1 ≤ q.2.2) :
    ∃ w rs, customize c metric = some w ∧ lazyQueries (cchPot c (bwGraph c w) (fwGraph c w)) drain (PotState.new orig.numNodes) qs = some rs ∧
      List.Forall₂ (fun q r => KNearest (DistFrom metric.Arc q.1) (· ∈ q.2.1) q.2.2 r) qs rs := by
  obtain ⟨w, h1, h2⟩ := C40_cch_backward_potential orig ho l hl order hord c hc metric hm hfo hhd
  obtain ⟨rs, h3, h4⟩ := C41_lazy_nearest_partial _ _ _ _ h2 drain hdr qs hq
  exact ⟨w, rs, h1, h3, h4⟩

/-- A star: node 8 in the middle, joined to 0 - 7 by arcs of weight 10 in both directions. -/
def starGraph : FOGraph := ⟨[0, 1, 2, 3, 4, 5, 6, 7, 8, 16], [8, 8, 8, 8, 8, 8, 8, 8, 0, 1, 2, 3, 4, 5, 6, 7], List.replicate 16 10⟩

def starNodes : List Nat := [0, 1, 2, 3, 4, 5, 6, 7, 8]

example : ((NodeOrder.fromNodeOrder starNodes).bind (fun o => (build starGraph o).bind (fun c => (customize c starGraph).bind (fun w =>
    lazyQueries (cchPot c (bwGraph c w) (fwGraph c w)) id (PotState.new 9) [(0, [3, 8, 0], 2), (8, [8, 1], 5), (4, [1, 2, 8], 1)])))) =
    some [[(0, 0), (10, 8)], [(10, 1), (0, 8)], [(10, 8)]] := by decide +kernel

/-- **C41**, `LazyRphastNearestNeighbor` with `k = 0`: the call panics as soon as there is a reachable target. -/
theorem C41_lazy_zero {σ : Type} (P : Potential σ) (drain : List (Nat × Nat) → List (Nat × Nat)) (s s1 s2 : σ) (source t d : Nat) (ts : List Nat)
    (h1 : P.init s source = some s1) (h2 : P.get s1 t = some (s2, some d)) : lazyQuery P drain s source (t :: ts) 0 = none := by
  simp [lazyQuery, h1, consider, h2, offer, peek]

/-- **C41**, `SeparatorBasedNearestNeighbor`: the result may be wrong. In the star with all nodes as targets, the nearest neighbour of node 0
(which is node 0 itself, at distance 0) is reported to be node 8 at distance 10, because the bound of a cell is computed as if the
source was outside of the cell. -/
theorem C41_separator_based_wrong : ∃ o c w ts r s, NodeOrder.fromNodeOrder starNodes = some o ∧ build starGraph o = some c ∧ customize c starGraph = some w ∧
    sepSelect c starNodes = some ts ∧ sepQuery Bits.stdSearch isort id c (bwGraph c w) (fwGraph c w) (PotState.new 9) ts 0 1 = some (r, s) ∧
    r = [(10, 8)] ∧ ¬ KNearest (DistFrom starGraph.Arc 0) (· ∈ starNodes) 1 r := by
  have h : ((NodeOrder.fromNodeOrder starNodes).bind (fun o => (build starGraph o).bind (fun c => (customize c starGraph).bind (fun w =>
    (sepSelect c starNodes).bind (fun ts => sepQuery Bits.stdSearch isort id c (bwGraph c w) (fwGraph c w) (PotState.new 9) ts 0 1))))).map (·.1) = some [(10, 8)] := by
    decide +kernel
  cases h1 : NodeOrder.fromNodeOrder starNodes with
  | none => rw [h1] at h; simp at h
  | some o =>
    cases h2 : build starGraph o with
    | none => rw [h1] at h; simp [h2] at h
    | some c =>
      cases h3 : customize c starGraph with
      | none => rw [h1] at h; simp [h2, h3] at h
      | some w =>
        cases h4 : sepSelect c starNodes with
        | none => rw [h1] at h; simp [h2, h3, h4] at h
        | some ts =>
          cases h5 : sepQuery Bits.stdSearch isort id c (bwGraph c w) (fwGraph c w) (PotState.new 9) ts 0 1 with
          | none => rw [h1] at h; simp [h2, h3, h4, h5] at h
          | some x =>
            obtain ⟨r, s⟩ := x
            rw [h1] at h
            simp [h2, h3, h4, h5] at h
            subst h
            refine ⟨o, c, w, ts, _, s, rfl, h2, h3, h4, h5, rfl, fun hk => ?_⟩
            have := hk.nearest (10, 8) (by simp) 0 0 (by simp [starNodes]) ⟨⟨.nil 0, fun d _ => Nat.zero_le d⟩, by decide⟩ (by simp)
            simp at this

end Verif
