import Verif.Model.Penalty
import Verif.Proof.GraphOps
import Verif.Proof.GraphOps2
import Verif.Proof.HeuristicPath
/- Edge ids, tails and the reversed graph of the server for alternative routes. -/
set_option linter.unusedSimpArgs false
set_option linter.unusedVariables false
namespace Verif
namespace Penalty
open GraphOps

/-- the links of a node with edge ids -/
def ids (g : FOGraph) (v : Nat) : List (Nat × Nat) := (headIds g v).getD []

/-- all arcs in the order of their ids: (tail, head, id) -/
def allArcs (g : FOGraph) : List (Nat × Nat × Nat) := arcs g.numNodes (ids g)

theorem ids_get {g : FOGraph} (hg : g.WF) {v : Nat} (hv : v < g.numNodes) :
    ∃ a b, g.firstOut[v]? = some a ∧ g.firstOut[v + 1]? = some b ∧ a ≤ b ∧ b ≤ g.numArcs ∧ headIds g v = some (ids g v) ∧ (ids g v).length = b - a ∧
      ∀ j, j < b - a → ∃ h, g.head[a + j]? = some h ∧ (ids g v)[j]? = some (h, a + j) := by
  have hv' : v < g.adj.length := by rw [g.adj_length]; exact hv
  obtain ⟨a, b, h1, h2, h3, h4, h5, h6⟩ := hg.reps.csr.slice hv'
  have hb := hg.le_m h2
  have hsl := slice_eq (l := g.head) h3 hb
  have he : headIds g v = some (((g.head.drop a).take (b - a)).zip ((List.range (b - a)).map (· + a))) := by
    simp only [headIds, FOGraph.range, h1, h2, Option.bind_eq_bind, Option.bind_some, hsl, Option.pure_def]
  have he' : ids g v = ((g.head.drop a).take (b - a)).zip ((List.range (b - a)).map (· + a)) := by simp [ids, he]
  have hb' : b ≤ g.head.length := hb
  refine ⟨a, b, h1, h2, h3, hb, by rw [he', he], by rw [he']; simp; omega, ?_⟩
  intro j hj
  have hlt : a + j < g.head.length := by omega
  refine ⟨g.head[a + j], List.getElem?_eq_getElem hlt, ?_⟩
  rw [he', List.getElem?_zip_eq_some, List.getElem?_take_of_lt hj, List.getElem?_drop]
  refine ⟨List.getElem?_eq_getElem hlt, ?_⟩
  rw [List.getElem?_map, List.getElem?_range hj]; simp; omega

theorem arcs_prefix {g : FOGraph} (hg : g.WF) : ∀ k, k ≤ g.numNodes → ∃ a, g.firstOut[k]? = some a ∧ (arcs k (ids g)).length = a ∧
    ∀ i, i < a → ∃ u h x y, (arcs k (ids g))[i]? = some (u, h, i) ∧ u < g.numNodes ∧ g.firstOut[u]? = some x ∧ g.firstOut[u + 1]? = some y ∧ x ≤ i ∧ i < y ∧ g.head[i]? = some h
  | 0, _ => by
    refine ⟨0, ?_, by simp [arcs], by omega⟩
    have := hg.first
    rwa [List.head?_eq_getElem?] at this
  | k + 1, hk => by
    obtain ⟨a, h1, h2, h3⟩ := arcs_prefix hg k (by omega)
    obtain ⟨a', b, e1, e2, e3, _, _, e4, e5⟩ := ids_get hg (show k < g.numNodes by omega)
    rw [h1] at e1; simp only [Option.some.injEq] at e1; subst e1
    refine ⟨b, e2, by rw [arcs_succ, List.length_append, h2, List.length_map, e4]; omega, ?_⟩
    intro i hi
    rw [arcs_succ]
    by_cases hia : i < a
    · obtain ⟨u, h, x, y, f1, f2⟩ := h3 i hia
      exact ⟨u, h, x, y, by rw [List.getElem?_append_left (by omega)]; exact f1, f2⟩
    · obtain ⟨h, f1, f2⟩ := e5 (i - a) (by omega)
      rw [show a + (i - a) = i by omega] at f1 f2
      refine ⟨k, h, a, b, ?_, by omega, h1, e2, by omega, hi, f1⟩
      rw [List.getElem?_append_right (by omega), h2, List.getElem?_map, f2]; rfl

theorem allArcs_get {g : FOGraph} (hg : g.WF) : (allArcs g).length = g.numArcs ∧
    ∀ i, i < g.numArcs → ∃ u h x y, (allArcs g)[i]? = some (u, h, i) ∧ u < g.numNodes ∧ g.firstOut[u]? = some x ∧ g.firstOut[u + 1]? = some y ∧ x ≤ i ∧ i < y ∧ g.head[i]? = some h := by
  obtain ⟨a, h1, h2, h3⟩ := arcs_prefix hg g.numNodes (Nat.le_refl _)
  have hl := hg.last
  have hne : g.firstOut ≠ [] := by intro h; rw [h] at hl; simp at hl
  rw [List.getLast?_eq_getElem?] at hl
  have : g.firstOut[g.numNodes]? = some g.head.length := by simpa [FOGraph.numNodes] using hl
  rw [h1] at this; simp only [Option.some.injEq] at this
  subst this
  exact ⟨h2, h3⟩

/-- the ids of the arcs in the order of the reversed graph -/
def backIds (g : FOGraph) : List Nat := (revAdj g.numNodes (allArcs g)).flatten.map Prod.snd

theorem arcs_map {γ δ : Type} (n : Nat) (f : Nat → List γ) (φ : γ → δ) : arcs n (fun v => (f v).map φ) = (arcs n f).map (fun p => (p.1, φ p.2)) := by
  simp only [arcs, List.map_flatMap, List.map_map]; rfl

theorem revAdj_map {γ δ : Type} (n : Nat) (E : List (Nat × Nat × γ)) (φ : γ → δ) :
    revAdj n (E.map (fun p => (p.1, p.2.1, φ p.2.2))) = (revAdj n E).map (List.map (fun p => (p.1, φ p.2))) := by
  simp only [revAdj, List.map_map]
  refine List.map_congr_left fun v _ => ?_
  simp only [List.filter_map, Function.comp, List.map_map]; rfl

theorem links_ids {g : FOGraph} (hg : g.WF) {ws : List Nat} (hw : ws.length = g.numArcs) {v : Nat} (hv : v < g.numNodes) :
    ∃ ls, FOGraph.linkIter ⟨g.firstOut, g.head, ws⟩ v = some ls ∧ ls.map (fun l => (l.node, l.weight)) = (ids g v).map (fun p => (p.1, ws.getD p.2 0)) := by
  obtain ⟨a, b, h1, h2, h3, h4, h5, h6, h7⟩ := ids_get hg hv
  have hb : b ≤ g.head.length := h4
  have s1 := slice_eq (l := g.head) h3 hb
  have s2 := slice_eq (l := ws) h3 (by omega)
  refine ⟨List.zipWith Link.mk (List.take (b - a) (List.drop a g.head)) (List.take (b - a) (List.drop a ws)), by simp only [FOGraph.linkIter, FOGraph.range, h1, h2, s1, s2, Option.bind_eq_bind, Option.bind_some, Option.pure_def], ?_⟩
  apply List.ext_getElem?
  intro j
  by_cases hj : j < b - a
  · obtain ⟨h, e1, e2⟩ := h7 j hj
    have hlt : a + j < ws.length := by omega
    rw [List.getElem?_map, List.getElem?_map, e2, List.getElem?_zipWith, List.getElem?_take_of_lt hj, List.getElem?_take_of_lt hj, List.getElem?_drop,
      List.getElem?_drop, e1, List.getElem?_eq_getElem hlt]
    simp [List.getD_eq_getElem?_getD, List.getElem?_eq_getElem hlt]
  · rw [List.getElem?_eq_none (by simp; omega), List.getElem?_eq_none (by simp; omega)]

/-- the reversed graph for arbitrary weights -/
theorem reversed_ids {g : FOGraph} (hg : g.WF) : ∃ fo hd, ∀ ws : List Nat, ws.length = g.numArcs →
    reversed g.numNodes g.numArcs (FOGraph.linkIter ⟨g.firstOut, g.head, ws⟩) = some ⟨fo, hd, (backIds g).map (fun e => ws.getD e 0)⟩ := by
  obtain ⟨hm1, hn1⟩ := WF.small_arcs hg
  have hheads : ∀ v l, v < g.numNodes → l ∈ ids g v → l.1 < g.numNodes := by
    intro v l hv hl
    obtain ⟨a, b, _, _, _, _, _, h6, h7⟩ := ids_get hg hv
    obtain ⟨j, hj⟩ := List.mem_iff_getElem?.1 hl
    obtain ⟨hlt, _⟩ := List.getElem?_eq_some_iff.1 hj
    obtain ⟨h, e1, e2⟩ := h7 j (by omega)
    rw [hj] at e2; simp only [Option.some.injEq] at e2; subst e2
    exact hg.heads _ (List.mem_of_getElem? e1)
  have hlen := (allArcs_get hg).1
  -- the structure, from the ids
  obtain ⟨st0, i1, i2, i3, i4⟩ := revBuild_spec 0 g.numNodes g.numArcs (headIds g) (ids g) (fun v hv => by
    obtain ⟨_, _, _, _, _, _, h, _⟩ := ids_get hg hv; exact h) hheads hlen (by omega)
  refine ⟨st0.firstOut, st0.head, fun ws hw => ?_⟩
  have hE : arcs g.numNodes (fun v => (ids g v).map (fun p => (p.1, ws.getD p.2 0))) = (allArcs g).map (fun p => (p.1, p.2.1, ws.getD p.2.2 0)) := by
    rw [arcs_map]; rfl
  obtain ⟨st, j1, j2, j3, j4⟩ := revBuild_spec 0 g.numNodes g.numArcs (fun v => (FOGraph.linkIter ⟨g.firstOut, g.head, ws⟩ v).map (List.map (fun l => (l.node, l.weight))))
    (fun v => (ids g v).map (fun p => (p.1, ws.getD p.2 0))) (by
      intro v hv
      obtain ⟨ls, k1, k2⟩ := links_ids hg hw hv
      simp only [k1, Option.map_some, k2]) (by
      intro v l hv hl
      obtain ⟨p, hp, rfl⟩ := List.mem_map.1 hl
      exact hheads v p hv hp) (by rw [hE, List.length_map]; exact hlen) (by omega)
  rw [hE, revAdj_map g.numNodes (allArcs g) (fun e => ws.getD e 0)] at j2 j3 j4
  have hj3 : st.head = st0.head := by
    rw [j3, i3, ← List.map_flatten, List.map_map]; rfl
  have hj4 : st.payload = (backIds g).map (fun e => ws.getD e 0) := by
    rw [j4, backIds, ← List.map_flatten, List.map_map, List.map_map]; rfl
  have hj2 : st.firstOut = st0.firstOut := by
    apply List.ext_getElem?
    intro v
    have l1 := j2.len; have l2 := i2.len
    rw [List.length_map] at l1
    simp only [allArcs] at l1
    by_cases hv : v ≤ (revAdj g.numNodes (arcs g.numNodes (ids g))).length
    · have r1 := i2.get v hv
      have r2 := j2.get v (by rw [List.length_map]; exact hv)
      rw [r1, r2, ← List.map_take, ← List.map_flatten, List.length_map]
      rfl
    · rw [List.getElem?_eq_none (by omega), List.getElem?_eq_none (by omega)]
  have hwf : FOGraph.WF ⟨g.firstOut, g.head, ws⟩ := ⟨hg.small, hg.first, hg.last, hw, hg.mono, hg.heads⟩
  obtain ⟨r, r1, _⟩ := reversed_spec hwf
  have hn : FOGraph.numNodes ⟨g.firstOut, g.head, ws⟩ = g.numNodes := rfl
  have hm : FOGraph.numArcs ⟨g.firstOut, g.head, ws⟩ = g.numArcs := rfl
  rw [hn, hm] at r1
  rw [r1]
  simp only [reversed, j1, Option.bind_eq_bind, Option.bind_some] at r1
  have : r = ⟨st.firstOut, st.head, st.payload⟩ := by
    unfold FOGraph.new at r1
    split at r1
    · simpa using r1.symm
    · simp at r1
  rw [this, hj2, hj3, hj4]

theorem backIds_perm {g : FOGraph} (hg : g.WF) : (backIds g).Perm (List.range g.numArcs) := by
  obtain ⟨hl, hget⟩ := allArcs_get hg
  have hmap : (allArcs g).map (fun p => p.2.2) = List.range g.numArcs := by
    apply List.ext_getElem?
    intro i
    by_cases hi : i < g.numArcs
    · obtain ⟨u, h, x, y, e1, _⟩ := hget i hi
      rw [List.getElem?_map, e1, List.getElem?_range hi]; rfl
    · rw [List.getElem?_eq_none (by simp; omega), List.getElem?_eq_none (by simp; omega)]
  have hheads : ∀ e ∈ allArcs g, e.2.1 < g.numNodes := by
    intro e he
    obtain ⟨i, hi⟩ := List.mem_iff_getElem?.1 he
    obtain ⟨hlt, _⟩ := List.getElem?_eq_some_iff.1 hi
    obtain ⟨u, h, x, y, e1, _, _, _, _, _, e2⟩ := hget i (by omega)
    rw [hi] at e1; simp only [Option.some.injEq] at e1; subst e1
    exact hg.heads _ (List.mem_of_getElem? e2)
  -- buckets
  have key : ∀ (n : Nat) (E : List (Nat × Nat × Nat)), (∀ e ∈ E, e.2.1 < n) → ((revAdj n E).flatten.map Prod.snd).Perm (E.map (fun p => p.2.2)) := by
    intro n
    induction n with
    | zero =>
      intro E hE
      cases E with
      | nil => simp [revAdj]
      | cons e _ => exact absurd (hE e (by simp)) (by omega)
    | succ n ih =>
      intro E hE
      have h1 : revAdj (n + 1) E = revAdj n (E.filter (fun e => decide (e.2.1 < n))) ++ [(E.filter (fun e => decide (e.2.1 = n))).map (fun e => (e.1, e.2.2))] := by
        simp only [revAdj, List.range_succ, List.map_append, List.map_cons, List.map_nil]
        congr 1
        refine List.map_congr_left fun v hv => ?_
        rw [List.filter_filter]
        congr 1
        refine List.filter_congr fun e _ => ?_
        simp at hv
        by_cases h : e.2.1 = v
        · simp [h, hv]
        · simp [h]
      rw [h1, List.flatten_append, List.map_append]
      have h2 := ih (E.filter (fun e => decide (e.2.1 < n))) (by intro e he; simpa using (List.mem_filter.1 he).2)
      have h3 : (E.filter (fun e => decide (e.2.1 = n))) = E.filter (fun e => !decide (e.2.1 < n)) := by
        refine List.filter_congr fun e he => ?_
        have := hE e he
        by_cases h : e.2.1 = n
        · simp [h]
        · have : e.2.1 < n := by omega
          simp [h, this]
      refine (h2.append_right _).trans ?_
      rw [h3]
      have h4 := (List.filter_append_perm (fun e : Nat × Nat × Nat => decide (e.2.1 < n)) E).map (fun p => p.2.2)
      rw [List.map_append] at h4
      simpa [Function.comp_def] using h4
  have := key g.numNodes (allArcs g) hheads
  rw [hmap] at this
  exact this

theorem headsOf_ids {g : FOGraph} (hg : g.WF) {v : Nat} (hv : v < g.numNodes) : Topo.headsOf g v = some ((ids g v).map Prod.fst) := by
  obtain ⟨ls, h1, h2⟩ := links_ids (ws := g.weight) hg hg.weights hv
  have h1' : g.linkIter v = some ls := h1
  simp only [Topo.headsOf, h1', Option.bind_eq_bind, Option.bind_some, Option.pure_def, Option.some.injEq]
  have := congrArg (List.map Prod.fst) h2
  simpa [List.map_map, Function.comp_def] using this

theorem tails_spec {g : FOGraph} (hg : g.WF) : tails g = some ((allArcs g).map Prod.fst) := by
  unfold tails
  rw [forLinks_eq (f := fun v => (ids g v).map Prod.fst) (fun v hv => headsOf_ids hg hv), arcs_map]
  obtain ⟨s', h1, h2⟩ := foldlM_inv (fun (st : List Nat × Nat) (p : Nat × Nat) => do
      let tail ← upd st.1 st.2 p.1
      return (tail, st.2 + 1)) (fun P st => st.2 = P.length ∧ st.1.length = g.numArcs ∧ st.1.take P.length = P.map Prod.fst)
    ((allArcs g).map (fun p => (p.1, p.2.1))) (by
      rintro P x Q ⟨tail, k⟩ hE ⟨rfl, h2, h3⟩
      have hlen := congrArg List.length hE
      simp only [List.length_map, (allArcs_get hg).1, List.length_append, List.length_cons] at hlen
      simp only at h2 h3
      have hk : P.length < tail.length := by omega
      refine ⟨(tail.set P.length x.1, P.length + 1), by simp only [upd_of_lt _ hk, Option.bind_eq_bind, Option.bind_some, Option.pure_def], by simp, by simp [h2], ?_⟩
      simp only [List.length_append, List.length_cons, List.length_nil, List.map_append, List.map_cons, List.map_nil]
      rw [List.take_add_one, List.take_set_of_le (Nat.le_refl _), h3, List.getElem?_set_self (by omega)]
      rfl)
    (List.replicate g.numArcs 0, 0) ⟨rfl, by simp, by simp⟩
  obtain ⟨t, k⟩ := s'
  simp only at h2
  obtain ⟨h3, h4, h5⟩ := h2
  simp only [allArcs] at h1
  rw [h1]
  simp only [Option.bind_eq_bind, Option.bind_some, Option.pure_def, Option.some.injEq]
  rw [List.length_map, (allArcs_get hg).1, List.take_of_length_le (by omega), List.map_map] at h5
  rw [h5]; rfl

theorem edgeIdMap_spec {g : FOGraph} (hg : g.WF) : ∃ f2b, edgeIdMap g = some f2b ∧ f2b.length = g.numArcs ∧
    ∀ i e : Nat, (backIds g)[i]? = some e → f2b[e]? = some i := by
  obtain ⟨hm1, hn1⟩ := WF.small_arcs hg
  unfold edgeIdMap
  rw [forLinks_eq (f := fun v => (ids g v).map Prod.fst) (fun v hv => headsOf_ids hg hv), arcs_map]
  obtain ⟨hal, hag⟩ := allArcs_get hg
  have hheads : ∀ e ∈ allArcs g, e.2.1 < g.numNodes := by
    intro e he
    obtain ⟨i, hi⟩ := List.mem_iff_getElem?.1 he
    obtain ⟨hlt, _⟩ := List.getElem?_eq_some_iff.1 hi
    obtain ⟨u, h, x, y, e1, _, _, _, _, _, e2⟩ := hag i (by omega)
    rw [hi] at e1; simp only [Option.some.injEq] at e1; subst e1
    exact hg.heads _ (List.mem_of_getElem? e2)
  obtain ⟨s1, h1, h2, h3⟩ := foldlM_inv (fun (st : List (List Nat) × Nat) (p : Nat × Nat × Nat) => do
      let l ← st.1[p.2.1]?
      let ids ← upd st.1 p.2.1 (l ++ [st.2])
      let k ← add32 st.2 1
      return (ids, k)) (fun P st => st.2 = P.length ∧ st.1 = (revAdj g.numNodes P).map (List.map Prod.snd))
    (allArcs g) (by
      rintro P ⟨u, h, e⟩ Q ⟨l, k⟩ hE ⟨rfl, rfl⟩
      have hlen := congrArg List.length hE
      simp only [hal, List.length_append, List.length_cons] at hlen
      have hh : h < g.numNodes := hheads (u, h, e) (by rw [hE]; simp)
      have he : e = P.length := by
        obtain ⟨u', h', _, _, e1, _⟩ := hag P.length (by omega)
        rw [hE, List.getElem?_append_right (Nat.le_refl _)] at e1
        simp at e1; exact e1.2.2
      have hr : h < (revAdj g.numNodes P).length := by rw [revAdj_length]; exact hh
      refine ⟨_, by
        simp only [List.getElem?_map, List.getElem?_eq_getElem hr, Option.map_some, Option.bind_eq_bind, Option.bind_some,
          upd_of_lt _ (show h < ((revAdj g.numNodes P).map (List.map Prod.snd)).length by rw [List.length_map]; exact hr),
          add32_of_lt (show P.length + 1 < U32 by omega), Option.pure_def]; rfl, by simp, ?_⟩
      apply List.ext_getElem
      · simp [revAdj_length]
      · intro v hv1 hv2
        simp only [List.length_set, List.length_map, revAdj_length] at hv1
        simp only [List.getElem_set, List.getElem_map, revAdj, List.getElem_range, List.filter_append, List.map_append, List.map_map]
        by_cases hv : h = v
        · subst hv
          rw [if_pos rfl]; simp [he]
        · rw [if_neg hv]; simp [hv]) (List.replicate g.numNodes [], 0) ⟨rfl, by simp [revAdj, Function.comp_def, List.map_const']⟩
  obtain ⟨l, k⟩ := s1
  simp only at h2 h3
  subst h2; subst h3
  simp only [List.foldlM_map]
  have h1' := h1
  simp only [allArcs] at h1'
  rw [h1']
  simp only [Option.bind_eq_bind, Option.bind_some]
  -- the second loop runs over the flattened list
  have hflat : ∀ (xs : List (List Nat)) (st : List Nat × Nat), xs.foldlM (fun st l => l.foldlM (fun (st : List Nat × Nat) e => do
        let f2b ← upd st.1 e st.2
        let k ← add32 st.2 1
        return (f2b, k)) st) st = xs.flatten.foldlM (fun (st : List Nat × Nat) e => do
        let f2b ← upd st.1 e st.2
        let k ← add32 st.2 1
        return (f2b, k)) st := by
    intro xs
    induction xs with
    | nil => intro st; rfl
    | cons x xs ih =>
      intro st
      rw [List.foldlM_cons, List.flatten_cons, List.foldlM_append]
      congr 1; funext st'; exact ih st'
  have hb : ((revAdj g.numNodes (allArcs g)).map (List.map Prod.snd)).flatten = backIds g := by rw [backIds, List.map_flatten]
  have hflat' := hflat ((revAdj g.numNodes (allArcs g)).map (List.map Prod.snd)) (List.replicate (allArcs g).length (allArcs g).length, 0)
  rw [hb] at hflat'
  simp only [allArcs] at hflat'
  simp only [Option.bind_eq_bind] at hflat'
  have hperm := backIds_perm hg
  obtain ⟨s2, j1, j2, j3, j4⟩ := foldlM_inv (fun (st : List Nat × Nat) (e : Nat) => do
      let f2b ← upd st.1 e st.2
      let k ← add32 st.2 1
      return (f2b, k)) (fun P st => st.2 = P.length ∧ st.1.length = g.numArcs ∧ ∀ i e : Nat, P[i]? = some e → st.1[e]? = some i)
    (backIds g) (by
      rintro P e Q ⟨l, k⟩ hE ⟨rfl, hl, hi⟩
      have hlen := hperm.length_eq
      rw [hE] at hlen; simp only [List.length_append, List.length_cons, List.length_range] at hlen
      have he : e < g.numArcs := by
        have : e ∈ List.range g.numArcs := hperm.mem_iff.1 (by rw [hE]; simp)
        simpa using this
      simp only at hl hi
      have hnd : (P ++ e :: Q).Nodup := by rw [← hE]; exact hperm.nodup_iff.2 List.nodup_range
      refine ⟨_, by simp only [upd_of_lt _ (show e < l.length by omega), add32_of_lt (show P.length + 1 < U32 by omega), Option.bind_eq_bind,
        Option.bind_some, Option.pure_def]; rfl, by simp, by simp [hl], ?_⟩
      intro i e' hie
      by_cases hip : i < P.length
      · rw [List.getElem?_append_left hip] at hie
        have hne : e ≠ e' := by
          rintro rfl
          rw [List.nodup_append] at hnd
          exact hnd.2.2 e (List.mem_of_getElem? hie) e (by simp) rfl
        simp only
        rw [List.getElem?_set_ne hne]; exact hi i e' hie
      · obtain ⟨hlt, _⟩ := List.getElem?_eq_some_iff.1 hie
        simp at hlt
        have : i = P.length := by omega
        subst this
        rw [List.getElem?_append_right (Nat.le_refl _)] at hie
        simp at hie; subst hie
        simp only
        rw [List.getElem?_set_self (by omega)]) (List.replicate g.numArcs g.numArcs, 0) ⟨rfl, by simp, by simp⟩
  have hal' := hal
  simp only [allArcs] at hal'
  rw [hal'] at hflat'
  simp only [Option.bind_eq_bind] at j1
  refine ⟨s2.1, ?_, j3, j4⟩
  simp only [allArcs, hal']
  rw [hflat', j1]
  rfl

end Penalty
end Verif
