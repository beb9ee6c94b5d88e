import Verif.Proof.GraphOps2
set_option linter.unusedSimpArgs false
set_option linter.unusedVariables false
/- Proofs for unify_parallel_edges (C17). -/
namespace Verif
open Spec
namespace GraphOps

/-- `m` is the minimum of the weights (given by `W`) of the edges `e'` in `[a, b)` with the head of `e`. -/
structure MinIn (head : List Nat) (W : List Nat) (a b e m : Nat) : Prop where
  att : ∃ e', a ≤ e' ∧ e' < b ∧ head[e']? = head[e]? ∧ W[e']? = some m
  le : ∀ e' w, a ≤ e' → e' < b → head[e']? = head[e]? → W[e']? = some w → m ≤ w

theorem unifyStep_spec {head W W0 : List Nat} {n a b : Nat} (hab : a ≤ b) (hb : b ≤ head.length) (hW : W.length = head.length)
    (hh : ∀ h ∈ head, h < n) (hw : ∀ e w, a ≤ e → e < b → W[e]? = some w → w ≤ INFINITY) :
    ∃ W', unifyStep head ((List.range (b - a)).map (· + a)) (List.replicate n INFINITY, W) = some (List.replicate n INFINITY, W') ∧
      W'.length = head.length ∧ (∀ e, a ≤ e → e < b → ∃ m, W'[e]? = some m ∧ MinIn head W a b e m) ∧
      (∀ e, ¬ (a ≤ e ∧ e < b) → W'[e]? = W[e]?) := by
  let es := (List.range (b - a)).map (· + a)
  have hes : ∀ e, e ∈ es ↔ a ≤ e ∧ e < b := by
    intro e
    simp only [es, List.mem_map, List.mem_range]
    constructor
    · rintro ⟨i, hi, rfl⟩; omega
    · rintro ⟨h1, h2⟩; exact ⟨e - a, by omega, by omega⟩
  have hget : ∀ e, e ∈ es → ∃ h w, head[e]? = some h ∧ W[e]? = some w ∧ h < n ∧ w ≤ INFINITY := by
    intro e he
    obtain ⟨h1, h2⟩ := (hes e).1 he
    have e1 : head[e]? = some (head[e]'(by omega)) := List.getElem?_eq_getElem _
    have e2 : W[e]? = some (W[e]'(by omega)) := List.getElem?_eq_getElem _
    exact ⟨_, _, e1, e2, hh _ (List.getElem_mem _), hw e _ h1 h2 e2⟩
  -- first loop
  obtain ⟨cache, c1, c2, c3⟩ := foldlM_inv (fun (cache : List Nat) e => do
      let h ← head[e]?
      let w ← W[e]?
      let c ← cache[h]?
      upd cache h (min c w))
    (fun P cache => cache.length = n ∧ ∀ h, h < n → ∃ m, cache[h]? = some m ∧ m ≤ INFINITY ∧
      (∀ e ∈ P, ∀ w, head[e]? = some h → W[e]? = some w → m ≤ w) ∧
      (m = INFINITY ∨ ∃ e ∈ P, head[e]? = some h ∧ W[e]? = some m)) es (by
      intro P e Q cache hE ⟨hl, hi⟩
      obtain ⟨h, w, e1, e2, hhn, hwi⟩ := hget e (by rw [hE]; simp)
      obtain ⟨m, hm1, hm2, hm3, hm4⟩ := hi h hhn
      refine ⟨cache.set h (min m w), ?_, by simp [hl], ?_⟩
      · simp only [e1, e2, hm1, Option.bind_eq_bind, Option.bind_some]
        exact upd_of_lt _ (by omega)
      · intro h' hh'
        by_cases heq : h = h'
        · subst heq
          refine ⟨min m w, by rw [List.getElem?_set_self (by omega)], by omega, ?_, ?_⟩
          · intro e' he' w' h1 h2
            rcases List.mem_append.1 he' with he' | he'
            · have := hm3 e' he' w' h1 h2; omega
            · simp at he'; subst he'; rw [e2] at h2; simp at h2; omega
          · rcases Nat.le_total m w with hle | hle
            · rw [Nat.min_eq_left hle]
              rcases hm4 with h | ⟨e', he', h⟩
              · exact .inl h
              · exact .inr ⟨e', by simp [he'], h⟩
            · rw [Nat.min_eq_right hle]
              exact .inr ⟨e, by simp, e1, e2⟩
        · obtain ⟨m', hm1', hm2', hm3', hm4'⟩ := hi h' hh'
          refine ⟨m', by rw [List.getElem?_set_ne heq]; exact hm1', hm2', ?_, ?_⟩
          · intro e' he' w' h1 h2
            rcases List.mem_append.1 he' with he' | he'
            · exact hm3' e' he' w' h1 h2
            · simp at he'; subst he'; rw [e1] at h1; simp at h1; exact absurd h1 heq
          · rcases hm4' with h | ⟨e', he', h⟩
            · exact .inl h
            · exact .inr ⟨e', by simp [he'], h⟩)
    (List.replicate n INFINITY) ⟨by simp, by
      intro h hh; exact ⟨INFINITY, by simp [List.getElem?_replicate, hh], Nat.le_refl _, by simp, .inl rfl⟩⟩
  -- second loop
  obtain ⟨W', d1, d2, d3, d4⟩ := foldlM_inv (fun (weight : List Nat) e => do
      let h ← head[e]?
      let c ← cache[h]?
      upd weight e c)
    (fun P weight => weight.length = head.length ∧ (∀ e ∈ P, ∃ h c, head[e]? = some h ∧ cache[h]? = some c ∧ weight[e]? = some c) ∧
      (∀ e, e ∉ P → weight[e]? = W[e]?)) es (by
      intro P e Q weight hE ⟨hl, hi1, hi2⟩
      have hees : e ∈ es := by rw [hE]; simp
      obtain ⟨h, w, e1, e2, hhn, hwi⟩ := hget e hees
      obtain ⟨m, hm1, _⟩ := c3 h hhn
      have heb := (hes e).1 hees
      refine ⟨weight.set e m, ?_, by simp [hl], ?_, ?_⟩
      · simp only [e1, hm1, Option.bind_eq_bind, Option.bind_some]
        exact upd_of_lt _ (by omega)
      · intro e' he'
        by_cases heq : e = e'
        · subst heq
          exact ⟨h, m, e1, hm1, by rw [List.getElem?_set_self (by omega)]⟩
        · rcases List.mem_append.1 he' with he' | he'
          · obtain ⟨h', c', x1, x2, x3⟩ := hi1 e' he'
            exact ⟨h', c', x1, x2, by rw [List.getElem?_set_ne heq]; exact x3⟩
          · simp at he'; exact absurd he'.symm heq
      · intro e' he'
        simp at he'
        rw [List.getElem?_set_ne (fun h => he'.2 h.symm)]
        exact hi2 e' he'.1)
    W ⟨hW, by simp, by simp⟩
  -- third loop
  obtain ⟨cache', f1, f2, f3, f4⟩ := foldlM_inv (fun (cache : List Nat) e => do
      let h ← head[e]?
      upd cache h INFINITY)
    (fun P c => c.length = n ∧ (∀ e ∈ P, ∀ h, head[e]? = some h → c[h]? = some INFINITY) ∧
      (∀ h, (∀ e ∈ P, head[e]? ≠ some h) → c[h]? = cache[h]?)) es (by
      intro P e Q c hE ⟨hl, hi1, hi2⟩
      obtain ⟨h, w, e1, e2, hhn, hwi⟩ := hget e (by rw [hE]; simp)
      refine ⟨c.set h INFINITY, ?_, by simp [hl], ?_, ?_⟩
      · simp only [e1, Option.bind_eq_bind, Option.bind_some]
        exact upd_of_lt _ (by omega)
      · intro e' he' h' hh'
        by_cases heq : h = h'
        · subst heq; rw [List.getElem?_set_self (by omega)]
        · rw [List.getElem?_set_ne heq]
          rcases List.mem_append.1 he' with he' | he'
          · exact hi1 e' he' h' hh'
          · simp at he'; subst he'; rw [e1] at hh'; simp at hh'; exact absurd hh' heq
      · intro h' hh'
        have : h ≠ h' := fun hc => hh' e (by simp) (by rw [e1, hc])
        rw [List.getElem?_set_ne this]
        exact hi2 h' (fun e' he' => hh' e' (by simp [he'])))
    cache ⟨c2, by simp, by simp⟩
  have hcache : cache' = List.replicate n INFINITY := by
    apply List.ext_getElem?
    intro h
    by_cases hh' : h < n
    · rw [List.getElem?_replicate, if_pos hh']
      by_cases hex : ∃ e ∈ es, head[e]? = some h
      · obtain ⟨e, he, h1⟩ := hex
        exact f3 e he h h1
      · rw [f4 h (fun e he h1 => hex ⟨e, he, h1⟩)]
        obtain ⟨m, hm1, _, _, hm4⟩ := c3 h hh'
        rcases hm4 with rfl | ⟨e, he, h1, _⟩
        · exact hm1
        · exact absurd ⟨e, he, h1⟩ hex
    · rw [List.getElem?_eq_none (by omega), List.getElem?_eq_none (by simp; omega)]
  refine ⟨W', ?_, d2, ?_, ?_⟩
  · simp only [Option.bind_eq_bind] at c1 d1 f1
    simp only [unifyStep, Option.bind_eq_bind]
    rw [c1]
    simp only [Option.bind_some]
    rw [d1]
    simp only [Option.bind_some]
    rw [f1, ← hcache]
    rfl
  · intro e h1 h2
    have hee := (hes e).2 ⟨h1, h2⟩
    obtain ⟨h, c, x1, x2, x3⟩ := d3 e hee
    obtain ⟨h', w, e1, e2, hhn, hwi⟩ := hget e hee
    rw [x1] at e1; simp at e1; subst e1
    obtain ⟨m, hm1, hm2, hm3, hm4⟩ := c3 h hhn
    rw [x2] at hm1; simp at hm1; subst hm1
    refine ⟨c, x3, ?_, ?_⟩
    · rcases hm4 with hm4 | ⟨e', he', h3, h4⟩
      · refine ⟨e, h1, h2, rfl, ?_⟩
        have := hm3 e hee w x1 e2
        rw [e2]; congr 1; omega
      · obtain ⟨h5, h6⟩ := (hes e').1 he'
        exact ⟨e', h5, h6, by rw [h3, x1], h4⟩
    · intro e' w' h5 h6 h7 h8
      exact hm3 e' ((hes e').2 ⟨h5, h6⟩) w' (by rw [h7, x1]) h8
  · intro e he
    exact d4 e (fun h => he ((hes e).1 h))

theorem unify_spec {g : FOGraph} (hg : g.WF) (hw : ∀ w ∈ g.weight, w ≤ INFINITY) :
    ∃ g', unifyParallelEdges g = some g' ∧ g'.firstOut = g.firstOut ∧ g'.head = g.head ∧ g'.weight.length = g.weight.length ∧
      ∀ u a b e, g.firstOut[u]? = some a → g.firstOut[u + 1]? = some b → a ≤ e → e < b →
        ∃ m, g'.weight[e]? = some m ∧ MinIn g.head g.weight a b e m := by
  have hn : g.firstOut.length = g.numNodes + 1 := by have := hg.fo_len; simp [FOGraph.numNodes]; omega
  obtain ⟨st, h1, h2, h3, h4, h5⟩ := foldlM_inv (fun (st : List Nat × List Nat) v => do
    let (a, b) ← g.range v
    let _ ← slice g.head a b
    let _ ← slice st.2 a b
    unifyStep g.head ((List.range (b - a)).map (· + a)) st)
    (fun P st => st.1 = List.replicate g.numNodes INFINITY ∧ st.2.length = g.head.length ∧
      (∀ u ∈ P, ∀ a b e, g.firstOut[u]? = some a → g.firstOut[u + 1]? = some b → a ≤ e → e < b →
        ∃ m, st.2[e]? = some m ∧ MinIn g.head g.weight a b e m) ∧
      (∀ e, (∀ u ∈ P, ∀ a b, g.firstOut[u]? = some a → g.firstOut[u + 1]? = some b → ¬ (a ≤ e ∧ e < b)) → st.2[e]? = g.weight[e]?))
    (List.range g.numNodes) (by
      rintro P v Q ⟨c, W⟩ hE ⟨hi1, hi2, hi3, hi4⟩
      simp only at hi1 hi2 hi3 hi4
      subst hi1
      have hv : v < g.numNodes := by
        have : v ∈ List.range g.numNodes := by rw [hE]; simp
        simpa using this
      have hvP : ∀ u ∈ P, u < v ∨ v < u := by
        intro u hu
        have hnd : (P ++ v :: Q).Nodup := hE ▸ List.nodup_range
        have := (List.nodup_append.1 hnd).2.2 u hu v (by simp)
        omega
      have ha : g.firstOut[v]? = some (g.firstOut[v]'(by omega)) := List.getElem?_eq_getElem _
      have hb : g.firstOut[v + 1]? = some (g.firstOut[v + 1]'(by omega)) := List.getElem?_eq_getElem _
      generalize hga : g.firstOut[v]'(by omega) = a at ha
      generalize hgb : g.firstOut[v + 1]'(by omega) = b at hb
      have hab := hg.mono v a b ha hb
      have hbm := hg.le_m hb
      -- ranges are disjoint
      have hdisj : ∀ u ∈ P, ∀ a' b', g.firstOut[u]? = some a' → g.firstOut[u + 1]? = some b' → b' ≤ a ∨ b ≤ a' := by
        intro u hu a' b' h1 h2
        rcases hvP u hu with h | h
        · exact .inl (hg.mono' (by omega) h2 ha)
        · exact .inr (hg.mono' (by omega) hb h1)
      have horig : ∀ e, a ≤ e → e < b → W[e]? = g.weight[e]? := by
        intro e h1 h2
        apply hi4
        intro u hu a' b' h3 h4 h5
        rcases hdisj u hu a' b' h3 h4 with h | h <;> omega
      obtain ⟨W', w1, w2, w3, w4⟩ := unifyStep_spec (W0 := g.weight) hab hbm hi2 hg.heads (by
        intro e w h1 h2 h3
        rw [horig e h1 h2] at h3
        exact hw w (List.mem_of_getElem? h3))
      refine ⟨(List.replicate g.numNodes INFINITY, W'), ?_, rfl, w2, ?_, ?_⟩
      · simp only [FOGraph.range, ha, hb, Option.bind_eq_bind, Option.bind_some, Option.pure_def, slice_eq hab hbm,
          slice_eq (l := W) hab (hi2.symm ▸ hbm)]
        exact w1
      · intro u hu a' b' e h1 h2 h3 h4
        rcases List.mem_append.1 hu with hu | hu
        · obtain ⟨m, h5, h6⟩ := hi3 u hu a' b' e h1 h2 h3 h4
          refine ⟨m, ?_, h6⟩
          simp only
          rw [w4 e (by intro hc; rcases hdisj u hu a' b' h1 h2 with h | h <;> omega)]
          exact h5
        · simp at hu; subst hu
          rw [ha] at h1; rw [hb] at h2; simp at h1 h2; subst h1; subst h2
          obtain ⟨m, h5, h6, h7⟩ := w3 e h3 h4
          refine ⟨m, h5, ?_, ?_⟩
          · obtain ⟨e', h8, h9, h10, h11⟩ := h6
            exact ⟨e', h8, h9, h10, by rw [← horig e' h8 h9]; exact h11⟩
          · intro e' w' h8 h9 h10 h11
            exact h7 e' w' h8 h9 h10 (by rw [horig e' h8 h9]; exact h11)
      · intro e he
        simp only
        rw [w4 e (he v (by simp) a b ha hb)]
        exact hi4 e (fun u hu => he u (by simp [hu])))
    (List.replicate g.numNodes INFINITY, g.weight) ⟨rfl, hg.weights, by simp, by simp⟩
  refine ⟨{ g with weight := st.2 }, ?_, rfl, rfl, by simp [h3, hg.weights], ?_⟩
  · simp only [unifyParallelEdges, Option.bind_eq_bind]
    simp only [Option.bind_eq_bind] at h1
    rw [h1]; rfl
  · intro u a b e hu1 hu2 he1 he2
    have hu : u < g.numNodes := by
      have := (List.getElem?_eq_some_iff.1 hu2).1; omega
    exact h4 u (by simp [hu]) a b e hu1 hu2 he1 he2

end GraphOps

namespace FOGraph

/-- Arcs in terms of the arrays. -/
theorem WF.arc_iff {g : FOGraph} (hg : g.WF) {u v w : Nat} : g.Arc u v w ↔ ∃ a b e, g.firstOut[u]? = some a ∧
    g.firstOut[u + 1]? = some b ∧ a ≤ e ∧ e < b ∧ g.head[e]? = some v ∧ g.weight[e]? = some w := by
  constructor
  · rintro ⟨ls, h1, h2⟩
    have hu := hg.tail_lt h1
    obtain ⟨a, b, h3, h4, h5, h6, h7, h8⟩ := hg.reps.csr.slice (v := u) (by rw [g.adj_length]; exact hu)
    have hb := hg.le_m h4
    have s1 := slice_eq (l := g.head) h5 hb
    have s2 := slice_eq (l := g.weight) h5 (hg.weights.symm ▸ hb)
    simp only [FOGraph.linkIter, FOGraph.range, h3, h4, Option.bind_eq_bind, Option.bind_some, Option.pure_def, s1, s2,
      Option.some.injEq] at h1
    subst h1
    obtain ⟨i, hi⟩ := List.mem_iff_getElem?.1 h2
    rw [List.getElem?_zipWith] at hi
    cases hh : ((g.head.drop a).take (b - a))[i]? with
    | none => simp [hh] at hi
    | some x =>
      cases hh' : ((g.weight.drop a).take (b - a))[i]? with
      | none => simp [hh, hh'] at hi
      | some y =>
        simp [hh, hh'] at hi
        obtain ⟨rfl, rfl⟩ := hi
        have hlt : i < b - a := by
          have := (List.getElem?_eq_some_iff.1 hh).1
          simp at this; omega
        rw [List.getElem?_take_of_lt hlt, List.getElem?_drop] at hh hh'
        exact ⟨a, b, a + i, h3, h4, by omega, by omega, hh, hh'⟩
  · rintro ⟨a, b, e, h3, h4, h5, h6, h7, h8⟩
    have hab : a ≤ b := by omega
    have hb := hg.le_m h4
    have s1 := slice_eq (l := g.head) hab hb
    have s2 := slice_eq (l := g.weight) hab (hg.weights.symm ▸ hb)
    refine ⟨List.zipWith Link.mk ((g.head.drop a).take (b - a)) ((g.weight.drop a).take (b - a)), ?_, ?_⟩
    · simp only [FOGraph.linkIter, FOGraph.range, h3, h4, Option.bind_eq_bind, Option.bind_some, Option.pure_def, s1, s2]
    · apply List.mem_iff_getElem?.2
      refine ⟨e - a, ?_⟩
      rw [List.getElem?_zipWith, List.getElem?_take_of_lt (by omega), List.getElem?_drop, List.getElem?_take_of_lt (by omega),
        List.getElem?_drop, show a + (e - a) = e by omega, h7, h8]

end FOGraph

namespace Spec

theorem walk_dominated {A B : Nat → Nat → Nat → Prop} (h : ∀ u v w, A u v w → ∃ w', w' ≤ w ∧ B u v w') {s t d : Nat}
    (hw : Walk A s t d) : ∃ d', d' ≤ d ∧ Walk B s t d' := by
  induction hw with
  | nil s => exact ⟨0, Nat.le_refl _, .nil s⟩
  | cons ha _ ih =>
    obtain ⟨w', h1, h2⟩ := h _ _ _ ha
    obtain ⟨d', h3, h4⟩ := ih
    exact ⟨_, by omega, .cons h2 h4⟩

theorem isDist_dominated {A B : Nat → Nat → Nat → Prop} (h : ∀ u v w, A u v w → ∃ w', w' ≤ w ∧ B u v w')
    (h' : ∀ u v w, B u v w → ∃ w', w' ≤ w ∧ A u v w') {s t d : Nat} : IsDist A s t d ↔ IsDist B s t d := by
  have key : ∀ {A B : Nat → Nat → Nat → Prop}, (∀ u v w, A u v w → ∃ w', w' ≤ w ∧ B u v w') →
      (∀ u v w, B u v w → ∃ w', w' ≤ w ∧ A u v w') → IsDist A s t d → IsDist B s t d := by
    intro A B h h' ⟨h1, h2⟩
    have hlb : ∀ d', Walk B s t d' → d ≤ d' := by
      intro d' hd'
      obtain ⟨x, hx1, hx2⟩ := walk_dominated h' hd'
      have := h2 x hx2; omega
    obtain ⟨x, hx1, hx2⟩ := walk_dominated h h1
    have : x = d := by have := hlb x hx2; omega
    subst this
    exact ⟨hx2, hlb⟩
  exact ⟨key h h', key h' h⟩

end Spec
end Verif
