import Verif.Proof.Reversed
import Verif.Proof.Containers
import Verif.Spec.Graph
import Verif.Spec.GraphOps
set_option linter.unusedSimpArgs false
set_option linter.unusedVariables false
/- Proofs for the graph transformations (C14 - C18). -/
namespace Verif

theorem mapM_some {α β : Type} {f : α → Option β} {h : α → β} : ∀ {l : List α}, (∀ x ∈ l, f x = some (h x)) → l.mapM f = some (l.map h)
  | [], _ => rfl
  | x :: l, hx => by
    rw [List.mapM_cons, hx x (by simp), mapM_some (fun y hy => hx y (by simp [hy]))]; rfl

theorem filterM_some {α : Type} {p : α → Option Bool} {q : α → Bool} {l : List α} (hx : ∀ x ∈ l, p x = some (q x)) :
    l.filterM p = some (l.filter q) := by
  have key : ∀ (l : List α) (acc : List α), (∀ y ∈ l, p y = some (q y)) →
      List.filterAuxM p l acc = some ((l.filter q).reverse ++ acc) := by
    intro l
    induction l with
    | nil => intro acc _; rfl
    | cons y l ih =>
      intro acc hy
      simp only [List.filterAuxM, hy y (by simp), Option.bind_eq_bind, Option.bind_some]
      rw [ih _ (fun z hz => hy z (by simp [hz]))]
      cases h : q y <;> simp [h, List.filter_cons]
  simp [List.filterM, key l [] hx]

theorem count_map_inj {α β : Type} [BEq α] [LawfulBEq α] [BEq β] [LawfulBEq β] (f : α → β) (hf : ∀ a b, f a = f b → a = b) (l : List α) (x : α) :
    (l.map f).count (f x) = l.count x := by
  induction l with
  | nil => rfl
  | cons y l ih =>
    simp only [List.map_cons, List.count_cons, ih]
    by_cases h : y = x
    · simp [h]
    · have : f y ≠ f x := fun h' => h (hf _ _ h')
      simp [h, this]

namespace GraphOps

theorem arcs_succ {γ : Type} (n : Nat) (f : Nat → List γ) : arcs (n + 1) f = arcs n f ++ (f n).map (Prod.mk n) := by
  simp [arcs, List.range_succ]

theorem arcs_length {γ : Type} (n : Nat) (f : Nat → List γ) : (arcs n f).length = ((List.range n).map f).flatten.length := by
  induction n with
  | zero => rfl
  | succ n ih => rw [arcs_succ, List.length_append, ih, List.range_succ]; simp

theorem arcs_count {γ : Type} [BEq γ] [LawfulBEq γ] (n : Nat) (f : Nat → List γ) (u : Nat) (l : γ) :
    (arcs n f).count (u, l) = if u < n then (f u).count l else 0 := by
  induction n with
  | zero => simp [arcs]
  | succ n ih =>
    rw [arcs_succ, List.count_append, ih]
    by_cases h : u = n
    · subst h
      rw [count_map_inj (Prod.mk u) (fun a b h => by simpa using h)]
      simp
    · have : ((f n).map (Prod.mk n)).count (u, l) = 0 := by
        rw [List.count_eq_zero]; simp; intro _ h'; exact absurd h'.symm h
      rw [this]
      by_cases h2 : u < n
      · simp [h2, show u < n + 1 by omega]
      · simp [h2, show ¬ u < n + 1 by omega]

theorem map_adj (g : FOGraph) : g.adj = (List.range g.numNodes).map (fun v => g.adj.getD v []) := by
  apply List.ext_getElem?
  intro i
  by_cases hi : i < g.numNodes
  · have : i < g.adj.length := by rw [g.adj_length]; exact hi
    simp [hi, List.getElem?_eq_getElem this]
  · rw [List.getElem?_eq_none (by rw [g.adj_length]; omega), List.getElem?_eq_none (by simp; omega)]

theorem WF_links {g : FOGraph} (h : g.WF) {v : Nat} (hv : v < g.numNodes) : g.linkIter v = some (g.adj.getD v []) := by
  rw [h.linkIter]
  have : v < g.adj.length := by rw [g.adj_length]; exact hv
  simp [List.getElem?_eq_getElem this]

theorem adj_getD {g : FOGraph} {v : Nat} (hv : ¬ v < g.numNodes) : g.adj.getD v [] = [] := by
  have : ¬ v < g.adj.length := by rw [g.adj_length]; exact hv
  simp [List.getElem?_eq_none (Nat.not_lt.1 this)]

theorem WF.linkCount {g : FOGraph} (h : g.WF) (u v w : Nat) : linkCount g.linkIter u v w = (g.adj.getD u []).count ⟨v, w⟩ := by
  by_cases hu : u < g.numNodes
  · simp [GraphOps.linkCount, WF_links h hu]
  · rw [adj_getD hu]
    have : g.linkIter u = none := by
      rw [h.linkIter]
      exact List.getElem?_eq_none (by rw [g.adj_length]; omega)
    simp [GraphOps.linkCount, this]

theorem reps_linkCount {g : FOGraph} {adj : List (List Link)} (h : g.Reps adj) (u v w : Nat) :
    linkCount g.linkIter u v w = (adj.getD u []).count ⟨v, w⟩ := by
  simp [linkCount, h.linkIter]

theorem WF.adj_heads {g : FOGraph} (h : g.WF) {v : Nat} {l : Link} (hl : l ∈ g.adj.getD v []) : l.node < g.numNodes := by
  by_cases hv : v < g.numNodes
  · exact h.mem_heads (WF_links h hv) hl
  · rw [adj_getD hv] at hl; simp at hl

theorem WF.arcs_length {g : FOGraph} (h : g.WF) : (arcs g.numNodes (fun v => g.adj.getD v [])).length = g.numArcs := by
  rw [GraphOps.arcs_length, ← map_adj, h.reps.numArcs]

theorem WF.small_arcs {g : FOGraph} (h : g.WF) : g.numArcs < U32 - 1 ∧ g.numNodes + 1 < U32 - 1 := by
  have h1 := h.small
  have := h.fo_len
  simp only [FOGraph.numArcs, FOGraph.numNodes, U32] at *; omega

/-! ### reversed -/

theorem count_rev (E : List (Nat × Nat × Nat)) (u v w : Nat) :
    ((E.filter (fun e => decide (e.2.1 = v))).map (fun e => (⟨e.1, e.2.2⟩ : Link))).count ⟨u, w⟩ = E.count (u, v, w) := by
  induction E with
  | nil => rfl
  | cons e E ih =>
    obtain ⟨a, b, c⟩ := e
    by_cases hb : b = v
    · subst hb
      simp only [List.filter_cons, decide_true, if_true, List.map_cons, List.count_cons, ih]
      by_cases h : a = u ∧ c = w
      · simp [h]
      · simp [h]
    · simp only [List.filter_cons, hb, decide_false, List.count_cons, ih]
      simp [hb, ih]

theorem reversed_spec {g : FOGraph} (hg : g.WF) :
    ∃ r, reversed g.numNodes g.numArcs g.linkIter = some r ∧ r.WF ∧ r.numNodes = g.numNodes ∧ r.numArcs = g.numArcs ∧
      ∀ u v w, linkCount r.linkIter v u w = linkCount g.linkIter u v w := by
  let f : Nat → List (Nat × Nat) := fun v => (g.adj.getD v []).map (fun l => (l.node, l.weight))
  obtain ⟨hm1, hn1⟩ := WF.small_arcs hg
  have hEl : (arcs g.numNodes f).length = g.numArcs := by
    rw [← WF.arcs_length hg, GraphOps.arcs_length, GraphOps.arcs_length]
    have : (List.range g.numNodes).map f = ((List.range g.numNodes).map (fun v => g.adj.getD v [])).map
        (List.map (fun l => (l.node, l.weight))) := by rw [List.map_map]; rfl
    rw [this, ← List.map_flatten, List.length_map]
  obtain ⟨st, h1, h2, h3, h4⟩ := revBuild_spec 0 g.numNodes g.numArcs
    (fun v => (g.linkIter v).map (List.map (fun l => (l.node, l.weight)))) f
    (by intro v hv; simp only [WF_links hg hv]; rfl)
    (by
      intro v l hv hl
      simp only [f, List.mem_map] at hl
      obtain ⟨l', hl', rfl⟩ := hl
      exact WF.adj_heads hg hl') hEl (by omega)
  let R := (revAdj g.numNodes (arcs g.numNodes f)).map (List.map (fun p => (⟨p.1, p.2⟩ : Link)))
  have hfl : R.flatten = (revAdj g.numNodes (arcs g.numNodes f)).flatten.map (fun p => (⟨p.1, p.2⟩ : Link)) := by
    simp only [R]; rw [List.map_flatten]
  have hr : FOGraph.Reps ⟨st.firstOut, st.head, st.payload⟩ R := by
    refine ⟨h2.map _, ?_, ?_⟩
    · rw [hfl, List.map_map]; exact h3
    · rw [hfl, List.map_map]; exact h4
  have hRl : R.length = g.numNodes := by simp [R, revAdj_length]
  have hRm : R.flatten.length = g.numArcs := by
    rw [hfl, List.length_map]
    have := revAdj_take g.numNodes (arcs g.numNodes f) g.numNodes (Nat.le_refl _)
    rw [List.take_of_length_le (by rw [revAdj_length]; exact Nat.le_refl _), start_all, hEl] at this
    · exact this
    · rintro ⟨v, l⟩ he
      obtain ⟨hv, hl⟩ := mem_arcs.1 he
      simp only [f, List.mem_map] at hl
      obtain ⟨l', hl', rfl⟩ := hl
      exact WF.adj_heads hg hl'
  have hnew := hr.new
  rw [hRl, hRm, if_pos ⟨hn1, hm1⟩] at hnew
  refine ⟨⟨st.firstOut, st.head, st.payload⟩, ?_, hr.wf (by omega) (by omega) ?_, ?_, ?_, ?_⟩
  · simp only [reversed, h1, Option.bind_eq_bind, Option.bind_some]; exact hnew
  · intro ls hls l hl
    rw [hRl]
    simp only [R, List.mem_map, revAdj] at hls
    obtain ⟨ps, ⟨v, _, rfl⟩, rfl⟩ := hls
    simp only [List.mem_map, List.mem_filter] at hl
    obtain ⟨p, ⟨⟨u, l'⟩, ⟨he, _⟩, rfl⟩, rfl⟩ := hl
    exact (mem_arcs.1 he).1
  · rw [hr.numNodes, hRl]
  · rw [hr.numArcs, hRm]
  · intro u v w
    rw [reps_linkCount hr, WF.linkCount hg]
    by_cases hv : v < g.numNodes
    · have hRv : R.getD v [] = ((arcs g.numNodes f).filter (fun e => decide (e.2.1 = v))).map (fun e => (⟨e.1, e.2.2⟩ : Link)) := by
        simp only [R, revAdj, List.map_map]
        rw [List.getD_eq_getElem?_getD, List.getElem?_map, List.getElem?_range hv]
        simp
      rw [hRv, count_rev, arcs_count]
      by_cases hu : u < g.numNodes
      · simp only [hu, if_true, f]
        rw [← count_map_inj (fun l : Link => (l.node, l.weight))
          (fun a b h => by cases a; cases b; simp at h; simp [h]) (g.adj.getD u []) ⟨v, w⟩]
      · rw [adj_getD hu]; simp [hu]
    · have : R.getD v [] = [] := by simp [List.getElem?_eq_none (show R.length ≤ v by omega)]
      rw [this]
      symm
      simp only [List.count_nil]
      rw [List.count_eq_zero]
      intro hm
      exact hv (WF.adj_heads hg hm)

/-- `reversed_with_edge_ids` -/
theorem headIds_spec {g : FOGraph} (hg : g.WF) {v : Nat} (hv : v < g.numNodes) :
    ∃ l a b, headIds g v = some l ∧ g.firstOut[v]? = some a ∧ g.firstOut[v + 1]? = some b ∧ l.length = b - a ∧
      (l.map Prod.snd).Nodup ∧ l.length = (g.adj.getD v []).length ∧
      ∀ h e, (h, e) ∈ l ↔ a ≤ e ∧ e < b ∧ g.head[e]? = some h := by
  have hv' : v < g.adj.length := by rw [g.adj_length]; exact hv
  obtain ⟨a, b, h1, h2, h3, h4, h5, h6⟩ := hg.reps.csr.slice hv'
  have hb := hg.le_m h2
  have hsl := slice_eq (l := g.head) h3 hb
  have hlen : ((g.head.drop a).take (b - a)).length = b - a := by simp; omega
  refine ⟨((g.head.drop a).take (b - a)).zip ((List.range (b - a)).map (· + a)), a, b, ?_, h1, h2, ?_, ?_, ?_, ?_⟩
  · simp only [headIds, FOGraph.range, h1, h2, Option.bind_eq_bind, Option.bind_some, hsl, Option.pure_def]
  · simp [List.length_zip]; omega
  · rw [List.map_snd_zip (by simp; omega)]
    rw [List.Nodup, List.pairwise_map]
    exact List.nodup_range.imp (fun h => by omega)
  · rw [List.getD_eq_getElem?_getD, List.getElem?_eq_getElem hv', Option.getD_some, ← h4]; simp [List.length_zip]; omega
  · intro h e
    rw [List.mem_iff_getElem?]
    constructor
    · rintro ⟨i, hi⟩
      rw [List.getElem?_zip_eq_some] at hi
      obtain ⟨h7, h8⟩ := hi
      rw [List.getElem?_map, Option.map_eq_some_iff] at h8
      obtain ⟨j, h9, rfl⟩ := h8
      obtain ⟨hlt, h9⟩ := List.getElem?_eq_some_iff.1 h9
      simp at hlt h9; subst h9
      rw [List.getElem?_take_of_lt hlt, List.getElem?_drop] at h7
      exact ⟨by omega, by omega, by rw [Nat.add_comm]; exact h7⟩
    · rintro ⟨h7, h8, h9⟩
      refine ⟨e - a, ?_⟩
      rw [List.getElem?_zip_eq_some]
      refine ⟨?_, ?_⟩
      · rw [List.getElem?_take_of_lt (by omega), List.getElem?_drop, show a + (e - a) = e by omega]; exact h9
      · rw [List.getElem?_map, List.getElem?_range (by omega)]; simp; omega

theorem reversedWithEdgeIds_spec {g : FOGraph} (hg : g.WF) :
    ∃ r, reversedWithEdgeIds g = some r ∧
      ∀ v, v < g.numNodes → ∃ ls, r.linkIter v = some ls ∧ ls.Nodup ∧ ls.Pairwise (fun p q => p.1 ≤ q.1) ∧
        ∀ u e, (u, e) ∈ ls ↔ ∃ a b, g.firstOut[u]? = some a ∧ g.firstOut[u + 1]? = some b ∧ a ≤ e ∧ e < b ∧ g.head[e]? = some v := by
  obtain ⟨hm1, hn1⟩ := WF.small_arcs hg
  let f : Nat → List (Nat × Nat) := fun v => (headIds g v).getD []
  have hf : ∀ v, v < g.numNodes → headIds g v = some (f v) := by
    intro v hv
    obtain ⟨l, a, b, h1, _⟩ := headIds_spec hg hv
    simp [f, h1]
  have hmem : ∀ v, v < g.numNodes → ∀ h e, (h, e) ∈ f v ↔ ∃ a b, g.firstOut[v]? = some a ∧ g.firstOut[v + 1]? = some b ∧
      a ≤ e ∧ e < b ∧ g.head[e]? = some h := by
    intro v hv h e
    obtain ⟨l, a, b, h1, h2, h3, _, _, _, h4⟩ := headIds_spec hg hv
    simp only [f, h1, Option.getD_some, h4]
    constructor
    · intro h5; exact ⟨a, b, h2, h3, h5⟩
    · rintro ⟨a', b', h5, h6, h7⟩
      rw [h2] at h5; rw [h3] at h6; simp at h5 h6; subst h5; subst h6; exact h7
  have hEl : (arcs g.numNodes f).length = g.numArcs := by
    have key : ∀ n, n ≤ g.numNodes → (arcs n f).length = (arcs n (fun v => g.adj.getD v [])).length := by
      intro n
      induction n with
      | zero => intro _; rfl
      | succ n ih =>
        intro hn
        rw [arcs_succ, arcs_succ, List.length_append, List.length_append, ih (by omega), List.length_map, List.length_map]
        obtain ⟨l, a, b, h1, _, _, _, _, h4, _⟩ := headIds_spec hg (show n < g.numNodes by omega)
        simp only [f, h1, Option.getD_some, h4]
    rw [key _ (Nat.le_refl _), WF.arcs_length hg]
  have hhead : ∀ v l, v < g.numNodes → l ∈ f v → l.1 < g.numNodes := by
    rintro v ⟨h, e⟩ hv hl
    obtain ⟨a, b, _, _, _, _, h5⟩ := (hmem v hv h e).1 hl
    exact hg.heads h (List.mem_of_getElem? h5)
  obtain ⟨st, h1, h2, h3, h4⟩ := revBuild_spec 0 g.numNodes g.numArcs (headIds g) f hf hhead hEl (by omega)
  refine ⟨⟨st.firstOut, st.head, st.payload⟩, by simp [reversedWithEdgeIds, h1], ?_⟩
  intro v hv
  obtain ⟨a, b, h5, h6, h7, h8, h9, h10⟩ := h2.slice (v := v) (by rw [revAdj_length]; exact hv)
  have hget : (revAdj g.numNodes (arcs g.numNodes f))[v]'(by rw [revAdj_length]; exact hv) =
      ((arcs g.numNodes f).filter (fun e => decide (e.2.1 = v))).map (fun e => (e.1, e.2.2)) := by simp [revAdj]
  refine ⟨((arcs g.numNodes f).filter (fun e => decide (e.2.1 = v))).map (fun e => (e.1, e.2.2)), ?_, ?_, ?_, ?_⟩
  · simp only [RevIds.linkIter, h5, h6, h3, h4, h10, Option.bind_eq_bind, Option.bind_some, hget]
    simp only [List.map_map, Option.pure_def, Option.some.injEq]
    rw [List.zip_map']; rfl
  · -- edge ids within a node are distinct, and the tails differ otherwise
    have hnd : (arcs g.numNodes f).Nodup := by
      unfold arcs
      rw [List.Nodup, List.pairwise_flatMap]
      refine ⟨?_, ?_⟩
      · intro u hu
        simp at hu
        rw [List.pairwise_map]
        obtain ⟨l, a, b, h1, _, _, _, h4, _⟩ := headIds_spec hg hu
        simp only [f, h1, Option.getD_some]
        rw [List.Nodup, List.pairwise_map] at h4
        exact h4.imp (fun h h' => h (by simp at h'; rw [h']))
      · refine List.nodup_range.imp ?_
        intro u u' hne x hx y hy hxy
        simp only [List.mem_map] at hx hy
        obtain ⟨_, _, rfl⟩ := hx
        obtain ⟨_, _, rfl⟩ := hy
        simp at hxy; exact hne hxy.1
    rw [List.Nodup, List.pairwise_map]
    refine (hnd.filter _).imp_of_mem ?_
    intro x y hx hy hne heq
    simp only [List.mem_filter, decide_eq_true_eq] at hx hy
    apply hne
    obtain ⟨x1, x2, x3⟩ := x; obtain ⟨y1, y2, y3⟩ := y
    simp at heq hx hy
    obtain ⟨rfl, rfl⟩ := heq
    rw [hx.2, hy.2]
  · rw [List.pairwise_map]
    refine List.Pairwise.filter _ ?_
    unfold arcs
    rw [List.pairwise_flatMap]
    refine ⟨?_, ?_⟩
    · intro u _
      rw [List.pairwise_map]
      exact List.pairwise_of_forall (fun _ _ => Nat.le_refl _)
    · refine List.pairwise_lt_range.imp ?_
      intro u u' hlt x hx y hy
      simp only [List.mem_map] at hx hy
      obtain ⟨_, _, rfl⟩ := hx
      obtain ⟨_, _, rfl⟩ := hy
      simp only; omega
  · intro u e
    simp only [List.mem_map, List.mem_filter, decide_eq_true_eq]
    constructor
    · rintro ⟨⟨u', h', e'⟩, ⟨h11, h12⟩, h13⟩
      simp at h12 h13
      obtain ⟨rfl, rfl⟩ := h13
      subst h12
      obtain ⟨h14, h15⟩ := mem_arcs.1 h11
      exact (hmem _ h14 _ _).1 h15
    · rintro ⟨a', b', h11, h12, h13⟩
      have hu : u < g.numNodes := by
        have := (List.getElem?_eq_some_iff.1 h12).1
        simp only [FOGraph.numNodes]; omega
      exact ⟨(u, v, e), ⟨mem_arcs.2 ⟨hu, (hmem u hu v e).2 ⟨a', b', h11, h12, h13⟩⟩, rfl⟩, rfl⟩

end GraphOps
end Verif
