import Verif.Proof.GraphOps2
set_option linter.unusedSimpArgs false
set_option linter.unusedVariables false
/- Proofs for ch_split, unify_parallel_edges and line_graph (C16 - C18). -/
namespace Verif
open Spec
namespace GraphOps

/-! ### ch_split -/

theorem flatten_set_length {α : Type} : ∀ (ls : List (List α)) (i : Nat) (l : List α) (x : α), ls[i]? = some l →
    (ls.set i (l ++ [x])).flatten.length = ls.flatten.length + 1
  | [], i, l, x, h => by simp at h
  | l' :: ls, 0, l, x, h => by simp at h; subst h; simp only [List.set_cons_zero, List.flatten_cons, List.length_append, List.length_cons, List.length_nil]; omega
  | l' :: ls, i + 1, l, x, h => by
    have := flatten_set_length ls i l x (by simpa using h)
    simp only [List.set_cons_succ, List.flatten_cons, List.length_append]; omega

theorem pushAt_spec {α : Type} {ls : List (List α)} {i : Nat} {l : List α} (x : α) (h : ls[i]? = some l) :
    pushAt ls i x = some (ls.set i (l ++ [x])) := by
  have := (List.getElem?_eq_some_iff.1 h).1
  simp [pushAt, h, upd_of_lt _ this]

structure SplitInv (o : NodeOrder) (n : Nat) (P : List (Nat × Link)) (st : List (List Link) × List (List Link)) : Prop where
  len1 : st.1.length = n
  len2 : st.2.length = n
  up : ∀ u, u < n → st.1[u]? = some ((P.filter (fun e => decide (e.1 = u ∧ rk o e.1 < rk o e.2.node))).map Prod.snd)
  down : ∀ v, v < n → st.2[v]? = some ((P.filter (fun e => decide (e.2.node = v ∧ ¬ rk o e.1 < rk o e.2.node))).map (fun e => ⟨e.1, e.2.weight⟩))
  sz1 : st.1.flatten.length ≤ P.length
  sz2 : st.2.flatten.length ≤ P.length

theorem flatten_replicate_nil {α : Type} (n : Nat) : (List.replicate n ([] : List α)).flatten = [] := by
  induction n with
  | zero => rfl
  | succ n ih => simp

theorem count_up (o : NodeOrder) (E : List (Nat × Link)) (u v w : Nat) :
    ((E.filter (fun e => decide (e.1 = u ∧ rk o e.1 < rk o e.2.node))).map Prod.snd).count ⟨v, w⟩ =
      if rk o u < rk o v then E.count (u, ⟨v, w⟩) else 0 := by
  induction E with
  | nil => simp
  | cons e E ih =>
    obtain ⟨a, b, c⟩ := e
    by_cases h : a = u ∧ rk o a < rk o b
    · rw [List.filter_cons, if_pos (by simpa using h), List.map_cons, List.count_cons, List.count_cons]
      generalize (E.filter (fun e => decide (e.1 = u ∧ rk o e.1 < rk o e.2.node))).map Prod.snd = F at *
      rw [ih]
      obtain ⟨rfl, h2⟩ := h
      by_cases hb : b = v
      · subst hb; by_cases hc : c = w <;> simp [h2, hc]
      · simp [h2, hb]
    · simp only [List.filter_cons, h, decide_false, List.count_cons]
      simp only [Bool.false_eq_true, if_false, ih]
      by_cases he : a = u ∧ b = v
      · obtain ⟨rfl, rfl⟩ := he
        have : ¬ rk o a < rk o b := fun h' => h ⟨rfl, h'⟩
        simp [this]
      · have : ¬ ((a, (⟨b, c⟩ : Link)) = (u, ⟨v, w⟩)) := by simp; intro h1 h2; exact absurd ⟨h1, h2⟩ he
        simp [this]

theorem count_down (o : NodeOrder) (E : List (Nat × Link)) (u v w : Nat) :
    ((E.filter (fun e => decide (e.2.node = v ∧ ¬ rk o e.1 < rk o e.2.node))).map (fun e => (⟨e.1, e.2.weight⟩ : Link))).count ⟨u, w⟩ =
      if rk o u < rk o v then 0 else E.count (u, ⟨v, w⟩) := by
  induction E with
  | nil => simp
  | cons e E ih =>
    obtain ⟨a, b, c⟩ := e
    by_cases h : b = v ∧ ¬ rk o a < rk o b
    · rw [List.filter_cons, if_pos (by simpa using h), List.map_cons, List.count_cons, List.count_cons]
      generalize (E.filter (fun e => decide (e.2.node = v ∧ ¬ rk o e.1 < rk o e.2.node))).map (fun e => (⟨e.1, e.2.weight⟩ : Link)) = F at *
      rw [ih]
      obtain ⟨rfl, h2⟩ := h
      by_cases ha : a = u
      · subst ha; by_cases hc : c = w <;> simp [h2, hc]
      · simp [ha]
    · simp only [List.filter_cons, h, decide_false, List.count_cons]
      simp only [Bool.false_eq_true, if_false, ih]
      by_cases he : a = u ∧ b = v
      · obtain ⟨rfl, rfl⟩ := he
        have : rk o a < rk o b := Classical.byContradiction (fun h' => h ⟨rfl, h'⟩)
        simp [this]
      · have : ¬ ((a, (⟨b, c⟩ : Link)) = (u, ⟨v, w⟩)) := by simp; intro h1 h2; exact absurd ⟨h1, h2⟩ he
        simp [this]

theorem chSplit_spec {g : FOGraph} (hg : g.WF) {o : NodeOrder} (ho : o.OK g.numNodes) :
    ∃ up down, chSplit g.numNodes o g.linkIter = some (up, down) ∧ up.WF ∧ down.WF ∧ up.numNodes = g.numNodes ∧ down.numNodes = g.numNodes ∧
      (∀ u v w, linkCount up.linkIter u v w = if rk o u < rk o v then linkCount g.linkIter u v w else 0) ∧
      (∀ u v w, linkCount down.linkIter v u w = if rk o u < rk o v then 0 else linkCount g.linkIter u v w) := by
  obtain ⟨hm1, hn1⟩ := WF.small_arcs hg
  let f : Nat → List Link := fun v => g.adj.getD v []
  let E := arcs g.numNodes f
  have hE : E.length = g.numArcs := WF.arcs_length hg
  have hmem : ∀ e ∈ E, e.1 < g.numNodes ∧ e.2.node < g.numNodes := by
    rintro ⟨v, l⟩ he
    obtain ⟨h1, h2⟩ := mem_arcs.1 he
    exact ⟨h1, WF.adj_heads hg h2⟩
  obtain ⟨⟨up, down⟩, h1, h2⟩ := foldlM_inv (fun (st : List (List Link) × List (List Link)) (p : Nat × Link) => do
    let r ← o.rank p.1
    let r' ← o.rank p.2.node
    if r < r' then
      let up ← pushAt st.1 p.1 p.2
      return (up, st.2)
    else
      let down ← pushAt st.2 p.2.node ⟨p.1, p.2.weight⟩
      return (st.1, down)) (SplitInv o g.numNodes) E (by
      intro P x Q st hE hi
      obtain ⟨hx1, hx2⟩ := hmem x (by rw [hE]; simp)
      simp only [rk_eq ho hx1, rk_eq ho hx2, Option.bind_eq_bind, Option.bind_some]
      by_cases hlt : rk o x.1 < rk o x.2.node
      · refine ⟨(st.1.set x.1 ((P.filter (fun e => decide (e.1 = x.1 ∧ rk o e.1 < rk o e.2.node))).map Prod.snd ++ [x.2]), st.2), ?_, ?_⟩
        · simp only [hlt, if_true, pushAt_spec x.2 (hi.up x.1 hx1), Option.bind_some]; rfl
        · refine ⟨by simp [hi.len1], hi.len2, ?_, ?_, ?_, ?_⟩
          · intro u hu
            by_cases he : x.1 = u
            · subst he; simp only; rw [List.getElem?_set_self (by rw [hi.len1]; omega)]; simp [hlt]
            · simp only; rw [List.getElem?_set_ne he, hi.up u hu]; simp [he]
          · intro v hv; simp only; rw [hi.down v hv]; simp [hlt]
          · simp only; rw [flatten_set_length _ _ _ _ (hi.up x.1 hx1)]; have := hi.sz1; simp only [List.length_append, List.length_cons, List.length_nil]; omega
          · have := hi.sz2; simp only [List.length_append, List.length_cons, List.length_nil]; omega
      · refine ⟨(st.1, st.2.set x.2.node ((P.filter (fun e => decide (e.2.node = x.2.node ∧ ¬ rk o e.1 < rk o e.2.node))).map (fun e => ⟨e.1, e.2.weight⟩) ++ [⟨x.1, x.2.weight⟩])), ?_, ?_⟩
        · simp only [hlt, if_false, pushAt_spec (⟨x.1, x.2.weight⟩ : Link) (hi.down x.2.node hx2), Option.bind_some]; rfl
        · refine ⟨hi.len1, by simp [hi.len2], ?_, ?_, ?_, ?_⟩
          · intro v hv; simp only; rw [hi.up v hv]; simp [hlt]
          · intro u hu
            by_cases he : x.2.node = u
            · subst he; simp only; rw [List.getElem?_set_self (by rw [hi.len2]; omega)]
              rw [List.filter_append, List.filter_cons]
              simp only [hlt, not_false_eq_true, and_self, decide_true, if_true, List.filter_nil, List.map_append, List.map_cons, List.map_nil]
            · simp only; rw [List.getElem?_set_ne he, hi.down u hu]; simp [he]
          · have := hi.sz1; simp only [List.length_append, List.length_cons, List.length_nil]; omega
          · simp only; rw [flatten_set_length _ _ _ _ (hi.down x.2.node hx2)]; have := hi.sz2; simp only [List.length_append, List.length_cons, List.length_nil]; omega)
    (List.replicate g.numNodes [], List.replicate g.numNodes []) ⟨by simp, by simp, by intro u hu; simp [List.getElem?_replicate, hu], by
      intro u hu; simp [List.getElem?_replicate, hu], by simp [flatten_replicate_nil], by simp [flatten_replicate_nil]⟩
  have l1 := h2.len1; have l2 := h2.len2; have s1 := h2.sz1; have s2 := h2.sz2
  simp only at l1 l2 s1 s2
  obtain ⟨gu, hu1, hu2⟩ := FOGraph.fromAdjacencyLists_spec up (by omega) (by omega)
  obtain ⟨gd, hd1, hd2⟩ := FOGraph.fromAdjacencyLists_spec down (by omega) (by omega)
  refine ⟨gu, gd, ?_, hu2.wf (by omega) (by omega) ?_, hd2.wf (by omega) (by omega) ?_, by rw [hu2.numNodes, l1], by rw [hd2.numNodes, l2], ?_, ?_⟩
  · unfold chSplit
    rw [forLinks_eq (f := f) (fun v hv => WF_links hg hv)]
    simp only [Option.bind_eq_bind] at h1 ⊢
    rw [h1]
    simp only [Option.bind_some, hu1, hd1]; rfl
  · intro ls hls l hl
    rw [l1]
    obtain ⟨i, hi⟩ := List.mem_iff_getElem?.1 hls
    have hil : i < g.numNodes := by have := (List.getElem?_eq_some_iff.1 hi).1; omega
    have := h2.up i hil
    simp only [hi, Option.some.injEq] at this
    rw [this] at hl
    simp only [List.mem_map, List.mem_filter] at hl
    obtain ⟨e, ⟨he, _⟩, rfl⟩ := hl
    exact (hmem e he).2
  · intro ls hls l hl
    rw [l2]
    obtain ⟨i, hi⟩ := List.mem_iff_getElem?.1 hls
    have hil : i < g.numNodes := by have := (List.getElem?_eq_some_iff.1 hi).1; omega
    have := h2.down i hil
    simp only [hi, Option.some.injEq] at this
    rw [this] at hl
    simp only [List.mem_map, List.mem_filter] at hl
    obtain ⟨e, ⟨he, _⟩, rfl⟩ := hl
    exact (hmem e he).1
  · intro u v w
    rw [reps_linkCount hu2, WF.linkCount hg]
    by_cases hu : u < g.numNodes
    · have := h2.up u hu
      simp only at this
      rw [List.getD_eq_getElem?_getD, this, Option.getD_some, count_up]
      show (if rk o u < rk o v then (arcs g.numNodes f).count _ else 0) = _
      rw [arcs_count]; simp [hu, f]
    · rw [adj_getD hu, List.getD_eq_getElem?_getD, List.getElem?_eq_none (by omega)]; simp
  · intro u v w
    rw [reps_linkCount hd2, WF.linkCount hg]
    by_cases hv : v < g.numNodes
    · have := h2.down v hv
      simp only at this
      rw [List.getD_eq_getElem?_getD, this, Option.getD_some, count_down]
      show (if rk o u < rk o v then 0 else (arcs g.numNodes f).count _) = _
      rw [arcs_count]
      by_cases hu : u < g.numNodes
      · simp [hu, f]
      · rw [adj_getD hu]; simp [hu]
    · rw [List.getD_eq_getElem?_getD, List.getElem?_eq_none (by omega)]
      have : (g.adj.getD u []).count ⟨v, w⟩ = 0 := by
        rw [List.count_eq_zero]; intro hm; exact hv (WF.adj_heads hg hm)
      rw [this]; simp

/-! ### line_graph -/

/-- The links of the line graph at edge `e`. -/
def turns (turnCost : Nat → Nat → Option Nat) (e w : Nat) (fs : List Nat) : List Link :=
  fs.filterMap (fun f => (turnCost e f).map (fun c => ⟨f, w + c⟩))

theorem turns_fold (turnCost : Nat → Nat → Option Nat) (e w : Nat) (fs : List Nat)
    (hov : ∀ f ∈ fs, ∀ c, turnCost e f = some c → w + c < U32) : ∀ (hd wt : List Nat),
    fs.foldlM (turnStep turnCost e w) (hd, wt) =
    some (hd ++ (turns turnCost e w fs).map Link.node, wt ++ (turns turnCost e w fs).map Link.weight) := by
  induction fs with
  | nil => intro hd wt; simp [turns]
  | cons f fs ih =>
    intro hd wt
    have ih := ih (fun f hf => hov f (by simp [hf]))
    rw [List.foldlM_cons]
    cases hc : turnCost e f with
    | none =>
      simp only [turnStep, hc, Option.bind_eq_bind, Option.bind_some, ih]
      have : turns turnCost e w (f :: fs) = turns turnCost e w fs := by simp [turns, hc]
      rw [this]
    | some c =>
      simp only [turnStep, hc, add32_of_lt (hov f (by simp) c hc), Option.map_some, Option.bind_eq_bind, Option.bind_some, ih]
      have : turns turnCost e w (f :: fs) = ⟨f, w + c⟩ :: turns turnCost e w fs := by simp [turns, hc]
      rw [this]; simp

theorem lineGraph_spec {g : FOGraph} (hg : g.WF) (turnCost : Nat → Nat → Option Nat)
    (hov : ∀ e f w c, g.weight[e]? = some w → turnCost e f = some c → w + c < U32)
    (L : List (List Link)) (hL : L = (List.range g.numArcs).map (fun e =>
      turns turnCost e (g.weight.getD e 0) ((g.neighborEdgeIndices (g.head.getD e 0)).getD [])))
    (hsize : L.flatten.length < I32) (hsize' : g.numArcs + 1 < U32 - 1) :
    ∃ lg, lineGraph g turnCost = some lg ∧ FOGraph.Reps lg L := by
  have hnei : ∀ v, v < g.numNodes → ∃ es, g.neighborEdgeIndices v = some es := by
    intro v hv
    obtain ⟨a, b, h1, h2, _⟩ := hg.reps.csr.slice (v := v) (by rw [g.adj_length]; exact hv)
    exact ⟨(List.range (b - a)).map (· + a), by simp only [FOGraph.neighborEdgeIndices, FOGraph.range, h1, h2, Option.bind_eq_bind, Option.bind_some, Option.pure_def]⟩
  obtain ⟨st, h1, h2⟩ := foldlM_inv (lineStep g turnCost)
    (fun P st => FOGraph.Reps ⟨st.1, st.2.1, st.2.2⟩ (P.map (fun e =>
      turns turnCost e (g.weight.getD e 0) ((g.neighborEdgeIndices (g.head.getD e 0)).getD []))))
    (List.range g.numArcs) (by
      intro P e Q st hE hi
      have he : e < g.head.length := by
        have : e ∈ List.range g.numArcs := by rw [hE]; simp
        simpa [FOGraph.numArcs] using this
      have hh : g.head[e]? = some g.head[e] := List.getElem?_eq_getElem he
      have hw : g.weight[e]? = some (g.weight[e]'(by rw [hg.weights]; exact he)) := List.getElem?_eq_getElem (by rw [hg.weights]; exact he)
      obtain ⟨es, hes⟩ := hnei g.head[e] (hg.heads _ (List.getElem_mem he))
      have hfold := turns_fold turnCost e (g.weight[e]'(by rw [hg.weights]; exact he)) es
        (fun f _ c hc => hov e f _ c hw hc) st.2.1 st.2.2
      let ts := turns turnCost e (g.weight[e]'(by rw [hg.weights]; exact he)) es
      have hlen : (st.2.1 ++ ts.map Link.node).length < I32 := by
        have hLs : L = (P.map (fun e => turns turnCost e (g.weight.getD e 0) ((g.neighborEdgeIndices (g.head.getD e 0)).getD []))) ++
            ts :: (Q.map (fun e => turns turnCost e (g.weight.getD e 0) ((g.neighborEdgeIndices (g.head.getD e 0)).getD []))) := by
          rw [hL, hE]; simp [ts, hh, hw, hes]
        have h1 := hi.head
        simp only at h1
        rw [List.length_append, List.length_map, h1, List.length_map]
        rw [hLs] at hsize
        simp only [List.flatten_append, List.flatten_cons, List.length_append] at hsize
        omega
      refine ⟨(st.1 ++ [(st.2.1 ++ ts.map Link.node).length], st.2.1 ++ ts.map Link.node, st.2.2 ++ ts.map Link.weight), ?_, ?_⟩
      · simp only [lineStep, FOGraph.link, hh, hw, Option.bind_eq_bind, Option.bind_some, Option.pure_def, hes, hfold]
        rw [if_pos hlen]
      have hwD : g.weight.getD e 0 = g.weight[e]'(by rw [hg.weights]; exact he) := by simp [hw]
      have hhD : g.head.getD e 0 = g.head[e] := by simp [hh]
      have hsn := hi.csr.snoc (turns turnCost e (g.weight.getD e 0) ((g.neighborEdgeIndices (g.head.getD e 0)).getD []))
      simp only [List.map_append, List.map_cons, List.map_nil]
      rw [hwD, hhD, hes, Option.getD_some] at hsn ⊢
      have h1 := hi.head; have h2 := hi.weight
      simp only at h1 h2
      refine ⟨?_, ?_, ?_⟩
      · simp only
        rw [List.length_append, List.length_map, h1, List.length_map]
        exact hsn
      · simp only
        rw [h1, List.flatten_append, List.map_append]; simp [ts]
      · simp only
        rw [h2, List.flatten_append, List.map_append]; simp [ts])
    ([0], [], []) ⟨CSR.nil, rfl, rfl⟩
  refine ⟨⟨st.1, st.2.1, st.2.2⟩, ?_, by rw [hL]; exact h2⟩
  have hnew := h2.new
  rw [if_pos ⟨by simp; exact hsize', by rw [← hL]; simp only [I32, U32] at *; omega⟩] at hnew
  simp only [lineGraph, h1, Option.bind_eq_bind, Option.bind_some]
  exact hnew

end GraphOps
end Verif
