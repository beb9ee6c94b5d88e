import Verif.Proof.GraphOps
set_option linter.unusedSimpArgs false
set_option linter.unusedVariables false
/- Proofs for permutated, ch_split, unify_parallel_edges and line_graph (C15 - C18). -/
namespace Verif
open Spec

/-- An order as built by the constructors. -/
structure NodeOrder.OK (o : NodeOrder) (n : Nat) : Prop where
  len : o.nodeOrder.length = n
  inv : NodeOrder.Inverse o.nodeOrder o.ranks

theorem NodeOrder.ok_of_fromNodeOrder {xs : List Nat} {o : NodeOrder} (h : NodeOrder.fromNodeOrder xs = some o) : o.OK xs.length := by
  simp only [NodeOrder.fromNodeOrder, Option.bind_eq_bind, Option.bind_eq_some_iff] at h
  obtain ⟨inv, h, ho⟩ := h
  simp at ho; subst ho
  exact ⟨rfl, (NodeOrder.invert_some h).2⟩

theorem NodeOrder.OK.rank_lt {o : NodeOrder} {n : Nat} (h : o.OK n) {v : Nat} (hv : v < n) : ∃ r, r < n ∧ o.rank v = some r ∧ o.node r = some v := by
  have hv' : v < o.ranks.length := by rw [h.inv.len, h.len]; exact hv
  have hr : o.ranks[v]? = some o.ranks[v] := List.getElem?_eq_getElem hv'
  have := (h.inv.inv _ _).2 hr
  exact ⟨_, by rw [← h.len]; exact (List.getElem?_eq_some_iff.1 this).1, hr, this⟩

theorem NodeOrder.OK.node_lt {o : NodeOrder} {n : Nat} (h : o.OK n) {r : Nat} (hr : r < n) : ∃ v, v < n ∧ o.node r = some v ∧ o.rank v = some r := by
  have hr' : r < o.nodeOrder.length := by rw [h.len]; exact hr
  have hv : o.nodeOrder[r]? = some o.nodeOrder[r] := List.getElem?_eq_getElem hr'
  have := (h.inv.inv _ _).1 hv
  refine ⟨_, ?_, hv, this⟩
  have := (List.getElem?_eq_some_iff.1 this).1
  rw [h.inv.len, h.len] at this; exact this

theorem NodeOrder.OK.rank_inj {o : NodeOrder} {n : Nat} (h : o.OK n) {u v r : Nat} (hu : o.rank u = some r) (hv : o.rank v = some r) : u = v := by
  have h1 := (h.inv.inv _ _).2 hu
  have h2 := (h.inv.inv _ _).2 hv
  rw [h1] at h2; simpa using h2

theorem NodeOrder.OK.rank_dom {o : NodeOrder} {n : Nat} (h : o.OK n) {u r : Nat} (hu : o.rank u = some r) : u < n := by
  have := (List.getElem?_eq_some_iff.1 hu).1
  rw [h.inv.len, h.len] at this; exact this

theorem NodeOrder.OK.rank_range {o : NodeOrder} {n : Nat} (h : o.OK n) {u r : Nat} (hu : o.rank u = some r) : r < n := by
  have := (List.getElem?_eq_some_iff.1 ((h.inv.inv _ _).2 hu)).1
  rw [h.len] at this; exact this

namespace GraphOps

/-- the rank as a total function -/
def rk (o : NodeOrder) (v : Nat) : Nat := (o.rank v).getD 0

theorem rk_eq {o : NodeOrder} {n : Nat} (h : o.OK n) {v : Nat} (hv : v < n) : o.rank v = some (rk o v) := by
  obtain ⟨r, _, h1, _⟩ := h.rank_lt hv
  simp [rk, h1]

/-- The list of links of one node of the permuted graph. -/
def permLinks (srt : (Link → Nat) → List Link → List Link) (o : NodeOrder) (f : Nat → List Link) (pred : Nat → Nat → Bool)
    (rank node : Nat) : List Link :=
  (srt (fun l => rk o l.node) ((f node).filter (fun l => pred rank (rk o l.node)))).map (fun l => ⟨rk o l.node, l.weight⟩)

theorem permStep_spec {srt : (Link → Nat) → List Link → List Link} (hs : SortOK srt) {o : NodeOrder} {n : Nat} (ho : o.OK n)
    {links : Nat → Option (List Link)} {f : Nat → List Link} {pred : Nat → Nat → Bool} {adj : List (List Link)} {st : PermState}
    (hc : CSR st.firstOut adj) (hh : st.head = adj.flatten.map Link.node) (hw : st.weight = adj.flatten.map Link.weight)
    {rank node : Nat} (hl : links node = some (f node)) (hn : ∀ l ∈ f node, l.node < n)
    (hlt : adj.flatten.length + (f node).length < U32) :
    ∃ st', permStep srt o links pred st rank node = some st' ∧ CSR st'.firstOut (adj ++ [permLinks srt o f pred rank node]) ∧
      st'.head = (adj ++ [permLinks srt o f pred rank node]).flatten.map Link.node ∧
      st'.weight = (adj ++ [permLinks srt o f pred rank node]).flatten.map Link.weight := by
  have h1 : (f node).filterM (fun l => do let r ← o.rank l.node; return pred rank r) =
      some ((f node).filter (fun l => pred rank (rk o l.node))) := by
    apply filterM_some
    intro l hl
    simp [rk_eq ho (hn l hl)]
  obtain ⟨hperm, _⟩ := hs (fun l => rk o l.node) ((f node).filter (fun l => pred rank (rk o l.node)))
  have h2 : (srt (fun l => rk o l.node) ((f node).filter (fun l => pred rank (rk o l.node)))).mapM (fun l => o.rank l.node) =
      some ((srt (fun l => rk o l.node) ((f node).filter (fun l => pred rank (rk o l.node)))).map (fun l => rk o l.node)) := by
    apply mapM_some
    intro l hl
    have := hperm.mem_iff.1 hl
    simp only [List.mem_filter] at this
    exact rk_eq ho (hn l this.1)
  have hlen : ((f node).filter (fun l => pred rank (rk o l.node))).length ≤ (f node).length := List.length_filter_le _ _
  have hkl : (permLinks srt o f pred rank node).length = ((f node).filter (fun l => pred rank (rk o l.node))).length := by
    simp only [permLinks, List.length_map]; exact hperm.length_eq
  refine ⟨⟨st.firstOut ++ [adj.flatten.length + (permLinks srt o f pred rank node).length],
    st.head ++ (srt (fun l => rk o l.node) ((f node).filter (fun l => pred rank (rk o l.node)))).map (fun l => rk o l.node),
    st.weight ++ (srt (fun l => rk o l.node) ((f node).filter (fun l => pred rank (rk o l.node)))).map Link.weight⟩,
    ?_, hc.snoc _, ?_, ?_⟩
  · simp only [Option.bind_eq_bind] at h1
    simp only [permStep, hl, Option.bind_eq_bind, Option.bind_some, h1, hc.getLast]
    rw [add32_of_lt (by omega)]
    simp only [Option.bind_some]
    have : (fun l : Link => (o.rank l.node).getD 0) = (fun l => rk o l.node) := rfl
    rw [this, h2, hkl]
    rfl
  · simp only [hh, List.flatten_append, List.flatten_cons, List.flatten_nil, List.append_nil, List.map_append, permLinks, List.map_map]
    rfl
  · simp only [hw, List.flatten_append, List.flatten_cons, List.flatten_nil, List.append_nil, List.map_append, permLinks, List.map_map]
    rfl

theorem permLoop_spec {srt : (Link → Nat) → List Link → List Link} (hs : SortOK srt) {o : NodeOrder} {n : Nat} (ho : o.OK n)
    {links : Nat → Option (List Link)} {f : Nat → List Link} (pred : Nat → Nat → Bool) (nodes : List Nat)
    (hl : ∀ v ∈ nodes, links v = some (f v)) (hn : ∀ v ∈ nodes, ∀ l ∈ f v, l.node < n) :
    ∀ (adj : List (List Link)) (st : PermState), CSR st.firstOut adj → st.head = adj.flatten.map Link.node →
      st.weight = adj.flatten.map Link.weight → adj.flatten.length + (nodes.flatMap f).length < U32 →
    ∃ st', permLoop srt o links pred nodes adj.length st = some st' ∧
      FOGraph.Reps ⟨st'.firstOut, st'.head, st'.weight⟩
        (adj ++ (nodes.zipIdx adj.length).map (fun p => permLinks srt o f pred p.2 p.1)) := by
  induction nodes with
  | nil => intro adj st hc hh hw _; exact ⟨st, rfl, by simpa using ⟨hc, hh, hw⟩⟩
  | cons v nodes ih =>
    intro adj st hc hh hw hlt
    simp only [List.flatMap_cons, List.length_append] at hlt
    obtain ⟨st', h1, h2, h3, h4⟩ := permStep_spec hs ho (pred := pred) (rank := adj.length) hc hh hw (hl v (by simp)) (hn v (by simp)) (by omega)
    have hkl : (permLinks srt o f pred adj.length v).length ≤ (f v).length := by
      simp only [permLinks, List.length_map, (hs _ _).1.length_eq]; exact List.length_filter_le _ _
    obtain ⟨st'', h5, h6⟩ := ih (fun w hw => hl w (by simp [hw])) (fun w hw => hn w (by simp [hw])) _ st' h2 h3 h4 (by
      simp only [List.flatten_append, List.flatten_cons, List.flatten_nil, List.append_nil, List.length_append]; omega)
    refine ⟨st'', ?_, ?_⟩
    · simp only [List.length_append, List.length_cons, List.length_nil] at h5
      simp only [permLoop, h1, Option.bind_eq_bind, Option.bind_some]; exact h5
    · simpa using h6

theorem permutatedFiltered_spec {srt : (Link → Nat) → List Link → List Link} (hs : SortOK srt) {g : FOGraph} (hg : g.WF) {o : NodeOrder}
    (ho : o.OK g.numNodes) (pred : Nat → Nat → Bool) :
    ∃ p A, permutatedFiltered srt o g.linkIter pred = some p ∧ p.WF ∧ p.numNodes = g.numNodes ∧ FOGraph.Reps p A ∧
      ∀ v r, o.rank v = some r → A[r]? = some (permLinks srt o (fun v => g.adj.getD v []) pred r v) := by
  let f : Nat → List Link := fun v => g.adj.getD v []
  obtain ⟨hm1, hn1⟩ := WF.small_arcs hg
  have hperm : o.nodeOrder.Perm (List.range g.numNodes) := by have := ho.inv.perm; rwa [ho.len] at this
  have hmem : ∀ v ∈ o.nodeOrder, v < g.numNodes := fun v hv => by simpa using hperm.mem_iff.1 hv
  have htot : (o.nodeOrder.flatMap f).length = g.numArcs := by
    rw [(hperm.flatMap_right f).length_eq, ← WF.arcs_length hg]
    rw [GraphOps.arcs_length, List.flatMap_def]
  obtain ⟨st, h1, h2⟩ := permLoop_spec hs ho (f := f) pred o.nodeOrder (fun v hv => WF_links hg (hmem v hv))
    (fun v hv l hl => WF.adj_heads hg hl) [] ⟨[0], [], []⟩ CSR.nil rfl rfl (by
      rw [htot]; simp only [List.flatten_nil, List.length_nil]; omega)
  simp only [List.nil_append, List.length_nil] at h1 h2
  let A := o.nodeOrder.zipIdx.map (fun p => permLinks srt o f pred p.2 p.1)
  have hAl : A.length = g.numNodes := by simp [A, ho.len]
  have hAm : A.flatten.length ≤ g.numArcs := by
    have key : ∀ (nodes : List Nat) k, ((nodes.zipIdx k).map (fun p => permLinks srt o f pred p.2 p.1)).flatten.length ≤ (nodes.flatMap f).length := by
      intro nodes
      induction nodes with
      | nil => intro k; simp
      | cons v nodes ih =>
        intro k
        simp only [List.zipIdx_cons, List.map_cons, List.flatten_cons, List.flatMap_cons, List.length_append]
        have hkl : (permLinks srt o f pred k v).length ≤ (f v).length := by
          simp only [permLinks, List.length_map, (hs _ _).1.length_eq]; exact List.length_filter_le _ _
        have := ih (k + 1)
        omega
    rw [← htot]; exact key _ _
  have hnew := h2.new
  rw [if_pos ⟨by show A.length + 1 < _; omega, by show A.flatten.length < _; omega⟩] at hnew
  refine ⟨⟨st.firstOut, st.head, st.weight⟩, A, ?_, h2.wf (by show A.length + 1 < _; omega) (by show A.flatten.length < _; omega) ?_, ?_, h2, ?_⟩
  · simp only [permutatedFiltered, h1, Option.bind_eq_bind, Option.bind_some]; exact hnew
  · intro ls hls l hl
    show l.node < A.length
    rw [hAl]
    rw [List.mem_map] at hls
    obtain ⟨p, hp, rfl⟩ := hls
    simp only [permLinks, List.mem_map] at hl
    obtain ⟨l', h3, rfl⟩ := hl
    have := (hs _ _).1.mem_iff.1 h3
    simp only [List.mem_filter] at this
    exact ho.rank_range (rk_eq ho (WF.adj_heads hg this.1))
  · rw [h2.numNodes]; exact hAl
  · intro v r hr
    have hv := (ho.inv.inv _ _).2 hr
    simp only [A, List.getElem?_map, List.getElem?_zipIdx, hv, Option.map_some, Nat.zero_add]
    rfl

theorem permutated_count {srt : (Link → Nat) → List Link → List Link} (hs : SortOK srt) {g : FOGraph} (hg : g.WF) {o : NodeOrder}
    (ho : o.OK g.numNodes) {pred : Nat → Nat → Bool} {u v r r' w : Nat} (hu : o.rank u = some r) (hv : o.rank v = some r') :
    (permLinks srt o (fun v => g.adj.getD v []) pred r u).count ⟨r', w⟩ =
      if pred r r' then (g.adj.getD u []).count ⟨v, w⟩ else 0 := by
  unfold permLinks
  rw [((hs _ _).1.map _).count_eq]
  have hheads : ∀ l ∈ g.adj.getD u [], l.node < g.numNodes := fun l hl => WF.adj_heads hg hl
  simp only
  generalize g.adj.getD u [] = ls at *
  induction ls with
  | nil => simp
  | cons l ls ih =>
    have ih := ih (fun l hl => hheads l (by simp [hl]))
    have hl := rk_eq ho (hheads l (by simp))
    by_cases hp : pred r (rk o l.node)
    · simp only [List.filter_cons, hp, if_true, List.map_cons, List.count_cons, ih]
      by_cases he : l.node = v
      · have : rk o l.node = r' := by rw [he] at hl; rw [he]; rw [hv] at hl; simp at hl; exact hl.symm
        rw [this] at hp
        by_cases hw : l.weight = w
        · have hlv : l = ⟨v, w⟩ := by cases l; simp at he hw; simp [he, hw]
          subst hlv
          simp only at this
          simp [hp, this]
        · have : ¬ l = ⟨v, w⟩ := by intro h; rw [h] at hw; exact hw rfl
          simp [hp, this, hw]
      · have h1 : rk o l.node ≠ r' := fun h => he (ho.rank_inj (h ▸ hl) hv)
        have h2 : ¬ l = ⟨v, w⟩ := by intro h; rw [h] at he; exact he rfl
        simp [h1, h2]
    · simp only [List.filter_cons, hp, if_false, ih, List.count_cons, Bool.false_eq_true]
      by_cases he : l = ⟨v, w⟩
      · have : rk o l.node = r' := by rw [he] at hl ⊢; simp only at hl; rw [hv] at hl; simp at hl; exact hl.symm
        rw [this] at hp
        simp [hp]
      · simp [he]

end GraphOps
end Verif
