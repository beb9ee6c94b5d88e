import Verif.Proof.CCHContraction
import Verif.Spec.GraphOps
import Mathlib.Data.Nat.Find
set_option linter.unusedSimpArgs false
set_option linter.unusedVariables false
/- The CCH data structure as built by `contract`. -/
namespace Verif
namespace CCH
open Spec GraphOps FOGraph

/-- Edge `e` of the contracted graph connects `x` with the higher node `y`. -/
def Cch.Edge (c : Cch) (e x y : Nat) : Prop := c.tail[e]? = some x ∧ c.head[e]? = some y

/-- What the later phases need to know about a CCH with `n` nodes. -/
structure Base (n : Nat) (c : Cch) : Prop where
  wf : c.topo.WF
  nn : c.topo.numNodes = n
  tailLen : c.tail.length = c.head.length
  range : ∀ e x, c.tail[e]? = some x ↔ ∃ a b, c.firstOut[x]? = some a ∧ c.firstOut[x + 1]? = some b ∧ a ≤ e ∧ e < b
  up : ∀ {e x y}, c.Edge e x y → x < y ∧ y < n
  sorted : ∀ {e e' x y y'}, c.Edge e x y → c.Edge e' x y' → (e < e' ↔ y < y')
  inv : ∀ y, y < n → ∃ ls, c.inverted.linkIter y = some ls ∧ ls.Pairwise (fun p q => p.1 < q.1) ∧ ∀ x e, (x, e) ∈ ls ↔ c.Edge e x y

/-- The same with what holds of a CCH all whose edges are there: it is chordal, and the elimination tree has the lowest upper neighbours. -/
structure Good (n : Nat) (c : Cch) : Prop extends Base n c where
  chordal : ∀ {e e' x y z}, c.Edge e x y → c.Edge e' x z → y < z → ∃ e'', c.Edge e'' y z
  treeLen : c.elimTree.length = n
  tree : ∀ x, x < n → ∃ p, c.elimTree[x]? = some p ∧
    ∀ q, p = some q ↔ (∃ e, c.Edge e x q) ∧ ∀ e' y, c.Edge e' x y → q ≤ y

theorem Base.unique {n : Nat} {c : Cch} (h : Base n c) {e e' x y : Nat} (h1 : c.Edge e x y) (h2 : c.Edge e' x y) : e = e' := by
  have a := h.sorted h1 h2
  have b := h.sorted h2 h1
  omega

theorem Edge.inj {c : Cch} {e x y x' y' : Nat} (h1 : c.Edge e x y) (h2 : c.Edge e x' y') : x = x' ∧ y = y' := by
  obtain ⟨a, b⟩ := h1; obtain ⟨a', b'⟩ := h2
  rw [a] at a'; rw [b] at b'; simp at a' b'; exact ⟨a', b'⟩

/-! ### `heads` -/

theorem heads_eq {g : FOGraph} (hg : g.WF) {v : Nat} (hv : v < g.numNodes) :
    heads g v = some (((g.adj)[v]'(by rw [g.adj_length]; exact hv)).map Link.node) := by
  have hv' : v < g.adj.length := by rw [g.adj_length]; exact hv
  obtain ⟨a, b, h1, h2, h3, h4, h5, h6⟩ := hg.reps.csr.slice hv'
  simp only [heads, FOGraph.range, h1, h2, Option.bind_eq_bind, Option.bind_some]
  rw [hg.reps.head]
  exact h6 Link.node

theorem heads_mem {g : FOGraph} (hg : g.WF) {v : Nat} {ls : List Nat} (h : heads g v = some ls) (x : Nat) :
    x ∈ ls ↔ ∃ w, g.Arc v x w := by
  have hv : v < g.numNodes := by
    simp only [heads, FOGraph.range, Option.bind_eq_bind, Option.bind_eq_some_iff] at h
    obtain ⟨p, ⟨a, _, b, hb, _⟩, _⟩ := h
    have := (List.getElem?_eq_some_iff.1 hb).1
    simp only [FOGraph.numNodes]; omega
  rw [heads_eq hg hv] at h
  simp at h; subst h
  have hv' : v < g.adj.length := by rw [g.adj_length]; exact hv
  simp only [List.mem_map, FOGraph.Arc, hg.linkIter, List.getElem?_eq_getElem hv', Option.some.injEq, exists_eq_left']
  constructor
  · rintro ⟨⟨a, w⟩, h1, rfl⟩; exact ⟨w, h1⟩
  · rintro ⟨w, h1⟩; exact ⟨_, h1, rfl⟩

theorem inAdj_iff {g : FOGraph} (hg : g.WF) {order : NodeOrder} (ho : order.OK g.numNodes) (x y : Nat) :
    InAdj order (fun v => heads g v) x y ↔ RankAdj g.Arc order.node x y := by
  unfold InAdj RankAdj
  have hex : ∀ u v, (∃ ls, heads g u = some ls ∧ v ∈ ls) ↔ ∃ w, g.Arc u v w := by
    intro u v
    constructor
    · rintro ⟨ls, h1, h2⟩; exact (heads_mem hg h1 v).1 h2
    · rintro ⟨w, ls, h1, h2⟩
      have hu := hg.tail_lt h1
      exact ⟨_, heads_eq hg hu, (heads_mem hg (heads_eq hg hu) v).2 ⟨w, ls, h1, h2⟩⟩
  constructor
  · rintro ⟨h, u, v, h1, h2, h3 | h3⟩
    · obtain ⟨w, hw⟩ := (hex _ _).1 h3; exact ⟨h, u, v, w, h1, h2, .inl hw⟩
    · obtain ⟨w, hw⟩ := (hex _ _).1 h3; exact ⟨h, u, v, w, h1, h2, .inr hw⟩
  · rintro ⟨h, u, v, w, h1, h2, h3 | h3⟩
    · exact ⟨h, u, v, h1, h2, .inl ((hex _ _).2 ⟨w, h3⟩)⟩
    · exact ⟨h, u, v, h1, h2, .inr ((hex _ _).2 ⟨w, h3⟩)⟩

/-! ### the graph of the nodes -/

theorem toGraph_eq (nodes : List (List Nat)) :
    toGraph nodes = fromAdjacencyLists (nodes.map (List.map (fun x => (⟨x, x⟩ : Link)))) := by
  have h1 : (nodes.map (List.map (fun x => (⟨x, x⟩ : Link)))).map List.length = nodes.map List.length := by
    rw [List.map_map]; congr 1; funext l; simp
  have h2 : ((nodes.map (List.map (fun x => (⟨x, x⟩ : Link)))).flatten).map Link.node = nodes.flatten := by
    rw [← List.map_flatten, List.map_map]; exact List.map_id _
  have h3 : ((nodes.map (List.map (fun x => (⟨x, x⟩ : Link)))).flatten).map Link.weight = nodes.flatten := by
    rw [← List.map_flatten, List.map_map]; exact List.map_id _
  simp only [toGraph, fromAdjacencyLists, h1, h2, h3]

theorem CSR.congr {γ δ : Type} {fo : List Nat} {adj : List (List γ)} {adj' : List (List δ)} (h : CSR fo adj)
    (hl : adj.map List.length = adj'.map List.length) : CSR fo adj' := by
  have hlen : adj.length = adj'.length := by have := congrArg List.length hl; simpa using this
  refine ⟨by rw [h.len, hlen], ?_⟩
  intro v hv
  rw [h.get v (by omega), List.length_flatten, List.length_flatten, List.map_take, List.map_take, hl]

theorem slice_get {α : Type} {l r : List α} {a b j : Nat} (h : slice l a b = some r) (hj : j < b - a) : l[a + j]? = r[j]? := by
  unfold slice at h
  split at h
  · simp at h; subst h
    rw [List.getElem?_take_of_lt hj, List.getElem?_drop]
  · simp at h

theorem CSR.index {γ : Type} {fo : List Nat} {adj : List (List γ)} (h : CSR fo adj) {v j a : Nat} {l : List γ}
    (hv : adj[v]? = some l) (ha : fo[v]? = some a) (hj : j < l.length) : adj.flatten[a + j]? = l[j]? := by
  obtain ⟨hlt, rfl⟩ := List.getElem?_eq_some_iff.1 hv
  obtain ⟨a', b, h1, h2, h3, h4, h5, h6⟩ := h.slice hlt
  rw [ha] at h1; simp at h1; subst h1
  have := h6 id
  simp only [List.map_id] at this
  exact slice_get this (by omega)

/-- every position of the concatenation belongs to exactly one list -/
theorem CSR.locate {γ : Type} {fo : List Nat} {adj : List (List γ)} (h : CSR fo adj) {e : Nat} (he : e < adj.flatten.length) :
    ∃ v a b, v < adj.length ∧ fo[v]? = some a ∧ fo[v + 1]? = some b ∧ a ≤ e ∧ e < b := by
  obtain ⟨v, j, l, x, h1, h2, h3, _⟩ := flatten_index adj e he
  obtain ⟨hlt, rfl⟩ := List.getElem?_eq_some_iff.1 h1
  obtain ⟨a, b, h4, h5, h6, h7, h8, _⟩ := h.slice hlt
  have := (List.getElem?_eq_some_iff.1 h2).1
  exact ⟨v, a, b, hlt, h4, h5, by omega, by omega⟩

theorem range_unique {g : FOGraph} (hg : g.WF) {e x y a b a' b' : Nat} (h1 : g.firstOut[x]? = some a) (h2 : g.firstOut[x + 1]? = some b)
    (h3 : a ≤ e ∧ e < b) (h4 : g.firstOut[y]? = some a') (h5 : g.firstOut[y + 1]? = some b') (h6 : a' ≤ e ∧ e < b') : x = y := by
  rcases Nat.lt_trichotomy x y with h | h | h
  · have := hg.mono' (show x + 1 ≤ y by omega) h2 h4; omega
  · exact h
  · have := hg.mono' (show y + 1 ≤ x by omega) h5 h1; omega

theorem tails_spec {g : FOGraph} (hg : g.WF) :
    ∃ t, tails g = some t ∧ t.length = g.head.length ∧
      ∀ e x, t[e]? = some x ↔ ∃ a b, g.firstOut[x]? = some a ∧ g.firstOut[x + 1]? = some b ∧ a ≤ e ∧ e < b := by
  unfold tails
  have hget : ∀ x, x < g.numNodes → ∃ a b, g.firstOut[x]? = some a ∧ g.firstOut[x + 1]? = some b ∧ a ≤ b ∧ b ≤ g.head.length := by
    intro x hx
    obtain ⟨a, b, h1, h2, h3, _⟩ := hg.reps.csr.slice (v := x) (by rw [g.adj_length]; exact hx)
    exact ⟨a, b, h1, h2, h3, hg.le_m h2⟩
  obtain ⟨t, h1, h2, h3⟩ := foldlM_inv (fun (tail : List Nat) node => do
      let (a, b) ← g.range node
      let _ ← slice tail a b
      ((List.range (b - a)).map (· + a)).foldlM (fun tail e => upd tail e node) tail)
    (fun P t => t.length = g.head.length ∧ ∀ x ∈ P, ∀ e a b, g.firstOut[x]? = some a → g.firstOut[x + 1]? = some b →
      a ≤ e → e < b → t[e]? = some x) (List.range g.numNodes) (by
      intro P x Q t hE ⟨hl, hP⟩
      have hx : x < g.numNodes := by
        have : x ∈ List.range g.numNodes := by rw [hE]; simp
        simpa using this
      obtain ⟨a, b, ha, hb, hab, hbm⟩ := hget x hx
      obtain ⟨t', h1, h2, h3, h4⟩ := foldlM_inv (fun (tail : List Nat) e => upd tail e x)
        (fun R t' => t'.length = g.head.length ∧ (∀ e ∈ R, t'[e]? = some x) ∧ (∀ e, ¬ (a ≤ e ∧ e < b) → t'[e]? = t[e]?))
        ((List.range (b - a)).map (· + a)) (by
          intro R e S t' hE' ⟨h1, h2, h3⟩
          have he : a ≤ e ∧ e < b := by
            have : e ∈ (List.range (b - a)).map (· + a) := by rw [hE']; simp
            simp at this; obtain ⟨i, _, _⟩ := this; omega
          have hlt : e < t'.length := by omega
          refine ⟨t'.set e x, upd_of_lt _ hlt, by simp [h1], ?_, ?_⟩
          · intro e' he'
            by_cases h : e' = e
            · subst h; exact List.getElem?_set_self hlt
            · rw [List.getElem?_set_ne (fun h' => h h'.symm)]
              exact h2 e' (by rw [List.mem_append] at he'; rcases he' with h' | h'; exact h'; simp at h'; exact absurd h' h)
          · intro e' he'
            rw [List.getElem?_set_ne (by rintro rfl; exact he' he)]
            exact h3 e' he') t ⟨hl, by simp, by simp⟩
      refine ⟨t', ?_, h2, ?_⟩
      · simp only [FOGraph.range, ha, hb, Option.bind_eq_bind, Option.bind_some, Option.pure_def, slice_eq hab (l := t) (by omega)]
        exact h1
      · intro y hy e a' b' ha' hb' hae heb
        rw [List.mem_append] at hy
        by_cases hyx : y = x
        · subst hyx
          rw [ha] at ha'; rw [hb] at hb'; simp at ha' hb'
          subst ha'; subst hb'
          apply h3
          simp; exact ⟨e - a, by omega, by omega⟩
        · rw [h4 e (by intro h; exact hyx (range_unique hg ha' hb' ⟨hae, heb⟩ ha hb h))]
          exact hP y (by rcases hy with h | h; exact h; simp at h; exact absurd h hyx) e a' b' ha' hb' hae heb)
    (List.replicate g.head.length 0) ⟨by simp, by simp⟩
  have hloc : ∀ e, e < g.head.length → ∃ x a b, x < g.numNodes ∧ g.firstOut[x]? = some a ∧ g.firstOut[x + 1]? = some b ∧ a ≤ e ∧ e < b := by
    intro e he
    obtain ⟨v, a, b, hv, h⟩ := CSR.locate hg.reps.csr (e := e) (by
      have := hg.reps.head; rw [this, List.length_map] at he; exact he)
    exact ⟨v, a, b, by rw [← g.adj_length]; exact hv, h⟩
  refine ⟨t, h1, h2, ?_⟩
  intro e x
  constructor
  · intro h
    have he := (List.getElem?_eq_some_iff.1 h).1
    obtain ⟨y, a, b, hy, h4, h5, h6, h7⟩ := hloc e (by omega)
    have := h3 y (by simpa using hy) e a b h4 h5 h6 h7
    rw [h] at this; simp at this; subst this
    exact ⟨a, b, h4, h5, h6, h7⟩
  · rintro ⟨a, b, h4, h5, h6, h7⟩
    have hx : x < g.numNodes := by
      have := (List.getElem?_eq_some_iff.1 h5).1
      simp only [FOGraph.numNodes]; omega
    exact h3 x (by simpa using hx) e a b h4 h5 h6 h7

/-- `edge_indices` -/
theorem edgeIndices_spec {g : FOGraph} (hg : g.WF) {u v : Nat} (hu : u < g.numNodes) :
    ∃ es, g.edgeIndices u v = some es ∧ ∀ e, e ∈ es ↔ ∃ w, EdgeAt g.firstOut g.head g.weight e u v w := by
  obtain ⟨a, b, h1, h2, h3, _⟩ := hg.reps.csr.slice (v := u) (by rw [g.adj_length]; exact hu)
  have hb := hg.le_m h2
  obtain ⟨hs, hhs⟩ := mapM_exists (f := fun e => g.head[e]?) (l := (List.range (b - a)).map (· + a)) (by
    intro e he
    simp at he; obtain ⟨i, hi, rfl⟩ := he
    exact ⟨_, List.getElem?_eq_getElem (show i + a < g.head.length by omega)⟩)
  obtain ⟨hl, hidx⟩ := mapM_index hhs
  refine ⟨_, by simp only [FOGraph.edgeIndices, FOGraph.neighborEdgeIndices, FOGraph.range, h1, h2, Option.bind_eq_bind,
    Option.bind_some, Option.pure_def, hhs]; rfl, ?_⟩
  intro e
  simp only [List.mem_map, List.mem_filter, decide_eq_true_eq, Prod.exists, exists_and_right, exists_eq_right]
  constructor
  · intro hx
    rw [List.mem_iff_getElem?] at hx
    obtain ⟨i, hi⟩ := hx
    rw [List.getElem?_zip_eq_some] at hi
    obtain ⟨y, hy1, hy2⟩ := hidx i e hi.1
    rw [hi.2] at hy1; simp at hy1; subst hy1
    have hi1 := hi.1
    rw [List.getElem?_map, Option.map_eq_some_iff] at hi1
    obtain ⟨j, hj, rfl⟩ := hi1
    obtain ⟨hjl, hj⟩ := List.getElem?_eq_some_iff.1 hj
    simp at hjl hj
    have hw : j + a < g.weight.length := by rw [hg.weights]; exact (List.getElem?_eq_some_iff.1 hy2).1
    exact ⟨_, a, b, h1, h2, by omega, by omega, hy2, List.getElem?_eq_getElem hw⟩
  · rintro ⟨w, a', b', h4, h5, h6, h7, h8, _⟩
    rw [h1] at h4; rw [h2] at h5; simp at h4 h5; subst h4; subst h5
    rw [List.mem_iff_getElem?]
    have hi : ((List.range (b - a)).map (· + a))[e - a]? = some e := by
      rw [List.getElem?_map, List.getElem?_range (by omega)]; simp; omega
    obtain ⟨y, hy1, hy2⟩ := hidx (e - a) e hi
    rw [h8] at hy2; simp at hy2; subst hy2
    exact ⟨e - a, List.getElem?_zip_eq_some.2 ⟨hi, hy1⟩⟩

theorem origArcs_spec {orig g : FOGraph} (ho : orig.WF) (hg : g.WF) (hn : g.numNodes = orig.numNodes) {order : NodeOrder}
    (hord : order.OK orig.numNodes) (flip : Bool) :
    ∃ l, origArcs orig order g flip = some l ∧ l.length = g.head.length ∧
      ∀ e x y a b, g.firstOut[x]? = some a → g.firstOut[x + 1]? = some b → a ≤ e → e < b → g.head[e]? = some y →
        ∃ es u v, l[e]? = some es ∧ order.node x = some u ∧ order.node y = some v ∧
          ∀ i, i ∈ es ↔ ∃ w, EdgeAt orig.firstOut orig.head orig.weight i (if flip then v else u) (if flip then u else v) w := by
  unfold origArcs
  have hone : ∀ node nb, node < g.numNodes → nb < g.numNodes → ∃ es u v, (do
      let x ← order.node node
      let y ← order.node nb
      if flip then orig.edgeIndices y x else orig.edgeIndices x y) = some es ∧ order.node node = some u ∧ order.node nb = some v ∧
      ∀ i, i ∈ es ↔ ∃ w, EdgeAt orig.firstOut orig.head orig.weight i (if flip then v else u) (if flip then u else v) w := by
    intro x y hx hy
    rw [hn] at hx hy
    obtain ⟨u, hu, hu', _⟩ := hord.node_lt hx
    obtain ⟨v, hv, hv', _⟩ := hord.node_lt hy
    cases flip with
    | false =>
      obtain ⟨es, h1, h2⟩ := edgeIndices_spec ho (v := v) hu
      exact ⟨es, u, v, by simp [hu', hv', h1], hu', hv', by simpa using h2⟩
    | true =>
      obtain ⟨es, h1, h2⟩ := edgeIndices_spec ho (v := u) hv
      exact ⟨es, u, v, by simp [hu', hv', h1], hu', hv', by simpa using h2⟩
  have hex : ∀ node ∈ List.range g.numNodes, ∃ y, (do
      let hs ← heads g node
      hs.mapM (fun nb => do
        let x ← order.node node
        let y ← order.node nb
        if flip then orig.edgeIndices y x else orig.edgeIndices x y)) = some y := by
    intro x hx
    simp at hx
    simp only [heads_eq hg hx, Option.bind_eq_bind, Option.bind_some]
    apply mapM_exists
    intro nb hnb
    obtain ⟨w, hw⟩ := (heads_mem hg (heads_eq hg hx) nb).1 hnb
    obtain ⟨ls, hl, hm⟩ := hw
    obtain ⟨es, _, _, h, _⟩ := hone x nb hx (hg.mem_heads hl hm)
    exact ⟨es, h⟩
  obtain ⟨per, hper⟩ := mapM_exists hex
  obtain ⟨hl, hidx⟩ := mapM_index hper
  have hl' : per.length = g.numNodes := by simpa using hl
  have hpx : ∀ x, (hx : x < g.numNodes) → ∃ r, per[x]? = some r ∧ r.length = ((g.adj)[x]'(by rw [g.adj_length]; exact hx)).length ∧
      ∀ (j y : Nat), (((g.adj)[x]'(by rw [g.adj_length]; exact hx)).map Link.node)[j]? = some y → ∃ es, r[j]? = some es ∧ (do
        let u ← order.node x
        let v ← order.node y
        if flip then orig.edgeIndices v u else orig.edgeIndices u v) = some es := by
    intro x hx
    obtain ⟨r, h1, h2⟩ := hidx x x (List.getElem?_range hx)
    simp only [heads_eq hg hx, Option.bind_eq_bind, Option.bind_some] at h2
    obtain ⟨h3, h4⟩ := mapM_index h2
    exact ⟨r, h1, by simpa using h3, h4⟩
  have hcsr : CSR g.firstOut per := by
    apply CSR.congr hg.reps.csr
    apply List.ext_getElem?
    intro i
    by_cases hi : i < g.numNodes
    · obtain ⟨r, h1, h2, _⟩ := hpx i hi
      rw [List.getElem?_map, List.getElem?_map, h1, List.getElem?_eq_getElem (by rw [g.adj_length]; exact hi)]
      simp [h2]
    · rw [List.getElem?_eq_none (by simp [g.adj_length]; omega), List.getElem?_eq_none (by simp; omega)]
  refine ⟨per.flatten, by simp only [Option.bind_eq_bind] at hper; simp only [Option.bind_eq_bind, hper, Option.bind_some]; rfl, ?_, ?_⟩
  · have h1 := hcsr.getLast
    have h2 := hg.last
    rw [h1] at h2; simpa using h2
  · intro e x y a b ha hb hae heb hy
    have hx : x < g.numNodes := by
      have := (List.getElem?_eq_some_iff.1 hb).1
      simp only [FOGraph.numNodes]; omega
    obtain ⟨r, h1, h2, h3⟩ := hpx x hx
    have hx' : x < g.adj.length := by rw [g.adj_length]; exact hx
    obtain ⟨a', b', h4, h5, h6, h7, h8, h9⟩ := hg.reps.csr.slice hx'
    rw [ha] at h4; rw [hb] at h5; simp at h4 h5; subst h4; subst h5
    have hj : e - a < r.length := by omega
    have hflat : per.flatten[e]? = r[e - a]? := by
      have := CSR.index hcsr h1 ha hj
      rwa [show a + (e - a) = e by omega] at this
    have hhead : (g.adj[x].map Link.node)[e - a]? = some y := by
      have h10 := h9 Link.node
      rw [← hg.reps.head] at h10
      have := slice_get h10 (show e - a < b - a by omega)
      rw [show a + (e - a) = e by omega, hy] at this
      exact this.symm
    obtain ⟨es, h10, h11⟩ := h3 _ _ hhead
    obtain ⟨es', u, v, h12, h13, h14, h15⟩ := hone x y hx (hg.heads y (List.mem_of_getElem? hy))
    rw [h12] at h11; simp at h11; subst h11
    exact ⟨es', u, v, by rw [hflat, h10], h13, h14, h15⟩

theorem buildElimTree_spec {g : FOGraph} (hg : g.WF) :
    ∃ t, buildElimTree g = some t ∧ t.length = g.numNodes ∧
      ∀ x, (hx : x < g.numNodes) → t[x]? = some ((((g.adj)[x]'(by rw [g.adj_length]; exact hx)).map Link.node).head?) := by
  unfold buildElimTree
  obtain ⟨t, ht⟩ := mapM_exists (l := List.range g.numNodes) (f := fun v => do
    let hs ← heads g v
    return hs.head?) (by
      intro x hx; simp at hx
      rw [heads_eq hg hx]; exact ⟨_, rfl⟩)
  obtain ⟨h1, h2⟩ := mapM_index ht
  refine ⟨t, ht, by simpa using h1, ?_⟩
  intro x hx
  obtain ⟨y, h3, h4⟩ := h2 x x (List.getElem?_range hx)
  rw [heads_eq hg hx] at h4
  simp only [Option.bind_eq_bind, Option.bind_some, Option.pure_def, Option.some.injEq] at h4
  rw [h3, h4]

/-! ### all of `contract` -/

/-- How the CCH relates to the input. -/
structure BuiltFrom (orig : FOGraph) (order : NodeOrder) (c : Cch) : Prop where
  order_eq : c.order = order
  edge_iff : ∀ x y, (∃ e, c.Edge e x y) ↔ x < y ∧ LowPath (RankAdj orig.Arc order.node) x x y
  fwLen : c.fwOrig.length = c.head.length
  bwLen : c.bwOrig.length = c.head.length
  fw : ∀ {e x y}, c.Edge e x y → ∃ es u v, c.fwOrig[e]? = some es ∧ order.node x = some u ∧ order.node y = some v ∧
    ∀ i, i ∈ es ↔ ∃ w, EdgeAt orig.firstOut orig.head orig.weight i u v w
  bw : ∀ {e x y}, c.Edge e x y → ∃ es u v, c.bwOrig[e]? = some es ∧ order.node x = some u ∧ order.node y = some v ∧
    ∀ i, i ∈ es ↔ ∃ w, EdgeAt orig.firstOut orig.head orig.weight i v u w

/-- The pairs of the chordal completion, of which there may be too many for 32 bit edge ids. -/
def TooLarge (orig : FOGraph) (order : NodeOrder) : Prop :=
  ∃ P : List (Nat × Nat), P.Nodup ∧ (∀ p ∈ P, p.1 < p.2 ∧ LowPath (RankAdj orig.Arc order.node) p.1 p.1 p.2) ∧ U32 - 1 ≤ P.length

theorem pairs_nodup (nodes : List (List Nat)) (hs : ∀ (v : Nat) (l : List Nat), nodes[v]? = some l → l.Pairwise (· < ·)) :
    ∃ P : List (Nat × Nat), P.Nodup ∧ P.length = nodes.flatten.length ∧ ∀ p ∈ P, Adj nodes p.1 p.2 := by
  refine ⟨nodes.zipIdx.flatMap (fun p => p.1.map (Prod.mk p.2)), ?_, ?_, ?_⟩
  · rw [List.Nodup, List.pairwise_flatMap]
    refine ⟨?_, ?_⟩
    · rintro ⟨l, v⟩ h
      rw [List.pairwise_map]
      have := List.mem_zipIdx_iff_getElem?.1 h
      exact (hs v l this).imp (fun h h' => by simp at h'; omega)
    · have : nodes.zipIdx.Pairwise (fun p q => p.2 ≠ q.2) := by
        have h : (nodes.zipIdx.map Prod.snd).Nodup := by rw [List.zipIdx_map_snd]; exact List.nodup_range'
        rwa [List.Nodup, List.pairwise_map] at h
      refine this.imp ?_
      intro p q hne x hx y hy hxy
      simp only [List.mem_map] at hx hy
      obtain ⟨_, _, rfl⟩ := hx
      obtain ⟨_, _, rfl⟩ := hy
      simp at hxy; exact hne hxy.1
  · rw [List.length_flatMap, List.length_flatten]
    congr 1
    apply List.ext_getElem?
    intro i
    simp [List.getElem?_map, List.getElem?_zipIdx, Function.comp_def]
  · rintro ⟨u, x⟩ h
    simp only [List.mem_flatMap, List.mem_map] at h
    obtain ⟨⟨l, v⟩, h1, y, h2, h3⟩ := h
    simp at h3; obtain ⟨rfl, rfl⟩ := h3
    exact ⟨l, List.mem_zipIdx_iff_getElem?.1 h1, h2⟩

theorem build_spec {orig : FOGraph} (ho : orig.WF) {order : NodeOrder} (hord : order.OK orig.numNodes) :
    (build orig order = none ∧ TooLarge orig order) ∨
    ∃ c, build orig order = some c ∧ Good orig.numNodes c ∧ BuiltFrom orig order c := by
  obtain ⟨nodes0, h1, h2, h3, h4⟩ := contractionGraph_spec hord (links := fun v => heads orig v) (by
    intro v hv
    refine ⟨_, heads_eq ho hv, ?_⟩
    intro x hx
    obtain ⟨w, ls, ha, hb⟩ := (heads_mem ho (heads_eq ho hv) x).1 hx
    exact ho.mem_heads ha hb)
  have h4' : ∀ x y, Adj nodes0 x y ↔ x < y ∧ RankAdj orig.Arc order.node x y := by
    intro x y; rw [h4, inAdj_iff ho hord]
  obtain ⟨nodes, h5, hc⟩ := contractNodes_spec h2 h3 h4'
  have hsymm : ∀ u v, RankAdj orig.Arc order.node u v → RankAdj orig.Arc order.node v u := by
    rintro u v ⟨h, a, b, w, h1, h2, h3⟩
    exact ⟨fun h' => h h'.symm, b, a, w, h2, h1, h3.symm⟩
  have hn32 : orig.numNodes + 1 < U32 - 1 := by
    have h1 := ho.small.1
    have h2 := ho.fo_len
    simp only [FOGraph.numNodes]; omega
  obtain ⟨P, hP1, hP2, hP3⟩ := pairs_nodup nodes (fun v l h => (hc.sorted v l h).1)
  let adj := nodes.map (List.map (fun x => (⟨x, x⟩ : Link)))
  have hadjl : adj.length = orig.numNodes := by simp [adj, hc.len]
  have hadjf : adj.flatten.length = nodes.flatten.length := by
    show ((nodes.map (List.map (fun x => (⟨x, x⟩ : Link)))).flatten).length = _
    rw [← List.map_flatten, List.length_map]
  by_cases hm : nodes.flatten.length < U32 - 1
  · right
    obtain ⟨g, hg1, hg2⟩ := fromAdjacencyLists_spec adj (by omega) (by omega)
    have hgw : g.WF := hg2.wf (by omega) (by omega) (by
      intro ls hls l hl
      obtain ⟨v, hv⟩ := List.mem_iff_getElem?.1 hls
      simp only [adj, List.getElem?_map, Option.map_eq_some_iff] at hv
      obtain ⟨m, hm, rfl⟩ := hv
      simp only [List.mem_map] at hl
      obtain ⟨x, hx, rfl⟩ := hl
      simp only [hadjl]
      exact ((hc.sorted v m hm).2 x hx).2)
    have hgn : g.numNodes = orig.numNodes := by rw [hg2.numNodes, hadjl]
    have hadj : g.adj = adj := by
      apply List.ext_getElem?
      intro i
      rw [← hgw.linkIter, hg2.linkIter]
    have hgh : g.head = nodes.flatten := by
      rw [hg2.head, ← List.map_flatten, List.map_map]; exact List.map_id _
    obtain ⟨tr, ht1, ht2, ht3⟩ := buildElimTree_spec hgw
    obtain ⟨fw, hf1, hf2, hf3⟩ := origArcs_spec ho hgw hgn hord false
    obtain ⟨bw, hb1, hb2, hb3⟩ := origArcs_spec ho hgw hgn hord true
    obtain ⟨tl, hl1, hl2, hl3⟩ := tails_spec hgw
    obtain ⟨iv, hi1, hi2⟩ := reversedWithEdgeIds_spec hgw
    have hnodes : ∀ x, x < orig.numNodes → nodes[x]? = some (nodes[x]?.getD []) := by
      intro x hx
      rw [List.getElem?_eq_getElem (by rw [hc.len]; exact hx)]; rfl
    -- edges and adjacency
    have hedge : ∀ (e x y : Nat), tl[e]? = some x ∧ g.head[e]? = some y ↔
        ∃ (a : Nat) (l : List Nat), g.firstOut[x]? = some a ∧ nodes[x]? = some l ∧ a ≤ e ∧ l[e - a]? = some y := by
      intro e x y
      have hcsr : CSR g.firstOut nodes := by
        apply CSR.congr hg2.csr
        simp only [adj, List.map_map]; congr 1; funext l; simp
      rw [hl3]
      constructor
      · rintro ⟨⟨a, b, h6, h7, h8, h9⟩, h10⟩
        have hx : x < nodes.length := by
          have := (List.getElem?_eq_some_iff.1 h7).1
          have := hcsr.len; omega
        obtain ⟨a', b', h11, h12, h13, h14, _⟩ := hcsr.slice hx
        rw [h6] at h11; rw [h7] at h12; simp at h11 h12; subst h11; subst h12
        have := CSR.index hcsr (List.getElem?_eq_getElem hx) h6 (show e - a < nodes[x].length by omega)
        rw [show a + (e - a) = e by omega, ← hgh, h10] at this
        exact ⟨a, _, h6, List.getElem?_eq_getElem hx, h8, this.symm⟩
      · rintro ⟨a, l, h6, h7, h8, h9⟩
        obtain ⟨hx, rfl⟩ := List.getElem?_eq_some_iff.1 h7
        obtain ⟨a', b', h11, h12, h13, h14, _⟩ := hcsr.slice hx
        rw [h6] at h11; simp at h11; subst h11
        have hj := (List.getElem?_eq_some_iff.1 h9).1
        have := CSR.index hcsr h7 h6 hj
        rw [show a + (e - a) = e by omega, ← hgh, h9] at this
        exact ⟨⟨a, b', h6, h12, h8, by omega⟩, this⟩
    have hEx : ∀ (x y : Nat), (∃ e : Nat, tl[e]? = some x ∧ g.head[e]? = some y) ↔ Adj nodes x y := by
      intro x y
      constructor
      · rintro ⟨e, he⟩
        obtain ⟨a, l, h6, h7, h8, h9⟩ := (hedge e x y).1 he
        exact ⟨l, h7, List.mem_of_getElem? h9⟩
      · rintro ⟨l, h6, h7⟩
        obtain ⟨j, hj⟩ := List.mem_iff_getElem?.1 h7
        have hx : x < g.adj.length := by
          rw [hadj, hadjl, ← hc.len]; exact (List.getElem?_eq_some_iff.1 h6).1
        obtain ⟨a, b, h8, _⟩ := hgw.reps.csr.slice hx
        exact ⟨a + j, (hedge _ _ _).2 ⟨a, l, h8, h6, by omega, by rw [Nat.add_sub_cancel_left]; exact hj⟩⟩
    have hsrt : ∀ (l : List Nat) (i j a b : Nat), l.Pairwise (· < ·) → l[i]? = some a → l[j]? = some b → i < j → a < b := by
      intro l i j a b hp hi hj hlt
      obtain ⟨hi', rfl⟩ := List.getElem?_eq_some_iff.1 hi
      obtain ⟨hj', rfl⟩ := List.getElem?_eq_some_iff.1 hj
      exact List.pairwise_iff_getElem.1 hp i j hi' hj' hlt
    refine ⟨⟨g.firstOut, g.head, tl, order, fw, bw, tr, iv⟩, ?_, ?_, ?_⟩
    · simp only [build, h1, h5, toGraph_eq, Option.bind_eq_bind, Option.bind_some]
      have : fromAdjacencyLists (nodes.map (List.map (fun x => (⟨x, x⟩ : Link)))) = some g := hg1
      simp only [this, Option.bind_some, newFrom, ht1, hf1, hb1, hl1, hi1, Option.bind_eq_bind]
      rfl
    · have hgw' : (FOGraph.mk g.firstOut g.head g.head).WF := ⟨hgw.small, hgw.first, hgw.last, rfl, hgw.mono, hgw.heads⟩
      refine ⟨⟨hgw', hgn, hl2, hl3, ?_, ?_, ?_⟩, ?_, ?_, ?_⟩
      · intro e x y he
        exact hc.lt ((hEx x y).1 ⟨e, he⟩)
      · intro e e' x y y' he he'
        obtain ⟨a, l, h6, h7, h8, h9⟩ := (hedge e x y).1 he
        obtain ⟨a', l', h6', h7', h8', h9'⟩ := (hedge e' x y').1 he'
        rw [h6] at h6'; rw [h7] at h7'; simp at h6' h7'; subst h6'; subst h7'
        have hp := (hc.sorted x l h7).1
        constructor
        · intro h; exact hsrt l _ _ _ _ hp h9 h9' (by omega)
        · intro h
          rcases Nat.lt_trichotomy (e - a) (e' - a) with h' | h' | h'
          · omega
          · rw [h', h9'] at h9; simp at h9; omega
          · have := hsrt l _ _ _ _ hp h9' h9 h'; omega
      · intro y hy
        obtain ⟨ls, h6, h7, h8, h9⟩ := hi2 y (by omega)
        have hmem : ∀ x e, (x, e) ∈ ls ↔ tl[e]? = some x ∧ g.head[e]? = some y := by
          intro x e
          rw [h9, hl3]
          constructor
          · rintro ⟨a, b, h10, h11, h12, h13, h14⟩; exact ⟨⟨a, b, h10, h11, h12, h13⟩, h14⟩
          · rintro ⟨⟨a, b, h10, h11, h12, h13⟩, h14⟩; exact ⟨a, b, h10, h11, h12, h13, h14⟩
        refine ⟨ls, h6, ?_, hmem⟩
        refine (h7.and h8).imp_of_mem ?_
        rintro ⟨x, e⟩ ⟨x', e'⟩ hm1 hm2 ⟨hne, hle⟩
        simp only at hle ⊢
        apply Nat.lt_of_le_of_ne hle
        rintro rfl
        apply hne
        have he := (hmem _ _).1 hm1
        have he' := (hmem _ _).1 hm2
        obtain ⟨a, l, h6, h7, h8, h9⟩ := (hedge _ _ _).1 he
        obtain ⟨a', l', h6', h7', h8', h9'⟩ := (hedge _ _ _).1 he'
        rw [h6] at h6'; rw [h7] at h7'; simp at h6' h7'; subst h6'; subst h7'
        have hp := (hc.sorted x l h7).1
        have : e = e' := by
          rcases Nat.lt_trichotomy (e - a) (e' - a) with h' | h' | h'
          · have := hsrt l _ _ _ _ hp h9 h9' h'; omega
          · omega
          · have := hsrt l _ _ _ _ hp h9' h9 h'; omega
        rw [this]
      · intro e e' x y z he he' hlt
        exact (hEx y z).2 (hc.chordal ((hEx x y).1 ⟨e, he⟩) ((hEx x z).1 ⟨e', he'⟩) hlt)
      · show tr.length = _; rw [ht2, hgn]
      · intro x hx
        have h6 := ht3 x (by omega)
        refine ⟨_, h6, ?_⟩
        have h7 : ((g.adj[x]'(by rw [g.adj_length, hgn]; exact hx)).map Link.node) = nodes[x]'(by rw [hc.len]; exact hx) := by
          have : (g.adj[x]'(by rw [g.adj_length, hgn]; exact hx)) = adj[x]'(by rw [hadjl]; exact hx) := by simp only [hadj]
          rw [this]
          simp only [adj, List.getElem_map, List.map_map]
          exact List.map_id _
        rw [h7]
        have h8 : nodes[x]? = some (nodes[x]'(by rw [hc.len]; exact hx)) := List.getElem?_eq_getElem _
        generalize (nodes[x]'(by rw [hc.len]; exact hx)) = l at h8
        intro q
        have hE : ∀ (y : Nat), (∃ e : Nat, tl[e]? = some x ∧ g.head[e]? = some y) ↔ y ∈ l := by
          intro y; rw [hEx]
          constructor
          · rintro ⟨l', h9, h10⟩; rw [h8] at h9; simp at h9; subst h9; exact h10
          · intro h; exact ⟨l, h8, h⟩
        constructor
        · intro hq
          refine ⟨(hE q).2 (List.mem_of_head? hq), ?_⟩
          intro e' y hy
          have hyl := (hE y).1 ⟨e', hy⟩
          cases l with
          | nil => simp at hq
          | cons p rest =>
            simp at hq; subst hq
            rcases List.mem_cons.1 hyl with rfl | hyl
            · exact Nat.le_refl _
            · exact Nat.le_of_lt (List.rel_of_pairwise_cons (hc.sorted x _ h8).1 hyl)
        · rintro ⟨hq, hmin⟩
          have hql := (hE q).1 hq
          cases l with
          | nil => simp at hql
          | cons p rest =>
            obtain ⟨e, he⟩ := (hE p).2 (by simp)
            have := hmin e p he
            rcases List.mem_cons.1 hql with rfl | hql
            · rfl
            · have := List.rel_of_pairwise_cons (hc.sorted x _ h8).1 hql; omega
    · refine ⟨rfl, ?_, hf2, hb2, ?_, ?_⟩
      · intro x y
        show (∃ e : Nat, tl[e]? = some x ∧ g.head[e]? = some y) ↔ _
        rw [hEx]
        constructor
        · intro h; exact ⟨(hc.lt h).1, (hc.iff_lowPath hsymm (hc.lt h).1).1 h⟩
        · rintro ⟨h, h'⟩; exact (hc.iff_lowPath hsymm h).2 h'
      · rintro e x y ⟨he1, he2⟩
        obtain ⟨a, b, h6, h7, h8, h9⟩ := (hl3 e x).1 he1
        exact hf3 e x y a b h6 h7 h8 h9 he2
      · rintro e x y ⟨he1, he2⟩
        obtain ⟨a, b, h6, h7, h8, h9⟩ := (hl3 e x).1 he1
        exact hb3 e x y a b h6 h7 h8 h9 he2
  · left
    refine ⟨?_, P, hP1, ?_, by omega⟩
    · simp only [build, h1, h5, toGraph, Option.bind_eq_bind, Option.bind_some]
      cases hd : degreesToFirstOut (nodes.map List.length) with
      | none => rfl
      | some fo =>
        simp only [Option.bind_some]
        have : FOGraph.new fo nodes.flatten nodes.flatten = none := by
          unfold FOGraph.new; rw [if_neg]; intro h; exact hm h.2.1
        rw [this]; rfl
    · intro p hp
      have := hP3 p hp
      exact ⟨(hc.lt this).1, (hc.iff_lowPath hsymm (hc.lt this).1).1 this⟩

/-- The parent function of the elimination tree. -/
def Cch.parent (c : Cch) (x : Nat) : Option Nat := (c.elimTree[x]?).getD none

theorem Good.parent_edge {n : Nat} {c : Cch} (h : Good n c) {x p : Nat} (hp : c.parent x = some p) :
    (∃ e, c.Edge e x p) ∧ ∀ e' y, c.Edge e' x y → p ≤ y := by
  unfold Cch.parent at hp
  by_cases hx : x < n
  · obtain ⟨q, h1, h2⟩ := h.tree x hx
    rw [h1] at hp; simp at hp
    exact (h2 p).1 hp
  · rw [List.getElem?_eq_none (by rw [h.treeLen]; omega)] at hp; simp at hp

theorem Base.edge_lt {n : Nat} {c : Cch} (h : Base n c) {e x y : Nat} (he : c.Edge e x y) : x < n := by
  have := h.up he; omega

/-- all neighbours are ancestors -/
theorem Good.anc {n : Nat} {c : Cch} (h : Good n c) : ∀ {e x y : Nat}, c.Edge e x y → Anc c.parent x y := by
  have key : ∀ k e x y, n - x ≤ k → c.Edge e x y → Anc c.parent x y := by
    intro k
    induction k with
    | zero => intro e x y hk he; have := h.up he; omega
    | succ k ih =>
      intro e x y hk he
      have hup := h.up he
      obtain ⟨p, h1, h2⟩ := h.tree x (by omega)
      cases p with
      | none =>
        exfalso
        -- take the lowest neighbour
        have : ∃ q, (∃ e, c.Edge e x q) ∧ ∀ e' y, c.Edge e' x y → q ≤ y := by
          have hex : ∃ q, ∃ e, c.Edge e x q := ⟨y, e, he⟩
          classical
          refine ⟨Nat.find hex, Nat.find_spec hex, ?_⟩
          intro e' y' he'
          exact Nat.find_min' hex ⟨e', he'⟩
        obtain ⟨q, hq⟩ := this
        have := (h2 q).2 hq
        simp at this
      | some p =>
        have hpar : c.parent x = some p := by simp [Cch.parent, h1]
        obtain ⟨⟨e', he'⟩, hmin⟩ := (h2 p).1 rfl
        have hpx := h.up he'
        rcases Nat.eq_or_lt_of_le (hmin e y he) with h3 | h3
        · subst h3; exact .step hpar (.refl _)
        · obtain ⟨e'', he''⟩ := h.chordal he' he h3
          exact .step hpar (ih e'' p y (by omega) he'')
  intro e x y; exact key _ e x y (Nat.le_refl _)

/-- The upward edges of a node, in order. -/
theorem Base.headIds {n : Nat} {c : Cch} (h : Base n c) {x : Nat} (hx : x < n) :
    ∃ a b hs, c.topo.range x = some (a, b) ∧ slice c.head a b = some hs ∧ a ≤ b ∧ b ≤ c.head.length ∧
      (hs.zip ((List.range (b - a)).map (· + a))).Pairwise (fun p q => p.1 < q.1 ∧ p.2 < q.2) ∧
      (hs.zip ((List.range (b - a)).map (· + a))).map Prod.fst = hs ∧
      ∀ y e, (y, e) ∈ hs.zip ((List.range (b - a)).map (· + a)) ↔ c.Edge e x y := by
  have hx' : x < c.topo.adj.length := by rw [c.topo.adj_length, h.nn]; exact hx
  obtain ⟨a, b, h1, h2, h3, h4, _⟩ := h.wf.reps.csr.slice hx'
  have hb := h.wf.le_m h2
  have hsl := slice_eq (l := c.head) h3 hb
  have hlen : ((c.head.drop a).take (b - a)).length = b - a := by
    have : b ≤ c.head.length := hb
    simp; omega
  refine ⟨a, b, _, by simp [FOGraph.range, h1, h2], hsl, h3, hb, ?_, ?_, ?_⟩
  rotate_right
  · intro y e
    have hr := h.range e x
    rw [List.mem_iff_getElem?]
    constructor
    · rintro ⟨i, hi⟩
      rw [List.getElem?_zip_eq_some] at hi
      obtain ⟨h7, h8⟩ := hi
      rw [List.getElem?_map, Option.map_eq_some_iff] at h8
      obtain ⟨j, h9, rfl⟩ := h8
      obtain ⟨hlt, h9⟩ := List.getElem?_eq_some_iff.1 h9
      simp at hlt h9; subst h9
      rw [List.getElem?_take_of_lt hlt, List.getElem?_drop] at h7
      exact ⟨hr.2 ⟨a, b, h1, h2, by omega, by omega⟩, by rw [Nat.add_comm]; exact h7⟩
    · rintro ⟨h7, h8⟩
      obtain ⟨a', b', h9, h10, h11, h12⟩ := hr.1 h7
      have h1' : c.firstOut[x]? = some a := h1
      have h2' : c.firstOut[x + 1]? = some b := h2
      rw [h1'] at h9; rw [h2'] at h10; simp at h9 h10; subst h9; subst h10
      refine ⟨e - a, ?_⟩
      rw [List.getElem?_zip_eq_some]
      refine ⟨?_, ?_⟩
      · rw [List.getElem?_take_of_lt (by omega), List.getElem?_drop, show a + (e - a) = e by omega]; exact h8
      · rw [List.getElem?_map, List.getElem?_range (by omega)]; simp; omega
  · have hE : ∀ (i : Nat) y e, (((c.head.drop a).take (b - a)).zip ((List.range (b - a)).map (· + a)))[i]? = some (y, e) →
        c.Edge e x y ∧ e = i + a := by
      intro i y e hi
      rw [List.getElem?_zip_eq_some] at hi
      obtain ⟨h7, h8⟩ := hi
      rw [List.getElem?_map, Option.map_eq_some_iff] at h8
      obtain ⟨j, h9, rfl⟩ := h8
      obtain ⟨hlt, h9⟩ := List.getElem?_eq_some_iff.1 h9
      simp at hlt h9; subst h9
      rw [List.getElem?_take_of_lt hlt, List.getElem?_drop] at h7
      exact ⟨⟨(h.range _ x).2 ⟨a, b, h1, h2, by omega, by omega⟩, by rw [Nat.add_comm]; exact h7⟩, rfl⟩
    rw [List.pairwise_iff_getElem]
    intro i j hi hj hij
    have hei := List.getElem?_eq_getElem hi
    have hej := List.getElem?_eq_getElem hj
    generalize (((c.head.drop a).take (b - a)).zip ((List.range (b - a)).map (· + a)))[i] = p at hei ⊢
    generalize (((c.head.drop a).take (b - a)).zip ((List.range (b - a)).map (· + a)))[j] = q at hej ⊢
    obtain ⟨e1, e2⟩ := hE i p.1 p.2 hei
    obtain ⟨e3, e4⟩ := hE j q.1 q.2 hej
    have hlt : p.2 < q.2 := by omega
    exact ⟨(h.sorted e1 e3).1 hlt, hlt⟩
  · rw [List.map_fst_zip]; simp; omega

theorem Base.heads {n : Nat} {c : Cch} (h : Base n c) {x : Nat} (hx : x < n) :
    ∃ ls, CCH.heads c.topo x = some ls ∧ ls.Pairwise (· < ·) ∧ ∀ y, y ∈ ls ↔ ∃ e, c.Edge e x y := by
  obtain ⟨a, b, hs, h1, h2, h3, h4, h5, h6, h7⟩ := h.headIds hx
  refine ⟨hs, ?_, ?_, ?_⟩
  · simp only [CCH.heads, h1, Option.bind_eq_bind, Option.bind_some]; exact h2
  · rw [← h6, List.pairwise_map]; exact h5.imp (fun h => h.1)
  · intro y
    rw [← h6]
    simp only [List.mem_map, Prod.exists, exists_and_right, exists_eq_right]
    constructor
    · rintro ⟨e, he⟩; exact ⟨e, (h7 y e).1 he⟩
    · rintro ⟨e, he⟩; exact ⟨e, (h7 y e).2 he⟩

end CCH
end Verif
