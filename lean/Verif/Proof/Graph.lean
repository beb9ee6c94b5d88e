import Verif.Model.Graph
set_option linter.unusedSimpArgs false
set_option linter.unusedVariables false
/- Helper lemmas for adjacency arrays. -/
namespace Verif

theorem slice_eq {α : Type _} {l : List α} {a b : Nat} (h1 : a ≤ b) (h2 : b ≤ l.length) :
    slice l a b = some ((l.drop a).take (b - a)) := by simp [slice, h1, h2]

/-- `fo` is the array of first indices of the concatenation of `adj`. -/
structure CSR {γ : Type _} (fo : List Nat) (adj : List (List γ)) : Prop where
  len : fo.length = adj.length + 1
  get : ∀ v, v ≤ adj.length → fo[v]? = some (adj.take v).flatten.length

theorem flatten_take_succ {γ : Type _} (adj : List (List γ)) {v : Nat} (hv : v < adj.length) :
    (adj.take (v + 1)).flatten = (adj.take v).flatten ++ adj[v] := by
  rw [List.take_add_one, List.getElem?_eq_getElem hv, List.flatten_append]; simp only [Option.toList_some, List.flatten_cons, List.flatten_nil, List.append_nil]

theorem slice_flatten {γ : Type _} (adj : List (List γ)) {v : Nat} (hv : v < adj.length) :
    slice adj.flatten (adj.take v).flatten.length (adj.take (v + 1)).flatten.length = some adj[v] := by
  have hsplit : adj.flatten = (adj.take v).flatten ++ (adj[v] ++ (adj.drop (v + 1)).flatten) := by
    have h1 : adj = adj.take v ++ adj[v] :: adj.drop (v + 1) := by
      rw [List.getElem_cons_drop]; simp
    conv => lhs; rw [h1]
    simp only [List.flatten_append, List.flatten_cons]
  rw [slice_eq]
  · conv => lhs; rw [hsplit]
    rw [flatten_take_succ adj hv]
    simp [List.drop_append, List.take_append]
  · rw [flatten_take_succ adj hv]; simp
  · rw [hsplit, flatten_take_succ adj hv]; simp only [List.length_append]; omega

theorem slice_map {α γ : Type _} (f : α → γ) {l r : List α} {a b : Nat} (h : slice l a b = some r) :
    slice (l.map f) a b = some (r.map f) := by
  unfold slice at *
  split at h
  · rename_i hc
    simp at h; subst h
    simp [hc, List.map_drop, List.map_take]
  · simp at h

theorem CSR.slice {γ : Type _} {fo : List Nat} {adj : List (List γ)} (h : CSR fo adj) {v : Nat} (hv : v < adj.length) :
    ∃ a b, fo[v]? = some a ∧ fo[v + 1]? = some b ∧ a ≤ b ∧ b - a = adj[v].length ∧ a = (adj.take v).flatten.length ∧
      ∀ {δ : Type} (f : γ → δ), Verif.slice (adj.flatten.map f) a b = some (adj[v].map f) := by
  refine ⟨_, _, h.get v (by omega), h.get (v + 1) (by omega), ?_, ?_, rfl, ?_⟩
  · rw [flatten_take_succ adj hv]; simp
  · rw [flatten_take_succ adj hv]; simp
  · intro δ f; exact slice_map f (slice_flatten adj hv)

theorem CSR.map {γ δ : Type _} {fo : List Nat} {adj : List (List γ)} (h : CSR fo adj) (f : γ → δ) :
    CSR fo (adj.map (List.map f)) := by
  constructor
  · simp [h.len]
  · intro v hv
    rw [h.get v (by simpa using hv)]
    rw [← List.map_take, ← List.map_flatten, List.length_map]

theorem CSR.nil {γ : Type _} : CSR [0] ([] : List (List γ)) := ⟨rfl, by intro v hv; simp at hv; subst hv; simp⟩

/-- appending a list -/
theorem CSR.snoc {γ : Type _} {fo : List Nat} {adj : List (List γ)} (h : CSR fo adj) (l : List γ) :
    CSR (fo ++ [adj.flatten.length + l.length]) (adj ++ [l]) := by
  constructor
  · simp [h.len]
  · intro v hv
    by_cases hv' : v ≤ adj.length
    · rw [List.getElem?_append_left (by rw [h.len]; omega), h.get v hv', List.take_append_of_le_length hv']
    · have : v = adj.length + 1 := by simp at hv; omega
      subst this
      rw [List.getElem?_append_right (by rw [h.len]; omega), h.len]
      rw [List.take_of_length_le (by simp)]
      simp

theorem CSR.getLast {γ : Type _} {fo : List Nat} {adj : List (List γ)} (h : CSR fo adj) :
    fo.getLast? = some adj.flatten.length := by
  rw [List.getLast?_eq_getElem?, h.len]
  have := h.get adj.length (Nat.le_refl _)
  simpa using this

theorem CSR.head {γ : Type _} {fo : List Nat} {adj : List (List γ)} (h : CSR fo adj) : fo.head? = some 0 := by
  have := h.get 0 (Nat.zero_le _)
  rw [List.head?_eq_getElem?]
  simpa using this

theorem CSR.mono {γ : Type _} {fo : List Nat} {adj : List (List γ)} (h : CSR fo adj) {i a b : Nat}
    (ha : fo[i]? = some a) (hb : fo[i + 1]? = some b) : a ≤ b := by
  have hi := (List.getElem?_eq_some_iff.1 hb).1
  have hi' : i < adj.length := by rw [h.len] at hi; omega
  rw [h.get i (by omega)] at ha
  rw [h.get (i + 1) (by omega), flatten_take_succ adj hi'] at hb
  simp at ha hb; omega

namespace FOGraph

/-- `g` represents the adjacency lists `adj`. -/
structure Reps (g : FOGraph) (adj : List (List Link)) : Prop where
  csr : CSR g.firstOut adj
  head : g.head = adj.flatten.map Link.node
  weight : g.weight = adj.flatten.map Link.weight

theorem Reps.numNodes {g : FOGraph} {adj : List (List Link)} (h : Reps g adj) : g.numNodes = adj.length := by
  simp [FOGraph.numNodes, h.csr.len]

theorem Reps.numArcs {g : FOGraph} {adj : List (List Link)} (h : Reps g adj) : g.numArcs = adj.flatten.length := by
  rw [FOGraph.numArcs, h.head, List.length_map]

theorem zipWith_link (l : List Link) : List.zipWith Link.mk (l.map Link.node) (l.map Link.weight) = l := by
  induction l with
  | nil => rfl
  | cons x l ih => simp [ih]

theorem Reps.linkIter {g : FOGraph} {adj : List (List Link)} (h : Reps g adj) (v : Nat) : g.linkIter v = adj[v]? := by
  by_cases hv : v < adj.length
  · obtain ⟨a, b, h1, h2, _, _, _, h3⟩ := h.csr.slice hv
    simp only [FOGraph.linkIter, FOGraph.range, h1, h2, h.head, h.weight, h3, Option.bind_eq_bind, Option.bind_some,
      Option.pure_def]
    rw [zipWith_link, List.getElem?_eq_getElem hv]
  · have h2 : g.firstOut[v + 1]? = none := List.getElem?_eq_none (by rw [h.csr.len]; omega)
    rw [List.getElem?_eq_none (by omega)]
    cases h1 : g.firstOut[v]? <;> simp [FOGraph.linkIter, FOGraph.range, h1, h2]

theorem Reps.linkIterIds {g : FOGraph} {adj : List (List Link)} (h : Reps g adj) {v : Nat} (hv : v < adj.length) :
    g.linkIterIds v = some (adj[v].zip ((List.range adj[v].length).map (· + (adj.take v).flatten.length))) := by
  obtain ⟨a, b, h1, h2, _, h4, h5, h3⟩ := h.csr.slice hv
  simp only [FOGraph.linkIterIds, FOGraph.range, h1, h2, h.head, h.weight, h3, Option.bind_eq_bind, Option.bind_some,
    Option.pure_def]
  rw [zipWith_link, h4, h5]

theorem Reps.degree {g : FOGraph} {adj : List (List Link)} (h : Reps g adj) {v : Nat} (hv : v < adj.length) :
    g.degree v = some adj[v].length := by
  obtain ⟨a, b, h1, h2, h3, h4, _⟩ := h.csr.slice hv
  simp [FOGraph.degree, h1, h2, h3, h4]

theorem Reps.wf {g : FOGraph} {adj : List (List Link)} (h : Reps g adj) (hs : adj.length + 1 < U32 - 1)
    (hm : adj.flatten.length < U32 - 1) (hh : ∀ ls ∈ adj, ∀ l ∈ ls, l.node < adj.length) : WF g where
  small := by rw [h.csr.len, h.head, List.length_map]; omega
  first := h.csr.head
  last := by rw [h.csr.getLast, h.head, List.length_map]
  weights := by rw [h.head, h.weight, List.length_map, List.length_map]
  mono := fun i a b h1 h2 => h.csr.mono h1 h2
  heads := by
    intro x hx
    rw [h.head] at hx
    simp only [List.mem_map, List.mem_flatten] at hx
    obtain ⟨l, ⟨ls, h1, h2⟩, rfl⟩ := hx
    rw [h.numNodes]; exact hh ls h1 l h2

theorem Reps.new {g : FOGraph} {adj : List (List Link)} (h : Reps g adj) :
    FOGraph.new g.firstOut g.head g.weight =
      if adj.length + 1 < U32 - 1 ∧ adj.flatten.length < U32 - 1 then some g else none := by
  unfold FOGraph.new
  rw [h.csr.len, h.csr.head, h.csr.getLast, h.head, h.weight]
  simp only [List.length_map, true_and]
  by_cases h1 : adj.length + 1 < U32 - 1 ∧ adj.flatten.length < U32 - 1
  · rw [if_pos (by simpa using h1), if_pos h1]
    rw [← h.head, ← h.weight]
  · rw [if_neg h1, if_neg (fun hc => h1 ⟨hc.1, hc.2.1⟩)]

theorem reps_unique {g g' : FOGraph} {adj : List (List Link)} (h : Reps g adj) (h' : Reps g' adj) : g = g' := by
  have : g.firstOut = g'.firstOut := by
    apply List.ext_getElem?
    intro i
    by_cases hi : i ≤ adj.length
    · rw [h.csr.get i hi, h'.csr.get i hi]
    · rw [List.getElem?_eq_none (by rw [h.csr.len]; omega), List.getElem?_eq_none (by rw [h'.csr.len]; omega)]
  cases g; cases g'
  simp only at this
  have h1 := h.head; have h2 := h'.head; have h3 := h.weight; have h4 := h'.weight
  simp only at h1 h2 h3 h4
  simp [this, h1, h2, h3, h4]

/-! ### Every well-formed graph represents its adjacency lists -/

theorem WF.fo_len {g : FOGraph} (h : WF g) : 0 < g.firstOut.length := by
  have := h.first
  cases hf : g.firstOut with
  | nil => rw [hf] at this; simp at this
  | cons => simp

theorem WF.mono' {g : FOGraph} (h : WF g) {i j a b : Nat} (hij : i ≤ j) (ha : g.firstOut[i]? = some a)
    (hb : g.firstOut[j]? = some b) : a ≤ b := by
  induction j generalizing b with
  | zero => have : i = 0 := by omega
            subst this; rw [ha] at hb; simp at hb; omega
  | succ j ih =>
    by_cases he : i = j + 1
    · subst he; rw [ha] at hb; simp at hb; omega
    · have hj := (List.getElem?_eq_some_iff.1 hb).1
      have hc : g.firstOut[j]? = some g.firstOut[j] := List.getElem?_eq_getElem (by omega)
      exact Nat.le_trans (ih (by omega) hc) (h.mono j _ _ hc hb)

theorem WF.le_m {g : FOGraph} (h : WF g) {i a : Nat} (ha : g.firstOut[i]? = some a) : a ≤ g.head.length := by
  have hi := (List.getElem?_eq_some_iff.1 ha).1
  have hl := h.last
  rw [List.getLast?_eq_getElem?] at hl
  exact h.mono' (by omega) ha hl

/-- the adjacency lists of a graph -/
def adj (g : FOGraph) : List (List Link) := (List.range g.numNodes).map (fun v => (g.linkIter v).getD [])

theorem WF.reps {g : FOGraph} (h : WF g) : Reps g g.adj := by
  have hn : g.firstOut.length = g.numNodes + 1 := by have := h.fo_len; simp [FOGraph.numNodes]; omega
  have hlen : g.adj.length = g.numNodes := by simp [adj]
  let L := List.zipWith Link.mk g.head g.weight
  have hL : L.length = g.head.length := by simp [L, h.weights]
  have hLn : L.map Link.node = g.head := by
    apply List.ext_getElem
    · simp [L, h.weights]
    · intro i h1 h2; simp [L]
  have hLw : L.map Link.weight = g.weight := by
    apply List.ext_getElem
    · simp [L, h.weights]
    · intro i h1 h2; simp [L]
  have hsl : ∀ v, v < g.numNodes → ∃ a b, g.firstOut[v]? = some a ∧ g.firstOut[v + 1]? = some b ∧ a ≤ b ∧ b ≤ L.length ∧
      g.adj[v]? = some ((L.drop a).take (b - a)) := by
    intro v hv
    have ha : g.firstOut[v]? = some g.firstOut[v] := List.getElem?_eq_getElem (by omega)
    have hb : g.firstOut[v + 1]? = some g.firstOut[v + 1] := List.getElem?_eq_getElem (by omega)
    refine ⟨_, _, ha, hb, h.mono v _ _ ha hb, by rw [hL]; exact h.le_m hb, ?_⟩
    have h1 := h.mono v _ _ ha hb
    have h2 := h.le_m hb
    simp only [adj, List.getElem?_map, List.getElem?_range hv, Option.map_some, FOGraph.linkIter, FOGraph.range, ha, hb,
      Option.bind_eq_bind, Option.bind_some, Option.pure_def, slice_eq h1 h2, slice_eq h1 (h.weights.symm ▸ h2),
      Option.getD_some, L, List.drop_zipWith, List.take_zipWith]
  have htake : ∀ v a, v ≤ g.numNodes → g.firstOut[v]? = some a → (g.adj.take v).flatten = L.take a := by
    intro v
    induction v with
    | zero =>
      intro a _ ha
      have := h.first
      rw [List.head?_eq_getElem?, ha] at this
      simp at this; subst this; simp
    | succ v ih =>
      intro b hv hb
      obtain ⟨a, b', h1, h2, h3, h4, h5⟩ := hsl v (by omega)
      rw [hb] at h2; simp at h2; subst h2
      have hv' : v < g.adj.length := by omega
      rw [flatten_take_succ _ hv', ih a (by omega) h1]
      rw [List.getElem?_eq_getElem hv'] at h5
      simp at h5; rw [h5]
      have : b = a + (b - a) := by omega
      conv => rhs; rw [this, List.take_add]
  have hflat : g.adj.flatten = L := by
    have hl := h.last
    rw [List.getLast?_eq_getElem?] at hl
    have hnn : g.firstOut.length - 1 = g.numNodes := by omega
    rw [hnn] at hl
    have := htake g.numNodes _ (Nat.le_refl _) hl
    rw [List.take_of_length_le (by omega), List.take_of_length_le (by omega)] at this
    exact this
  refine ⟨⟨by omega, ?_⟩, by rw [hflat, hLn], by rw [hflat, hLw]⟩
  intro v hv
  have ha : g.firstOut[v]? = some g.firstOut[v] := List.getElem?_eq_getElem (by omega)
  rw [ha, htake v _ (by omega) ha]
  have := h.le_m ha
  simp; omega

theorem adj_length (g : FOGraph) : g.adj.length = g.numNodes := by simp [adj]

theorem WF.linkIter {g : FOGraph} (h : WF g) (v : Nat) : g.linkIter v = g.adj[v]? := h.reps.linkIter v

theorem WF.total {g : FOGraph} (h : WF g) {v : Nat} (hv : v < g.numNodes) : ∃ ls, g.linkIter v = some ls :=
  ⟨g.adj[v]'(by rw [adj_length]; exact hv), by rw [h.linkIter, List.getElem?_eq_getElem]⟩

theorem WF.mem_heads {g : FOGraph} (h : WF g) {v : Nat} {ls : List Link} {l : Link} (hls : g.linkIter v = some ls)
    (hl : l ∈ ls) : l.node < g.numNodes := by
  apply h.heads
  rw [h.reps.head]
  rw [h.linkIter] at hls
  exact List.mem_map_of_mem (List.mem_flatten_of_mem (List.mem_of_getElem? hls) hl)

theorem WF.mem_weights {g : FOGraph} (h : WF g) {v : Nat} {ls : List Link} {l : Link} (hls : g.linkIter v = some ls)
    (hl : l ∈ ls) : l.weight ∈ g.weight := by
  rw [h.reps.weight]
  rw [h.linkIter] at hls
  exact List.mem_map_of_mem (List.mem_flatten_of_mem (List.mem_of_getElem? hls) hl)

theorem WF.tail_lt {g : FOGraph} (h : WF g) {v : Nat} {ls : List Link} (hls : g.linkIter v = some ls) : v < g.numNodes := by
  rw [h.linkIter] at hls
  have := (List.getElem?_eq_some_iff.1 hls).1
  rwa [adj_length] at this

/-! ### `from_adjancecy_lists` -/

theorem degreesToFirstOut_go (adj : List (List Link)) (pre : List (List Link)) (fo : List Nat) (hc : CSR fo pre)
    (hs : (pre ++ adj).flatten.length < U32) :
    ∃ rest, degreesToFirstOut.go pre.flatten.length (adj.map List.length) = some rest ∧ CSR (fo ++ rest) (pre ++ adj) := by
  induction adj generalizing pre fo with
  | nil => exact ⟨[], by simp [degreesToFirstOut.go], by simpa using hc⟩
  | cons l adj ih =>
    have h1 : pre.flatten.length + l.length < U32 := by simp at hs ⊢; omega
    have hc' := hc.snoc l
    have heq : (pre ++ [l]).flatten.length = pre.flatten.length + l.length := by simp
    obtain ⟨rest, h2, h3⟩ := ih (pre ++ [l]) _ hc' (by simpa using hs)
    refine ⟨(pre.flatten.length + l.length) :: rest, ?_, by simpa using h3⟩
    rw [heq] at h2
    simp only [List.map_cons, degreesToFirstOut.go, add32_of_lt h1, Option.bind_eq_bind, Option.bind_some, h2]
    rfl

theorem fromAdjacencyLists_spec (adj : List (List Link)) (hs : adj.length + 1 < U32 - 1) (hm : adj.flatten.length < U32 - 1) :
    ∃ g, fromAdjacencyLists adj = some g ∧ Reps g adj := by
  have hlt : adj.flatten.length < U32 := by omega
  obtain ⟨rest, h1, h2⟩ := degreesToFirstOut_go adj [] [0] CSR.nil (by simpa using hlt)
  have hr : Reps ⟨[0] ++ rest, adj.flatten.map Link.node, adj.flatten.map Link.weight⟩ adj := ⟨by simpa using h2, rfl, rfl⟩
  have hn := hr.new
  rw [if_pos ⟨hs, hm⟩] at hn
  simp only [List.flatten_nil, List.length_nil] at h1
  refine ⟨_, ?_, hr⟩
  simp only [fromAdjacencyLists, degreesToFirstOut, h1, Option.bind_eq_bind, Option.bind_some]
  simpa using hn

end FOGraph
end Verif
