import Verif.Proof.Reduced
set_option linter.unusedSimpArgs false
set_option linter.unusedVariables false
/- Leaving out edges of a CCH: `remove_always_infinity` and `to_directed_cch`. -/
namespace Verif
namespace CCH
open Spec GraphOps FOGraph
variable {n : Nat} {c : Cch}

/-! ### Selecting edges -/

/-- the edges with `k` are kept -/
def selIn (m : Nat) (k : Nat → Bool) : SideIn := ⟨List.replicate m 0, (List.range m).map (fun e => !(k e)), List.replicate m (none, none)⟩

/-- the arrays with the edges that are kept -/
def sel (n : Nat) (c : Cch) (k : Nat → Bool) : Side := sideAt c (selIn c.head.length k) (selIn c.head.length k) (selIn c.head.length k) n c.head.length

theorem kp_sel {m : Nat} {k : Nat → Bool} {e : Nat} (he : e < m) : kp (selIn m k) e = k e := by
  simp [kp, selIn, List.getElem?_range he]

theorem selIn_ok (k : Nat → Bool) : InOK c (selIn c.head.length k) := by
  refine ⟨by simp [selIn], by simp [selIn], by simp [selIn], ?_⟩
  intro e x _ u hu
  simp only [selIn, List.getElem?_replicate] at hu
  split at hu
  · simp at hu; subst hu; simp
  · simp at hu

theorem filter_sel {m : Nat} {k : Nat → Bool} {L : List Nat} (hL : ∀ e ∈ L, e < m) : L.filter (kp (selIn m k)) = L.filter k :=
  List.filter_congr (fun e he => kp_sel (hL e he))

/-- What is left is a CCH without some edges. -/
theorem sel_base (hg : Base n c) (k : Nat → Bool) : ∃ inv, reversedWithEdgeIds ⟨(sel n c k).fo, (sel n c k).head, (sel n c k).head⟩ = some inv ∧
    ∀ (d : Cch), d.firstOut = (sel n c k).fo → d.head = (sel n c k).head → d.tail = (sel n c k).tail → d.inverted = inv → Base n d ∧
      ∀ j x y, d.Edge j x y ↔ ∃ e, c.Edge e x y ∧ k e = true ∧ j = kcount (selIn c.head.length k) e := by
  have hi := selIn_ok (c := c) k
  generalize hI : selIn c.head.length k = i at hi
  have hsel : sel n c k = sideAt c i i i n c.head.length := by rw [← hI]; rfl
  have hkp : ∀ {e}, e < c.head.length → kp i e = k e := fun he => by rw [← hI]; exact kp_sel he
  obtain ⟨hwf, hnn⟩ := side_wf (fw := i) (bw := i) hg hi
  have hwf' : (FOGraph.mk (sel n c k).fo (sel n c k).head (sel n c k).head).WF := by
    rw [hsel]; exact ⟨hwf.small, hwf.first, hwf.last, rfl, hwf.mono, hwf.heads⟩
  have hnn' : (FOGraph.mk (sel n c k).fo (sel n c k).head (sel n c k).head).numNodes = n := by rw [hsel]; exact hnn
  have hfl : (sel n c k).fo.length = n + 1 := by rw [hsel]; simp [sideAt]
  have hfo : ∀ {v}, v ≤ n → (sel n c k).fo[v]? = some (kcount i (first c v)) := fun hv => by rw [hsel]; exact side_fo hg i i i hv
  have htail : ∀ (j x : Nat), (sel n c k).tail[j]? = some x ↔ ∃ e, e < c.head.length ∧ kp i e = true ∧ j = kcount i e ∧ c.tail[e]? = some x := by
    intro j x
    rw [hsel]
    simp only [sideAt, List.getElem?_map, Option.map_eq_some_iff]
    constructor
    · rintro ⟨e, he, h5⟩
      obtain ⟨k1, k2, k3⟩ := kept_inv i he
      obtain ⟨_, g2, _⟩ := hi.gets hg k1
      exact ⟨e, k1, k2, k3, by rw [g2, h5]⟩
    · rintro ⟨e, k1, k2, rfl, k4⟩
      obtain ⟨_, g2, _⟩ := hi.gets hg k1
      refine ⟨e, kept_get i k1 k2, ?_⟩
      rw [g2] at k4; simpa using k4
  have hhead : ∀ (j x : Nat), (sel n c k).head[j]? = some x ↔ ∃ e, e < c.head.length ∧ kp i e = true ∧ j = kcount i e ∧ c.head[e]? = some x := by
    intro j x
    rw [hsel]
    simp only [sideAt, List.getElem?_map, Option.map_eq_some_iff]
    constructor
    · rintro ⟨e, he, h5⟩
      obtain ⟨k1, k2, k3⟩ := kept_inv i he
      obtain ⟨g1, _⟩ := hi.gets hg k1
      exact ⟨e, k1, k2, k3, by rw [g1, h5]⟩
    · rintro ⟨e, k1, k2, rfl, k4⟩
      obtain ⟨g1, _⟩ := hi.gets hg k1
      refine ⟨e, kept_get i k1 k2, ?_⟩
      rw [g1] at k4; simpa using k4
  have hinj : ∀ {e e'}, kp i e = true → kp i e' = true → kcount i e = kcount i e' → e = e' := by
    intro e e' h1 h2 h
    rcases Nat.lt_trichotomy e e' with h' | h' | h'
    · have := (kcount_lt i h1 (b := e')).2 h'; omega
    · exact h'
    · have := (kcount_lt i h2 (b := e)).2 h'; omega
  obtain ⟨inv, hi1, hi2⟩ := reversedWithEdgeIds_spec hwf'
  refine ⟨inv, hi1, ?_⟩
  intro d d1 d2 d3 d4
  have hedge : ∀ j x y, d.Edge j x y ↔ ∃ e, c.Edge e x y ∧ k e = true ∧ j = kcount i e := by
    intro j x y
    unfold Cch.Edge
    rw [d2, d3, htail, hhead]
    constructor
    · rintro ⟨⟨e, k1, k2, rfl, k4⟩, ⟨e', q1, q2, q3, q4⟩⟩
      have := hinj k2 q2 q3
      subst this
      exact ⟨e, ⟨k4, q4⟩, by rw [← hkp k1]; exact k2, rfl⟩
    · rintro ⟨e, ⟨h1, h2⟩, h3, rfl⟩
      have he : e < c.head.length := (List.getElem?_eq_some_iff.1 h2).1
      have h3' : kp i e = true := by rw [hkp he]; exact h3
      exact ⟨⟨e, he, h3', rfl, h1⟩, ⟨e, he, h3', rfl, h2⟩⟩
  have hrange : ∀ e x, d.tail[e]? = some x ↔ ∃ a b, d.firstOut[x]? = some a ∧ d.firstOut[x + 1]? = some b ∧ a ≤ e ∧ e < b := by
    intro j x
    rw [d3, d1, htail]
    constructor
    · rintro ⟨e, k1, k2, rfl, k4⟩
      have hx := hg.tail_lt k4
      obtain ⟨q1, q2⟩ := (hg.tail_iff hx).1 k4
      exact ⟨_, _, hfo (by omega), hfo (by omega), (kcount_le i k2).2 q1, (kcount_lt i k2).2 q2⟩
    · rintro ⟨a, b, h1, h2, h3, h4⟩
      have hx : x < n := by
        by_contra hc
        rw [List.getElem?_eq_none (by omega)] at h2; simp at h2
      rw [hfo (by omega)] at h1 h2
      simp at h1 h2; subst h1; subst h2
      have hj : j < kcount i c.head.length := by
        have := kcount_mono i (hg.first_le (v := x + 1) (by omega)); omega
      have hj' : j < ((List.range c.head.length).filter (kp i)).length := hj
      obtain ⟨k1, k2, k3⟩ := kept_inv i (List.getElem?_eq_getElem hj')
      rw [k3, kcount_le i k2] at h3
      rw [k3, kcount_lt i k2] at h4
      exact ⟨_, k1, k2, k3, (hg.tail_iff hx).2 ⟨h3, h4⟩⟩
  have hsorted : ∀ {e e' x y y'}, d.Edge e x y → d.Edge e' x y' → (e < e' ↔ y < y') := by
    intro e e' x y y' h1 h2
    obtain ⟨q, q1, q2, rfl⟩ := (hedge _ _ _).1 h1
    obtain ⟨q', q3, q4, rfl⟩ := (hedge _ _ _).1 h2
    rw [kcount_lt i (by rw [hkp (Edge.lt q1)]; exact q2)]
    exact hg.sorted q1 q3
  refine ⟨⟨?_, ?_, ?_, hrange, ?_, hsorted, ?_⟩, hedge⟩
  · show (FOGraph.mk d.firstOut d.head d.head).WF
    rw [d1, d2]; exact hwf'
  · show (FOGraph.mk d.firstOut d.head d.head).numNodes = n
    rw [d1, d2]; exact hnn'
  · rw [d2, d3, hsel]; simp [sideAt]
  · intro e x y he
    obtain ⟨q, q1, _⟩ := (hedge _ _ _).1 he
    exact hg.up q1
  · intro y hy
    obtain ⟨ls, h6, h7, h8, h9⟩ := hi2 y (by omega)
    have hmem : ∀ x e, (x, e) ∈ ls ↔ d.Edge e x y := by
      intro x e
      unfold Cch.Edge
      rw [h9, hrange, d1, d2]
      constructor
      · rintro ⟨a, b, h10, h11, h12, h13, h14⟩; exact ⟨⟨a, b, h10, h11, h12, h13⟩, h14⟩
      · rintro ⟨⟨a, b, h10, h11, h12, h13⟩, h14⟩; exact ⟨a, b, h10, h11, h12, h13, h14⟩
    refine ⟨ls, by rw [d4]; exact h6, ?_, hmem⟩
    refine (h7.and h8).imp_of_mem ?_
    rintro ⟨x, e⟩ ⟨x', e'⟩ hm1 hm2 ⟨hne, hle⟩
    simp only at hle ⊢
    apply Nat.lt_of_le_of_ne hle
    rintro rfl
    apply hne
    have he := (hmem _ _).1 hm1
    have he' := (hmem _ _).1 hm2
    have a1 := hsorted he he'
    have a2 := hsorted he' he
    rw [show e = e' by omega]

/-! ### The loops -/

theorem slice_map {α : Type} {l : List α} {a b : Nat} (d : α) (h1 : a ≤ b) (h2 : b ≤ l.length) :
    slice l a b = some ((List.range' a (b - a)).map (fun e => (l[e]?).getD d)) := by
  rw [slice_eq h1 h2]
  congr 1
  apply List.ext_getElem?
  intro j
  by_cases hj : j < b - a
  · rw [List.getElem?_take_of_lt hj, List.getElem?_drop, List.getElem?_map, List.getElem?_range' (by omega)]
    have : a + j < l.length := by omega
    simp [List.getElem?_eq_getElem this]
  · rw [List.getElem?_eq_none (by simp; omega), List.getElem?_eq_none (by simp; omega)]

theorem all_map {α : Type} (l : List α) (d : α) : l = (List.range l.length).map (fun e => (l[e]?).getD d) := by
  apply List.ext_getElem?
  intro j
  by_cases hj : j < l.length
  · rw [List.getElem?_map, List.getElem?_range hj]; simp [List.getElem?_eq_getElem hj]
  · rw [List.getElem?_eq_none (by omega), List.getElem?_eq_none (by simp; omega)]

theorem keepEither_map {α : Type} (R : List Nat) (f : Nat → α) (g h : Nat → Nat) :
    keepEither (R.map f) (R.map g) (R.map h) = (R.filter (fun e => decide (g e < INFINITY) || decide (h e < INFINITY))).map f := by
  unfold keepEither
  rw [List.zip_map', List.zip_map', List.filter_map, List.map_map]
  rfl

/-- the arrays after the nodes below `v` -/
def topoAt (c : Cch) (k : Nat → Bool) (v : Nat) : Topo :=
  ⟨(List.range (v + 1)).map (fun x => kcount (selIn c.head.length k) (first c x)), ((List.range (first c v)).filter k).map (fun e => (c.head[e]?).getD 0),
    ((List.range (first c v)).filter k).map (fun e => (c.tail[e]?).getD 0)⟩

theorem kcount_sel (k : Nat → Bool) {e : Nat} (he : e ≤ c.head.length) : kcount (selIn c.head.length k) e = ((List.range e).filter k).length := by
  unfold kcount
  rw [filter_sel (by intro x hx; simp at hx; omega)]

theorem range_split {a b : Nat} (h : a ≤ b) : List.range b = List.range a ++ List.range' a (b - a) := by
  have := List.range'_append (s := 0) (m := a) (n := b - a) (step := 1)
  rw [List.range_eq_range', List.range_eq_range', show b = a + (b - a) by omega, ← this]
  simp

theorem topoAt_step (hg : Base n c) (k : Nat → Bool) {v : Nat} (hv : v < n) :
    topoAt c k (v + 1) = ⟨(topoAt c k v).fo ++ [((topoAt c k v).head ++ ((List.range' (first c v) (first c (v + 1) - first c v)).filter k).map (fun e => (c.head[e]?).getD 0)).length],
      (topoAt c k v).head ++ ((List.range' (first c v) (first c (v + 1) - first c v)).filter k).map (fun e => (c.head[e]?).getD 0),
      (topoAt c k v).tail ++ ((List.range' (first c v) (first c (v + 1) - first c v)).filter k).map (fun _ => v)⟩ := by
  have hmono := hg.first_mono (u := v) (v := v + 1) (by omega) (by omega)
  have hsp := range_split hmono
  have hh : (topoAt c k (v + 1)).head = (topoAt c k v).head ++ ((List.range' (first c v) (first c (v + 1) - first c v)).filter k).map (fun e => (c.head[e]?).getD 0) := by
    simp only [topoAt]; rw [hsp, List.filter_append, List.map_append]
  have ht : (topoAt c k (v + 1)).tail = (topoAt c k v).tail ++ ((List.range' (first c v) (first c (v + 1) - first c v)).filter k).map (fun _ => v) := by
    simp only [topoAt]; rw [hsp, List.filter_append, List.map_append]
    congr 1
    apply List.map_congr_left
    intro e he
    rw [List.mem_filter, List.mem_range'_1] at he
    have : c.tail[e]? = some v := (hg.tail_iff hv).2 (by omega)
    rw [this]; rfl
  have hf : (topoAt c k (v + 1)).fo = (topoAt c k v).fo ++ [(topoAt c k (v + 1)).head.length] := by
    simp only [topoAt]
    rw [List.range_succ, List.map_append]
    simp only [List.map_cons, List.map_nil, List.length_map]
    rw [kcount_sel k (hg.first_le (by omega))]
  have e : topoAt c k (v + 1) = ⟨(topoAt c k (v + 1)).fo, (topoAt c k (v + 1)).head, (topoAt c k (v + 1)).tail⟩ := rfl
  rw [e, hf, hh, ht]

theorem topoAt_zero (hg : Base n c) (k : Nat → Bool) : topoAt c k 0 = ⟨[0], [], []⟩ := by
  simp [topoAt, hg.first_zero, kcount]

theorem topoAt_last (hg : Base n c) (k : Nat → Bool) : (topoAt c k n).fo = (sel n c k).fo ∧ (topoAt c k n).head = (sel n c k).head ∧ (topoAt c k n).tail = (sel n c k).tail := by
  have hf : ∀ {α : Type} (f : Nat → α), ((List.range c.head.length).filter k).map f = ((List.range c.head.length).filter (kp (selIn c.head.length k))).map f := by
    intro α f; rw [filter_sel (by intro x hx; simpa using hx)]
  refine ⟨rfl, ?_, ?_⟩
  · simp only [topoAt, sel, sideAt, hg.first_last, hf]; rfl
  · simp only [topoAt, sel, sideAt, hg.first_last, hf]; rfl

theorem foldlM_topo (hg : Base n c) (k : Nat → Bool) {body : Topo → Nat → Option Topo}
    (hb : ∀ v, v < n → body (topoAt c k v) v = some (topoAt c k (v + 1))) : (List.range n).foldlM body ⟨[0], [], []⟩ = some (topoAt c k n) := by
  have := foldlM_range' body (topoAt c k) n 0 (fun j _ hj => hb j (by omega))
  rw [topoAt_zero hg, Nat.zero_add] at this
  rw [List.range_eq_range']; exact this

/-- edges with a weight below `INFINITY` in one of the directions -/
def keepU (w : Weights) (e : Nat) : Bool := decide (w.u e < INFINITY) || decide (w.d e < INFINITY)

theorem removeNode_spec (hg : Base n c) {w : Weights} (hw : WOK c w) {v : Nat} (hv : v < n) :
    removeNode c w (topoAt c (keepU w) v) v = some (topoAt c (keepU w) (v + 1)) := by
  have h1 : c.topo.range v = some (first c v, first c (v + 1)) := by
    have a := hg.first_get (v := v) (by omega)
    have b := hg.first_get (v := v + 1) (by omega)
    have a' : c.topo.firstOut[v]? = some (first c v) := a
    have b' : c.topo.firstOut[v + 1]? = some (first c (v + 1)) := b
    simp only [FOGraph.range, a', b', Option.bind_eq_bind, Option.bind_some, Option.pure_def]
  have hm := hg.first_mono (u := v) (v := v + 1) (by omega) (by omega)
  have hle := hg.first_le (v := v + 1) (by omega)
  rw [topoAt_step hg _ hv]
  have hlast : (topoAt c (keepU w) v).fo.getLast? = some (topoAt c (keepU w) v).head.length := by
    simp only [topoAt]
    rw [List.range_succ, List.map_append]
    simp only [List.map_cons, List.map_nil, List.getLast?_append, List.getLast?_singleton, Option.some_or, List.length_map]
    rw [kcount_sel _ (hg.first_le (by omega))]
  unfold removeNode
  rw [h1]
  simp only [Option.bind_eq_bind, Option.bind_some]
  rw [slice_map 0 hm hle, slice_map 0 hm (by rw [hw.ul]; exact hle), slice_map 0 hm (by rw [hw.dl]; exact hle)]
  simp only [Option.bind_some, hlast, Option.pure_def]
  rw [keepEither_map]
  have hk : (fun e => decide ((w.up[e]?).getD 0 < INFINITY) || decide ((w.down[e]?).getD 0 < INFINITY)) = keepU w := rfl
  rw [hk]
  congr 1
  rw [List.length_append, Nat.add_sub_cancel_left, List.length_map, List.map_const']

theorem directNode_spec (hg : Base n c) {ws : List Nat} (hl : ws.length = c.head.length) {v : Nat} (hv : v < n) :
    directNode ⟨c.firstOut, c.head, ws⟩ (topoAt c (fun e => decide (at0 ws e < INFINITY)) v) v = some (topoAt c (fun e => decide (at0 ws e < INFINITY)) (v + 1)) := by
  have a : c.firstOut[v]? = some (first c v) := hg.first_get (v := v) (by omega)
  have b : c.firstOut[v + 1]? = some (first c (v + 1)) := hg.first_get (v := v + 1) (by omega)
  have hm := hg.first_mono (u := v) (v := v + 1) (by omega) (by omega)
  have hle := hg.first_le (v := v + 1) (by omega)
  rw [topoAt_step hg _ hv]
  unfold directNode FOGraph.linkIter
  simp only [FOGraph.range, a, b, Option.bind_eq_bind, Option.bind_some, Option.pure_def]
  rw [slice_map 0 hm hle, slice_map 0 hm (by rw [hl]; exact hle)]
  simp only [Option.bind_some]
  have hz : List.zipWith Link.mk ((List.range' (first c v) (first c (v + 1) - first c v)).map (fun e => (c.head[e]?).getD 0))
      ((List.range' (first c v) (first c (v + 1) - first c v)).map (fun e => (ws[e]?).getD 0)) =
      (List.range' (first c v) (first c (v + 1) - first c v)).map (fun e => Link.mk ((c.head[e]?).getD 0) ((ws[e]?).getD 0)) := by
    rw [List.zipWith_map, List.zipWith_self]
  rw [hz, List.filter_map]
  simp only [List.map_map]
  rfl

/-! ### The original arcs -/

/-- the entries that are kept -/
def selArcs (c : Cch) (k : Nat → Bool) (l : List (List Nat)) : List (List Nat) := ((List.range c.head.length).filter k).map (fun e => (l[e]?).getD [])

theorem keepEither_sel {w : Weights} (hw : WOK c w) {l : List (List Nat)} (hl : l.length = c.head.length) : keepEither l w.up w.down = selArcs c (keepU w) l := by
  rw [all_map l [], all_map w.up 0, all_map w.down 0, hl, hw.ul, hw.dl, keepEither_map]
  have : (List.range c.head.length).map (fun e => (l[e]?).getD []) = l := by rw [← hl]; exact (all_map l []).symm
  unfold selArcs
  rw [this]
  rfl

theorem directArcs_sel {ws : List Nat} (hw : ws.length = c.head.length) {l : List (List Nat)} (hl : l.length = c.head.length) :
    ((l.zip ws).filter (fun p => decide (p.2 < INFINITY))).map Prod.fst = selArcs c (fun e => decide (at0 ws e < INFINITY)) l := by
  have h1 : (List.range c.head.length).map (fun e => (l[e]?).getD []) = l := by rw [← hl]; exact (all_map l []).symm
  have h2 : (List.range c.head.length).map (fun e => (ws[e]?).getD 0) = ws := by rw [← hw]; exact (all_map ws 0).symm
  have : l.zip ws = (List.range c.head.length).map (fun e => ((l[e]?).getD [], (ws[e]?).getD 0)) := by
    rw [← List.zip_map', h1, h2]
  rw [this, List.filter_map, List.map_map]
  rfl

/-- Initial weights of the edges that are kept. -/
theorem prepareWeights_sel (k : Nat → Bool) {l : List (List Nat)} (hl : l.length = c.head.length) {metric : FOGraph} {ws : List Nat}
    (h : prepareWeights l metric = some ws) : ∃ ws', prepareWeights (selArcs c k l) metric = some ws' ∧
      ws'.length = ((List.range c.head.length).filter k).length ∧ ∀ e, e < c.head.length → k e = true → at0 ws' (kcount (selIn c.head.length k) e) = at0 ws e := by
  obtain ⟨h1, h2⟩ := mapM_index h
  have hall : ∀ e, e < c.head.length → ∃ y, ws[e]? = some y ∧ _ = some y := fun e he => by
    obtain ⟨y, k1, k2⟩ := h2 e ((l[e]?).getD []) (by rw [List.getElem?_eq_getElem (by omega)]; rfl)
    exact ⟨y, k1, k2⟩
  have hex : ∃ ws', prepareWeights (selArcs c k l) metric = some ws' := by
    unfold prepareWeights
    apply mapM_exists
    intro x hx
    simp only [selArcs, List.mem_map, List.mem_filter, List.mem_range] at hx
    obtain ⟨e, ⟨he, _⟩, rfl⟩ := hx
    obtain ⟨y, _, h4⟩ := hall e he
    exact ⟨y, h4⟩
  obtain ⟨ws', h5⟩ := hex
  obtain ⟨h6, h7⟩ := mapM_index h5
  refine ⟨ws', h5, by rw [h6]; simp [selArcs], ?_⟩
  intro e he hk
  have hget : (selArcs c k l)[kcount (selIn c.head.length k) e]? = some ((l[e]?).getD []) := by
    have := kept_get (selIn c.head.length k) he (by rw [kp_sel he]; exact hk)
    rw [filter_sel (by intro x hx; simpa using hx)] at this
    simp only [selArcs, List.getElem?_map, this, Option.map_some]
  obtain ⟨y, k1, k2⟩ := h7 _ _ hget
  obtain ⟨y', k3, k4⟩ := hall e he
  rw [k2] at k4; simp at k4; subst k4
  simp [at0, k1, k3]

/-! ### The zero metric -/

theorem zeroWeights_get {l : List (List Nat)} {e : Nat} {es : List Nat} (h : l[e]? = some es) : at0 (zeroWeights l) e = if es.isEmpty then INFINITY else 0 := by
  simp [at0, zeroWeights, h]

theorem prepare_nonempty {l : List (List Nat)} {metric : FOGraph} {ws : List Nat} (h : prepareWeights l metric = some ws) {e : Nat} (he : e < l.length)
    (hlt : at0 ws e < INFINITY) : at0 (zeroWeights l) e = 0 := by
  obtain ⟨h1, h2⟩ := mapM_index h
  obtain ⟨y, k1, k2⟩ := h2 e l[e] (List.getElem?_eq_getElem he)
  rw [zeroWeights_get (List.getElem?_eq_getElem he)]
  cases hc : l[e] with
  | nil =>
    rw [hc] at k2
    have k2' : some INFINITY = some y := k2
    simp at k2'
    subst k2'
    simp [at0, k1] at hlt
  | cons a r => simp

theorem alwaysInfinity_spec (hg : Base n c) (hf : c.fwOrig.length = c.head.length) (hb : c.bwOrig.length = c.head.length) :
    ∃ z0 z, alwaysInfinity c = some z ∧ WOK c z ∧ Solved c z0 z (fun x => x < n) ∧ z0.up = zeroWeights c.fwOrig ∧ z0.down = zeroWeights c.bwOrig := by
  let none2 := List.replicate c.head.length ((none : Option Nat), (none : Option Nat))
  have hbnd : ∀ (l : List (List Nat)) e, at0 (zeroWeights l) e ≤ INFINITY := by
    intro l e
    by_cases he : e < l.length
    · rw [zeroWeights_get (List.getElem?_eq_getElem he)]; split <;> simp
    · simp only [at0, zeroWeights]; rw [List.getElem?_eq_none (by simp; omega)]; simp
  have h0 : WOK c ⟨zeroWeights c.fwOrig, zeroWeights c.bwOrig, none2, none2⟩ := by
    refine ⟨by simp [zeroWeights, hf], by simp [zeroWeights, hb], by simp [none2], by simp [none2], fun e _ => hbnd _ e, fun e _ => hbnd _ e⟩
  obtain ⟨z, h1, h2, h3⟩ := custNodes_spec hg h0 (topo_range hg)
  refine ⟨_, z, ?_, h2, h3, rfl, rfl⟩
  simp only [alwaysInfinity, show c.numNodes = n from hg.nn]
  exact h1

/-! ### The reduced CCHs -/

/-- The result of `remove_always_infinity`. -/
theorem remove_spec (hg : Base n c) (hf : c.fwOrig.length = c.head.length) (hb : c.bwOrig.length = c.head.length) :
    ∃ z0 z d, alwaysInfinity c = some z ∧ removeAlwaysInfinity c = some d ∧ Solved c z0 z (fun x => x < n) ∧ z0.up = zeroWeights c.fwOrig ∧
      z0.down = zeroWeights c.bwOrig ∧ Base n d ∧ (∀ j x y, d.Edge j x y ↔ ∃ e, c.Edge e x y ∧ keepU z e = true ∧ j = kcount (selIn c.head.length (keepU z)) e) ∧
      d.head.length = ((List.range c.head.length).filter (keepU z)).length ∧
      d.order = c.order ∧ d.elimTree = c.elimTree ∧ d.fwOrig = selArcs c (keepU z) c.fwOrig ∧ d.bwOrig = selArcs c (keepU z) c.bwOrig := by
  obtain ⟨z0, z, h1, h2, h3, h4, h5⟩ := alwaysInfinity_spec hg hf hb
  have hfold := foldlM_topo hg (keepU z) (body := removeNode c z) (fun v hv => removeNode_spec hg h2 hv)
  obtain ⟨t1, t2, t3⟩ := topoAt_last hg (keepU z)
  obtain ⟨inv, hi, hd⟩ := sel_base hg (keepU z)
  obtain ⟨hd1, hd2⟩ := hd ⟨(topoAt c (keepU z) n).fo, (topoAt c (keepU z) n).head, (topoAt c (keepU z) n).tail, c.order, keepEither c.fwOrig z.up z.down,
    keepEither c.bwOrig z.up z.down, c.elimTree, inv⟩ t1 t2 t3 rfl
  refine ⟨z0, z, _, h1, ?_, h3, h4, h5, hd1, hd2, ?_, rfl, rfl, keepEither_sel h2 hf, keepEither_sel h2 hb⟩
  · simp only [removeAlwaysInfinity, h1, Option.bind_eq_bind, Option.bind_some, show c.numNodes = n from hg.nn, hfold]
    rw [t1, t2, hi]; rfl
  · simp [topoAt, hg.first_last]

/-- One direction of `to_directed_cch`. -/
theorem directSide_spec (hg : Base n c) {ws : List Nat} (hw : ws.length = c.head.length) {l : List (List Nat)} (hl : l.length = c.head.length) :
    ∃ s, directSide n ⟨c.firstOut, c.head, ws⟩ l = some s ∧ Base n s.cch ∧
      (∀ j x y, s.cch.Edge j x y ↔ ∃ e, c.Edge e x y ∧ at0 ws e < INFINITY ∧ j = kcount (selIn c.head.length (fun e => decide (at0 ws e < INFINITY))) e) ∧
      s.head.length = ((List.range c.head.length).filter (fun e => decide (at0 ws e < INFINITY))).length ∧
      s.orig = selArcs c (fun e => decide (at0 ws e < INFINITY)) l := by
  generalize hk : (fun e => decide (at0 ws e < INFINITY)) = k
  have hfold := foldlM_topo hg k (body := directNode ⟨c.firstOut, c.head, ws⟩) (fun v hv => by rw [← hk]; exact directNode_spec hg hw hv)
  obtain ⟨t1, t2, t3⟩ := topoAt_last hg k
  obtain ⟨inv, hi, hd⟩ := sel_base hg k
  obtain ⟨hd1, hd2⟩ := hd (DirSide.cch ⟨(topoAt c k n).fo, (topoAt c k n).head, (topoAt c k n).tail, selArcs c k l, inv⟩) t1 t2 t3 rfl
  refine ⟨_, ?_, hd1, ?_, ?_, rfl⟩
  · simp only [directSide, hfold, Option.bind_eq_bind, Option.bind_some]
    rw [t1, t2, hi]
    have := directArcs_sel hw hl
    rw [hk] at this
    rw [this]; rfl
  · intro j x y
    rw [hd2]
    have : ∀ e, k e = true ↔ at0 ws e < INFINITY := by intro e; rw [← hk]; simp
    simp only [this]
  · simp [topoAt, hg.first_last]

/-- The result of `to_directed_cch`. -/
theorem direct_spec (hg : Base n c) (hf : c.fwOrig.length = c.head.length) (hb : c.bwOrig.length = c.head.length) :
    ∃ z0 z d, alwaysInfinity c = some z ∧ toDirected c = some d ∧ Solved c z0 z (fun x => x < n) ∧ z0.up = zeroWeights c.fwOrig ∧
      z0.down = zeroWeights c.bwOrig ∧ Base n d.fw.cch ∧ Base n d.bw.cch ∧
      (∀ j x y, d.fw.cch.Edge j x y ↔ ∃ e, c.Edge e x y ∧ z.u e < INFINITY ∧ j = kcount (selIn c.head.length (fun e => decide (at0 z.up e < INFINITY))) e) ∧
      (∀ j x y, d.bw.cch.Edge j x y ↔ ∃ e, c.Edge e x y ∧ z.d e < INFINITY ∧ j = kcount (selIn c.head.length (fun e => decide (at0 z.down e < INFINITY))) e) ∧
      d.fw.head.length = ((List.range c.head.length).filter (fun e => decide (at0 z.up e < INFINITY))).length ∧
      d.bw.head.length = ((List.range c.head.length).filter (fun e => decide (at0 z.down e < INFINITY))).length ∧
      d.order = c.order ∧ d.elimTree = c.elimTree ∧ d.fw.orig = selArcs c (fun e => decide (at0 z.up e < INFINITY)) c.fwOrig ∧
      d.bw.orig = selArcs c (fun e => decide (at0 z.down e < INFINITY)) c.bwOrig := by
  obtain ⟨z0, z, h1, h2, h3, h4, h5⟩ := alwaysInfinity_spec hg hf hb
  obtain ⟨f, f1, f2, f3, f4, f5⟩ := directSide_spec hg h2.ul hf
  obtain ⟨b, b1, b2, b3, b4, b5⟩ := directSide_spec hg h2.dl hb
  refine ⟨z0, z, ⟨f, b, c.order, c.elimTree⟩, h1, ?_, h3, h4, h5, f2, b2, f3, b3, f4, b4, rfl, rfl, f5, b5⟩
  have f1' : directSide n (fwGraph c z) c.fwOrig = some f := f1
  have b1' : directSide n (bwGraph c z) c.bwOrig = some b := b1
  simp only [toDirected, h1, Option.bind_eq_bind, Option.bind_some, show c.numNodes = n from hg.nn, f1', b1', Option.pure_def]

/-! ### Customization of the reduced CCHs -/

theorem kcount_unmap (k : Nat → Bool) {e : Nat} (he : e < c.head.length) (hk : k e = true) :
    unmap (selIn c.head.length k) c.head.length (kcount (selIn c.head.length k) e) = e := unmap_kcount _ he (by rw [kp_sel he]; exact hk)

theorem initWeights_parts {metric : FOGraph} {w0 : Weights} (h : initWeights c metric = some w0) :
    prepareWeights c.fwOrig metric = some w0.up ∧ prepareWeights c.bwOrig metric = some w0.down := by
  simp only [initWeights, Option.bind_eq_bind, Option.bind_eq_some_iff] at h
  obtain ⟨u, h1, d, h2, h3⟩ := h
  simp at h3; subst h3
  exact ⟨h1, h2⟩

/-- finite edges are kept -/
theorem zero_finite (hg : Base n c) (hf : c.fwOrig.length = c.head.length) (hb : c.bwOrig.length = c.head.length) {metric : FOGraph} {w0 w z0 z : Weights}
    (hi : initWeights c metric = some w0) (h : Solved c w0 w (fun x => x < n)) (hz : Solved c z0 z (fun x => x < n)) (hzu : z0.up = zeroWeights c.fwOrig)
    (hzd : z0.down = zeroWeights c.bwOrig) {e x y : Nat} (he : c.Edge e x y) : (w.u e < INFINITY → z.u e < INFINITY) ∧ (w.d e < INFINITY → z.d e < INFINITY) := by
  obtain ⟨i1, i2⟩ := initWeights_parts hi
  have := Solved.zero hg h hz (fun {e x y} he hlt => by
      have h1 := prepare_nonempty i1 (e := e) (by rw [hf]; exact Edge.lt he) hlt
      simp only [Weights.u, hzu]; exact h1) (fun {e x y} he hlt => by
      have h1 := prepare_nonempty i2 (e := e) (by rw [hb]; exact Edge.lt he) hlt
      simp only [Weights.d, hzd]; exact h1) x e y he
  exact ⟨fun hlt => by rw [this.1 hlt]; decide, fun hlt => by rw [this.2 hlt]; decide⟩

/-- Arrays of initial weights for the selected edges. -/
theorem sel_init {ku kd : Nat → Bool} {w0 : Weights} (hw : WOK c w0) {F B : Cch} (hF : F.head.length = ((List.range c.head.length).filter ku).length)
    (hB : B.head.length = ((List.range c.head.length).filter kd).length) {u d : List Nat} (hu : u.length = ((List.range c.head.length).filter ku).length)
    (hd : d.length = ((List.range c.head.length).filter kd).length)
    (hu' : ∀ e, e < c.head.length → ku e = true → at0 u (kcount (selIn c.head.length ku) e) = at0 w0.up e)
    (hd' : ∀ e, e < c.head.length → kd e = true → at0 d (kcount (selIn c.head.length kd) e) = at0 w0.down e) :
    DWOK F B ⟨u, d, List.replicate F.head.length (none, none), List.replicate B.head.length (none, none)⟩ := by
  have key : ∀ (k : Nat → Bool) (j : Nat), j < ((List.range c.head.length).filter k).length → ∃ e, e < c.head.length ∧ k e = true ∧ j = kcount (selIn c.head.length k) e := by
    intro k j hj
    have hj' : j < ((List.range c.head.length).filter (kp (selIn c.head.length k))).length := by
      rw [filter_sel (by intro x hx; simpa using hx)]; exact hj
    obtain ⟨k1, k2, k3⟩ := kept_inv _ (List.getElem?_eq_getElem hj')
    exact ⟨_, k1, by rw [kp_sel k1] at k2; exact k2, k3⟩
  refine ⟨by rw [hF]; exact hu, by rw [hB]; exact hd, by simp, by simp, ?_, ?_⟩
  · intro j hj
    obtain ⟨e, k1, k2, rfl⟩ := key ku j (by rw [← hF]; exact hj)
    show at0 u _ ≤ _
    rw [hu' e k1 k2]; exact hw.ub e k1
  · intro j hj
    obtain ⟨e, k1, k2, rfl⟩ := key kd j (by rw [← hB]; exact hj)
    show at0 d _ ≤ _
    rw [hd' e k1 k2]; exact hw.db e k1

/-- Customizing any selection that keeps the finite edges. -/
theorem sel_red (hg : Base n c) {w0 w : Weights} (hok : WOK c w0) (hs : Solved c w0 w (fun x => x < n)) {F B : Cch} (bF : Base n F) (bB : Base n B)
    {ku kd : Nat → Bool} (hF : ∀ j x y, F.Edge j x y ↔ ∃ e, c.Edge e x y ∧ ku e = true ∧ j = kcount (selIn c.head.length ku) e)
    (hB : ∀ j x y, B.Edge j x y ↔ ∃ e, c.Edge e x y ∧ kd e = true ∧ j = kcount (selIn c.head.length kd) e)
    (fu : ∀ {e x y}, c.Edge e x y → w.u e < INFINITY → ku e = true) (fd : ∀ {e x y}, c.Edge e x y → w.d e < INFINITY → kd e = true)
    {w0' w' : Weights} (hd : DWOK F B w') (hds : DSolved F B w0' w' (fun x => x < n))
    (hu' : ∀ e, e < c.head.length → ku e = true → at0 w0'.up (kcount (selIn c.head.length ku) e) = at0 w0.up e)
    (hd' : ∀ e, e < c.head.length → kd e = true → at0 w0'.down (kcount (selIn c.head.length kd) e) = at0 w0.down e) :
    Red n c F B (unmap (selIn c.head.length ku) c.head.length) (unmap (selIn c.head.length kd) c.head.length) w0 w w0' w' := by
  refine ⟨hg, hok, hs, bF, bB, hd, hds, ?_, ?_, ?_, ?_, ?_, ?_⟩
  · intro j x y h
    obtain ⟨e, h1, h2, rfl⟩ := (hF _ _ _).1 h
    rw [kcount_unmap ku (Edge.lt h1) h2]; exact h1
  · intro j x y h
    obtain ⟨e, h1, h2, rfl⟩ := (hB _ _ _).1 h
    rw [kcount_unmap kd (Edge.lt h1) h2]; exact h1
  · intro e x y h hlt
    have hk := fu h hlt
    exact ⟨_, (hF _ _ _).2 ⟨e, h, hk, rfl⟩, kcount_unmap ku (Edge.lt h) hk⟩
  · intro e x y h hlt
    have hk := fd h hlt
    exact ⟨_, (hB _ _ _).2 ⟨e, h, hk, rfl⟩, kcount_unmap kd (Edge.lt h) hk⟩
  · intro j x y h
    obtain ⟨e, h1, h2, rfl⟩ := (hF _ _ _).1 h
    rw [kcount_unmap ku (Edge.lt h1) h2]; exact hu' e (Edge.lt h1) h2
  · intro j x y h
    obtain ⟨e, h1, h2, rfl⟩ := (hB _ _ _).1 h
    rw [kcount_unmap kd (Edge.lt h1) h2]; exact hd' e (Edge.lt h1) h2

theorem DWOK.wok {w : Weights} (h : DWOK c c w) : WOK c w := ⟨h.ul, h.dl, h.uul, h.dul, h.ub, h.db⟩
theorem WOK.dwok {w : Weights} (h : WOK c w) : DWOK c c w := ⟨h.ul, h.dl, h.uul, h.dul, h.ub, h.db⟩

/-- A CCH for some graph, customized with a metric, and the metric's arcs. -/
theorem customized_of {orig metric : FOGraph} {order : NodeOrder} (ho : orig.WF) (hord : order.OK orig.numNodes) (hg : Good orig.numNodes c)
    (hb : BuiltFrom orig order c) (hm : MetricOf orig metric) : ∃ w0 w, initWeights c metric = some w0 ∧ customize c metric = some w ∧
      Customized orig.numNodes c (InRanks metric.Arc order.node) w0 w := by
  obtain ⟨w0, h2, h3⟩ := initWeights_spec ho hm hord hg hb
  obtain ⟨w, h4, h5, h6⟩ := custNodes_spec hg.toBase h3.ok (topo_range hg.toBase)
  have hn : c.numNodes = orig.numNodes := hg.nn
  refine ⟨w0, w, h2, ?_, ⟨hg, h5, h3, h6, hb.hO hm ho⟩⟩
  simp only [customize, h2, Option.bind_eq_bind, Option.bind_some, hn]; exact h4

/-- Customizing the CCH without the edges that are always infinite. -/
theorem removed_ready {orig : FOGraph} {order : NodeOrder} (ho : orig.WF) (hord : order.OK orig.numNodes) (hg : Good orig.numNodes c)
    (hb : BuiltFrom orig order c) : ∃ z d, alwaysInfinity c = some z ∧ removeAlwaysInfinity c = some d ∧ Base orig.numNodes d ∧
      (∀ x y, (∃ j, d.Edge j x y) ↔ ∃ e, c.Edge e x y ∧ (z.u e < INFINITY ∨ z.d e < INFINITY)) ∧ d.order = order ∧ d.elimTree = c.elimTree ∧
      ∀ metric, MetricOf orig metric → ∃ w0 w w0' w' um, initWeights c metric = some w0 ∧ customize c metric = some w ∧ initWeights d metric = some w0' ∧
        customize d metric = some w' ∧ Customized orig.numNodes c (InRanks metric.Arc order.node) w0 w ∧ Red orig.numNodes c d d um um w0 w w0' w' ∧
        (∀ {e x y}, c.Edge e x y → z.u e = INFINITY → w.u e = INFINITY) ∧ (∀ {e x y}, c.Edge e x y → z.d e = INFINITY → w.d e = INFINITY) := by
  obtain ⟨z0, z, d, h1, h2, h3, h4, h5, h6, h7, h8, h9, h10, h11, h12⟩ := remove_spec hg.toBase hb.fwLen hb.bwLen
  have kk : ∀ e, keepU z e = true ↔ (z.u e < INFINITY ∨ z.d e < INFINITY) := by intro e; simp [keepU]
  refine ⟨z, d, h1, h2, h6, ?_, by rw [h9, hb.order_eq], h10, ?_⟩
  · intro x y
    constructor
    · rintro ⟨j, hj⟩
      obtain ⟨e, k1, k2, _⟩ := (h7 _ _ _).1 hj
      exact ⟨e, k1, (kk e).1 k2⟩
    · rintro ⟨e, k1, k2⟩
      exact ⟨_, (h7 _ _ _).2 ⟨e, k1, (kk e).2 k2, rfl⟩⟩
  · intro metric hm
    obtain ⟨w0, w, i1, i2, hc⟩ := customized_of ho hord hg hb hm
    obtain ⟨p1, p2⟩ := initWeights_parts i1
    obtain ⟨u, q1, q2, q3⟩ := prepareWeights_sel (keepU z) hb.fwLen p1
    obtain ⟨v, q4, q5, q6⟩ := prepareWeights_sel (keepU z) hb.bwLen p2
    have hi : initWeights d metric = some ⟨u, v, List.replicate d.head.length (none, none), List.replicate d.head.length (none, none)⟩ := by
      simp only [initWeights, h11, h12, q1, q4, Option.bind_eq_bind, Option.bind_some, Option.pure_def]
    have hw0 := (sel_init (F := d) (B := d) hc.init.ok h8 h8 q2 q5 q3 q6).wok
    obtain ⟨w', r1, r2, r3⟩ := custNodes_spec h6 hw0 (topo_range h6)
    have hfin : ∀ {e x y}, c.Edge e x y → _ := fun {e x y} he => zero_finite hg.toBase hb.fwLen hb.bwLen i1 hc.solved h3 h4 h5 he
    refine ⟨w0, w, _, w', _, i1, i2, hi, ?_, hc, sel_red hg.toBase hc.init.ok hc.solved h6 h6 h7 h7 ?_ ?_ r2.dwok r3.directed q3 q6, ?_, ?_⟩
    · simp only [customize, hi, Option.bind_eq_bind, Option.bind_some, show d.numNodes = orig.numNodes from h6.nn]; exact r1
    · intro e x y he hlt; exact (kk e).2 (.inl ((hfin he).1 hlt))
    · intro e x y he hlt; exact (kk e).2 (.inr ((hfin he).2 hlt))
    · intro e x y he hz
      have := (hfin he).1
      have := hc.ok.ub e (Edge.lt he)
      omega
    · intro e x y he hz
      have := (hfin he).2
      have := hc.ok.db e (Edge.lt he)
      omega

/-- Customizing the directed CCH. -/
theorem directed_ready {orig : FOGraph} {order : NodeOrder} (ho : orig.WF) (hord : order.OK orig.numNodes) (hg : Good orig.numNodes c)
    (hb : BuiltFrom orig order c) : ∃ z d, alwaysInfinity c = some z ∧ toDirected c = some d ∧ Base orig.numNodes d.fw.cch ∧ Base orig.numNodes d.bw.cch ∧
      (∀ x y, (∃ j, d.fw.cch.Edge j x y) ↔ ∃ e, c.Edge e x y ∧ z.u e < INFINITY) ∧
      (∀ x y, (∃ j, d.bw.cch.Edge j x y) ↔ ∃ e, c.Edge e x y ∧ z.d e < INFINITY) ∧ d.order = order ∧ d.elimTree = c.elimTree ∧
      ∀ metric, MetricOf orig metric → ∃ w0 w w0' w' um dm, initWeights c metric = some w0 ∧ customize c metric = some w ∧ dirInit d metric = some w0' ∧
        DWOK d.fw.cch d.bw.cch w0' ∧
        customizeDirected d metric = some w' ∧ Customized orig.numNodes c (InRanks metric.Arc order.node) w0 w ∧
        Red orig.numNodes c d.fw.cch d.bw.cch um dm w0 w w0' w' := by
  obtain ⟨z0, z, d, h1, h2, h3, h4, h5, h6, h6', h7, h7', h8, h8', h9, h10, h11, h12⟩ := direct_spec hg.toBase hb.fwLen hb.bwLen
  refine ⟨z, d, h1, h2, h6, h6', ?_, ?_, by rw [h9, hb.order_eq], h10, ?_⟩
  · intro x y
    constructor
    · rintro ⟨j, hj⟩
      obtain ⟨e, k1, k2, _⟩ := (h7 _ _ _).1 hj
      exact ⟨e, k1, k2⟩
    · rintro ⟨e, k1, k2⟩
      exact ⟨_, (h7 _ _ _).2 ⟨e, k1, k2, rfl⟩⟩
  · intro x y
    constructor
    · rintro ⟨j, hj⟩
      obtain ⟨e, k1, k2, _⟩ := (h7' _ _ _).1 hj
      exact ⟨e, k1, k2⟩
    · rintro ⟨e, k1, k2⟩
      exact ⟨_, (h7' _ _ _).2 ⟨e, k1, k2, rfl⟩⟩
  · intro metric hm
    obtain ⟨w0, w, i1, i2, hc⟩ := customized_of ho hord hg hb hm
    obtain ⟨p1, p2⟩ := initWeights_parts i1
    obtain ⟨u, q1, q2, q3⟩ := prepareWeights_sel (fun e => decide (at0 z.up e < INFINITY)) hb.fwLen p1
    obtain ⟨v, q4, q5, q6⟩ := prepareWeights_sel (fun e => decide (at0 z.down e < INFINITY)) hb.bwLen p2
    have hi : dirInit d metric = some ⟨u, v, List.replicate d.fw.head.length (none, none), List.replicate d.bw.head.length (none, none)⟩ := by
      simp only [dirInit, h11, h12, q1, q4, Option.bind_eq_bind, Option.bind_some, Option.pure_def]
    have hw0 := sel_init (F := d.fw.cch) (B := d.bw.cch) hc.init.ok h8 h8' q2 q5 q3 q6
    obtain ⟨w', r1, r2, r3⟩ := dirNodes_spec h6 h6' hw0
    have hfin : ∀ {e x y}, c.Edge e x y → _ := fun {e x y} he => zero_finite hg.toBase hb.fwLen hb.bwLen i1 hc.solved h3 h4 h5 he
    have h7a : ∀ j x y, d.fw.cch.Edge j x y ↔ ∃ e, c.Edge e x y ∧ (fun e => decide (at0 z.up e < INFINITY)) e = true ∧
        j = kcount (selIn c.head.length (fun e => decide (at0 z.up e < INFINITY))) e := by
      intro j x y; rw [h7]; simp only [decide_eq_true_eq]; rfl
    have h7b : ∀ j x y, d.bw.cch.Edge j x y ↔ ∃ e, c.Edge e x y ∧ (fun e => decide (at0 z.down e < INFINITY)) e = true ∧
        j = kcount (selIn c.head.length (fun e => decide (at0 z.down e < INFINITY))) e := by
      intro j x y; rw [h7']; simp only [decide_eq_true_eq]; rfl
    refine ⟨w0, w, _, w', _, _, i1, i2, hi, hw0, ?_, hc, sel_red hg.toBase hc.init.ok hc.solved h6 h6' h7a h7b ?_ ?_ r2 r3 q3 q6⟩
    · simp only [customizeDirected, hi, Option.bind_eq_bind, Option.bind_some, show d.numNodes = orig.numNodes from h6.nn]; exact r1
    · intro e x y he hlt; exact decide_eq_true ((hfin he).1 hlt)
    · intro e x y he hlt; exact decide_eq_true ((hfin he).2 hlt)

end CCH
end Verif
