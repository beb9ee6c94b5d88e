import Verif.Model.RPHAST
import Verif.Proof.DijkstraVisit
import Verif.Proof.Separator
import Verif.Proof.Reversed
import Verif.Spec.Hierarchy
set_option linter.unusedSimpArgs false
set_option linter.unusedVariables false
/- Lemmas about RPHAST. -/
namespace Verif
namespace RPHAST
open Spec CCH DData

/-- The restricted graph: id `i` belongs to `nodes[i]`, and all upward neighbours of a node have smaller ids. -/
structure SelInv (n : Nat) (bw : FOGraph) (s : Sel) : Prop where
  len : s.ids.length = n
  iff : ∀ v i : Nat, s.ids[v]? = some (some i) ↔ s.nodes[i]? = some v
  foLen : s.firstOut.length = s.nodes.length + 1
  foLast : s.firstOut[s.nodes.length]? = some s.head.length
  hw : s.weight.length = s.head.length
  first : s.firstOut.take 1 = [0]
  adj : ∀ (i v : Nat), s.nodes[i]? = some v → ∃ (ls : List Link) (a : Nat), bw.linkIter v = some ls ∧ s.firstOut[i]? = some a ∧ s.firstOut[i + 1]? = some (a + ls.length) ∧
    ∀ (k : Nat) (l : Link), ls[k]? = some l → ∃ j, s.head[a + k]? = some j ∧ j < i ∧ s.nodes[j]? = some l.node ∧ s.weight[a + k]? = some l.weight

variable {n : Nat} {bw : FOGraph}

theorem pushLinks {ids : List (Option Nat)} : ∀ (ls : List Link) (h w : List Nat), (∀ l ∈ ls, ∃ j, ids[l.node]? = some (some j)) →
    ∃ js : List Nat, ls.foldlM (pushLink ids) (h, w) = some (h ++ js, w ++ ls.map (·.weight)) ∧ js.length = ls.length ∧
      ∀ (k : Nat) (l : Link), ls[k]? = some l → ∃ j, js[k]? = some j ∧ ids[l.node]? = some (some j) := by
  intro ls
  induction ls with
  | nil => intro h w _; exact ⟨[], by simp, rfl, by simp⟩
  | cons l ls ih =>
    intro h w hk
    obtain ⟨j, hj⟩ := hk l (by simp)
    obtain ⟨js, h1, h2, h3⟩ := ih (h ++ [j]) (w ++ [l.weight]) (fun l' h' => hk l' (by simp [h']))
    refine ⟨j :: js, ?_, by simp [h2], ?_⟩
    · simp only [List.foldlM_cons, pushLink, hj, Option.bind_eq_bind, Option.bind_some, Option.pure_def, h1]
      simp
    · intro k l' hl
      cases k with
      | zero => simp at hl; subst hl; exact ⟨j, rfl, hj⟩
      | succ k => simpa using h3 k l' (by simpa using hl)

theorem SelInv.nodup {s : Sel} (h : SelInv n bw s) : s.nodes.Nodup := by
  rw [List.Nodup, List.pairwise_iff_getElem]
  intro i j hi hj hij he
  have h1 := (h.iff _ _).2 (List.getElem?_eq_getElem hj)
  have h2 := (h.iff _ _).2 (List.getElem?_eq_getElem hi)
  rw [he, h1] at h2
  simp at h2; omega

theorem SelInv.lt {s : Sel} (h : SelInv n bw s) {v : Nat} (hv : v ∈ s.nodes) : v < n := by
  obtain ⟨i, hi⟩ := List.getElem?_of_mem hv
  have := (List.getElem?_eq_some_iff.1 ((h.iff _ _).2 hi)).1
  rw [h.len] at this; exact this

theorem SelInv.length_le {s : Sel} (h : SelInv n bw s) : s.nodes.length ≤ n := by
  have : s.nodes.Subperm (List.range n) := h.nodup.subperm (fun v hv => List.mem_range.2 (h.lt hv))
  simpa using this.length_le

theorem assign_spec {s : Sel} (h : SelInv n bw s) {node : Nat} (hn : node < n) (hu : s.ids[node]? = some none) {ls : List Link} (hls : bw.linkIter node = some ls)
    (hk : ∀ l ∈ ls, ∃ j, s.ids[l.node]? = some (some j)) :
    ∃ s', assign s s.nodes.length node ls = some s' ∧ SelInv n bw s' ∧ s'.nodes = s.nodes ++ [node] ∧ s'.ids = s.ids.set node (some s.nodes.length) := by
  have hlt : node < s.ids.length := by rw [h.len]; exact hn
  have hne : ∀ l ∈ ls, l.node ≠ node := by
    intro l hl he
    obtain ⟨j, hj⟩ := hk l hl
    rw [he, hu] at hj; simp at hj
  obtain ⟨js, h1, h2, h3⟩ := pushLinks (ids := s.ids.set node (some s.nodes.length)) ls s.head s.weight (by
    intro l hl
    obtain ⟨j, hj⟩ := hk l hl
    exact ⟨j, by rw [List.getElem?_set_ne (Ne.symm (hne l hl))]; exact hj⟩)
  refine ⟨⟨s.ids.set node (some s.nodes.length), s.nodes ++ [node], s.firstOut ++ [(s.head ++ js).length], s.head ++ js, s.weight ++ ls.map (·.weight)⟩, ?_, ?_, rfl, rfl⟩
  · simp only [assign, upd_of_lt _ hlt, Option.bind_eq_bind, Option.bind_some, h1, Option.pure_def]
  · refine ⟨by simp [h.len], ?_, by simp [h.foLen], ?_, by simp [h.hw, h2], ?_, ?_⟩
    · intro v i
      simp only
      by_cases hv : v = node
      · subst hv
        rw [List.getElem?_set_self hlt]
        constructor
        · intro he; simp at he; subst he; simp
        · intro he
          by_cases hi : i < s.nodes.length
          · rw [List.getElem?_append_left hi] at he
            have := (h.iff _ _).2 he
            rw [hu] at this; simp at this
          · have := (List.getElem?_eq_some_iff.1 he).1
            simp at this
            simp; omega
      · rw [List.getElem?_set_ne (Ne.symm hv), h.iff]
        by_cases hi : i < s.nodes.length
        · rw [List.getElem?_append_left hi]
        · rw [List.getElem?_append_right (by omega), List.getElem?_eq_none (by omega)]
          cases hh : i - s.nodes.length with
          | zero => simp; exact Ne.symm hv
          | succ k => simp
    · rw [List.getElem?_append_right (by simp [h.foLen])]
      simp [h.foLen]
    · rw [List.take_append_of_le_length (by rw [h.foLen]; omega)]
      exact h.first
    · intro i v hi
      simp only at hi ⊢
      have hmono : ∀ (l : List Nat) (k : Nat) (x : Nat) (l' : List Nat), l[k]? = some x → (l ++ l')[k]? = some x := by
        intro l k x l' hx
        rw [List.getElem?_append_left (List.getElem?_eq_some_iff.1 hx).1]; exact hx
      by_cases hil : i < s.nodes.length
      · rw [List.getElem?_append_left hil] at hi
        obtain ⟨ls', a, e1, e2, e3, e4⟩ := h.adj i v hi
        refine ⟨ls', a, e1, hmono _ _ _ _ e2, hmono _ _ _ _ e3, ?_⟩
        intro k l hl
        obtain ⟨j, f1, f2, f3, f4⟩ := e4 k l hl
        exact ⟨j, hmono _ _ _ _ f1, f2, hmono _ _ _ _ f3, hmono _ _ _ _ f4⟩
      · have hi2 := (List.getElem?_eq_some_iff.1 hi).1
        simp at hi2
        have hie : i = s.nodes.length := by omega
        subst hie
        simp at hi; subst hi
        refine ⟨ls, s.head.length, hls, hmono _ _ _ _ h.foLast, ?_, ?_⟩
        · rw [List.getElem?_append_right (by rw [h.foLen])]
          simp [h.foLen, h2]
        · intro k l hl
          obtain ⟨j, f1, f2⟩ := h3 k l hl
          rw [List.getElem?_set_ne (Ne.symm (hne l (List.mem_of_getElem? hl)))] at f2
          have f3 := (h.iff _ _).1 f2
          refine ⟨j, ?_, (List.getElem?_eq_some_iff.1 f3).1, hmono _ _ _ _ f3, ?_⟩
          · rw [List.getElem?_append_right (by omega)]; simpa using f1
          · rw [List.getElem?_append_right (by rw [h.hw]; omega), h.hw]
            simp [hl]

theorem firstUnknown_spec {ids : List (Option Nat)} : ∀ (ls : List Link), (∀ l ∈ ls, l.node < ids.length) →
    (firstUnknown ids ls = some none ∧ ∀ l ∈ ls, ∃ j, ids[l.node]? = some (some j)) ∨ ∃ l ∈ ls, firstUnknown ids ls = some (some l.node) ∧ ids[l.node]? = some none := by
  intro ls
  induction ls with
  | nil => intro _; exact .inl ⟨rfl, by simp⟩
  | cons l ls ih =>
    intro hl
    have h1 := List.getElem?_eq_getElem (hl l (by simp))
    cases h2 : ids[l.node]'(hl l (by simp)) with
    | none =>
      rw [h2] at h1
      exact .inr ⟨l, by simp, by simp [firstUnknown, h1], h1⟩
    | some j =>
      rw [h2] at h1
      rcases ih (fun l' h' => hl l' (by simp [h'])) with ⟨h3, h4⟩ | ⟨l', h3, h4, h5⟩
      · refine .inl ⟨by simp [firstUnknown, h1, h3], ?_⟩
        intro l' h'
        rcases List.mem_cons.1 h' with rfl | h'
        · exact ⟨j, h1⟩
        · exact h4 l' h'
      · exact .inr ⟨l', by simp [h3], by simp [firstUnknown, h1, h4], h5⟩

/-- the nodes without id -/
def unknowns (n : Nat) (ids : List (Option Nat)) : List Nat := (List.range n).filter (fun v => decide (ids[v]? = some none))

theorem mem_unknowns {ids : List (Option Nat)} {v : Nat} : v ∈ unknowns n ids ↔ v < n ∧ ids[v]? = some none := by simp [unknowns]

theorem nodup_unknowns {ids : List (Option Nat)} : (unknowns n ids).Nodup := List.nodup_range.filter _

theorem SelInv.known_mono {s s' : Sel} (h : SelInv n bw s) (h' : SelInv n bw s') (hp : s.nodes <+: s'.nodes) {v j : Nat} (hv : s.ids[v]? = some (some j)) :
    s'.ids[v]? = some (some j) := by
  rw [h'.iff]
  obtain ⟨t, ht⟩ := hp
  have := (h.iff _ _).1 hv
  rw [← ht, List.getElem?_append_left (List.getElem?_eq_some_iff.1 this).1]; exact this

theorem selLoop_spec (hg : UpDir n bw) : ∀ (fuel : Nat) (s : Sel) (stack : List Nat), SelInv n bw s → stack.Pairwise (· > ·) →
    (∀ v ∈ stack, v < n ∧ s.ids[v]? = some none) → 2 * (unknowns n s.ids).length < fuel + stack.length →
    ∃ s', selLoop bw fuel (s, s.nodes.length) stack = some (s', s'.nodes.length) ∧ SelInv n bw s' ∧ s.nodes <+: s'.nodes ∧
      ∀ v ∈ stack, ∃ j, s'.ids[v]? = some (some j) := by
  intro fuel
  induction fuel with
  | zero =>
    intro s stack h hp hu hf
    have hsub : stack.Subperm (unknowns n s.ids) := by
      apply List.Nodup.subperm
      · exact hp.imp (fun h => by omega)
      · intro v hv; exact mem_unknowns.2 (hu v hv)
    have := hsub.length_le
    omega
  | succ fuel ih =>
    intro s stack h hp hu hf
    cases stack with
    | nil => exact ⟨s, by simp [selLoop], h, List.prefix_refl _, by simp⟩
    | cons node stack =>
      obtain ⟨hn, hnone⟩ := hu node (by simp)
      obtain ⟨ls, hls⟩ := hg.wf.total (show node < bw.numNodes by rw [hg.nn]; exact hn)
      have hpc := List.pairwise_cons.1 hp
      have harc : ∀ l ∈ ls, bw.Arc node l.node l.weight := fun l hl => ⟨ls, hls, hl⟩
      have hlt : ∀ l ∈ ls, l.node < n := fun l hl => by have := (FOGraph.WF.arc_lt hg.wf (harc l hl)).2; rw [hg.nn] at this; exact this
      rcases firstUnknown_spec (ids := s.ids) ls (fun l hl => by rw [h.len]; exact hlt l hl) with ⟨h1, h2⟩ | ⟨l, hl, h1, h2⟩
      · obtain ⟨s1, e1, e2, e3, e4⟩ := assign_spec h hn hnone hls h2
        have hlt' : node < s.ids.length := by rw [h.len]; exact hn
        have hcount : (unknowns n s1.ids).length + 1 ≤ (unknowns n s.ids).length := by
          have hsub : (node :: unknowns n s1.ids).Subperm (unknowns n s.ids) := by
            apply List.Nodup.subperm
            · refine List.nodup_cons.2 ⟨?_, nodup_unknowns⟩
              rw [mem_unknowns, e4, List.getElem?_set_self hlt']; simp
            · intro v hv
              rcases List.mem_cons.1 hv with rfl | hv
              · exact mem_unknowns.2 ⟨hn, hnone⟩
              · rw [mem_unknowns] at hv ⊢
                refine ⟨hv.1, ?_⟩
                have hvn : v ≠ node := by
                  intro he; have := hv.2; rw [he, e4, List.getElem?_set_self hlt'] at this; simp at this
                have := hv.2
                rw [e4, List.getElem?_set_ne (Ne.symm hvn)] at this; exact this
          have := hsub.length_le
          simpa using this
        obtain ⟨s2, f1, f2, f3, f4⟩ := ih s1 stack e2 hpc.2 (fun v hv => by
          obtain ⟨g1, g2⟩ := hu v (by simp [hv])
          refine ⟨g1, ?_⟩
          have := hpc.1 v hv
          rw [e4, List.getElem?_set_ne (by omega)]; exact g2) (by simp at hf; omega)
        refine ⟨s2, ?_, f2, ?_, ?_⟩
        · simp only [selLoop, hnone, hls, h1, e1, Option.bind_eq_bind, Option.bind_some]
          rw [e3] at f1
          simp only [List.length_append, List.length_cons, List.length_nil] at f1
          exact f1
        · rw [e3] at f3; exact (List.prefix_append _ _).trans f3
        · intro v hv
          rcases List.mem_cons.1 hv with rfl | hv
          · exact ⟨_, e2.known_mono f2 f3 (by rw [e4, List.getElem?_set_self hlt'])⟩
          · exact f4 v hv
      · obtain ⟨s2, f1, f2, f3, f4⟩ := ih s (l.node :: node :: stack) h (List.pairwise_cons.2 ⟨by
          intro v hv
          have := hg.up (harc l hl)
          rcases List.mem_cons.1 hv with rfl | hv
          · exact this
          · have := hpc.1 v hv; omega, hp⟩) (by
          intro v hv
          rcases List.mem_cons.1 hv with rfl | hv
          · exact ⟨hlt l hl, h2⟩
          · exact hu v hv) (by simp at hf ⊢; omega)
        refine ⟨s2, ?_, f2, f3, fun v hv => f4 v (by simp at hv ⊢; exact .inr hv)⟩
        simp only [selLoop, hnone, hls, h1, Option.bind_eq_bind, Option.bind_some]
        exact f1

theorem clearIds : ∀ (nodes : List Nat) (ids : List (Option Nat)), (∀ v ∈ nodes, v < ids.length) → ∃ ids', nodes.foldlM (fun ids v => upd ids v none) ids = some ids' ∧
    ids'.length = ids.length ∧ ∀ v : Nat, v < ids.length → ids'[v]? = if v ∈ nodes then some none else ids[v]? := by
  intro nodes
  induction nodes with
  | nil => intro ids _; exact ⟨ids, rfl, rfl, by simp⟩
  | cons u us ih =>
    intro ids h
    obtain ⟨ids', h1, h2, h3⟩ := ih (ids.set u none) (fun v hv => by simpa using h v (by simp [hv]))
    refine ⟨ids', by simp only [List.foldlM_cons, upd_of_lt _ (h u (by simp)), Option.bind_eq_bind, Option.bind_some]; exact h1, by simpa using h2, ?_⟩
    intro v hv
    rw [h3 v (by simpa using hv)]
    by_cases h4 : v ∈ us
    · simp [h4]
    · by_cases h5 : v = u
      · subst h5; simp [h4, List.getElem?_set_self hv]
      · simp [h4, h5, List.getElem?_set_ne (Ne.symm h5)]

theorem select_spec (hg : UpDir n bw) {order : NodeOrder} (ho : order.OK n) {s : Sel} (h : SelInv n bw s) {ts : List Nat} (hts : ∀ t ∈ ts, t < n) :
    ∃ s', select order bw s ts = some s' ∧ SelInv n bw s' ∧ ∀ t ∈ ts, ∃ r j : Nat, order.rank t = some r ∧ s'.ids[r]? = some (some j) := by
  obtain ⟨ids, h1, h2, h3⟩ := clearIds s.nodes s.ids (fun v hv => by rw [h.len]; exact h.lt hv)
  have hnone : ∀ v : Nat, v < n → ids[v]? = some none := by
    intro v hv
    have hv' : v < s.ids.length := by rw [h.len]; exact hv
    rw [h3 v hv']
    split
    · rfl
    · rename_i hn
      have := List.getElem?_eq_getElem hv'
      cases hx : s.ids[v] with
      | none => rw [this, hx]
      | some i =>
        rw [hx] at this
        exact absurd (List.mem_of_getElem? ((h.iff _ _).1 this)) hn
  have h0 : SelInv n bw ⟨ids, [], s.firstOut.take 1, [], []⟩ := by
    refine ⟨by simp [h2, h.len], ?_, by simp [h.first], by simp [h.first], rfl, by simp [h.first], by simp⟩
    intro v i
    simp only [List.getElem?_nil]
    constructor
    · intro he
      have hv : v < n := by have := (List.getElem?_eq_some_iff.1 he).1; rw [h2, h.len] at this; exact this
      rw [hnone v hv] at he; simp at he
    · intro he; simp at he
  have key := GraphOps.foldlM_inv (fun (st : Sel × Nat) v => do
      let r ← order.rank v
      selLoop bw (2 * bw.numNodes + 2) st [r])
    (fun P st => st.2 = st.1.nodes.length ∧ SelInv n bw st.1 ∧ ∀ t ∈ P, ∃ r j : Nat, order.rank t = some r ∧ st.1.ids[r]? = some (some j)) ts (by
      rintro P t Q ⟨s1, c⟩ he ⟨hc, hi, hk⟩
      simp only at hc hi hk
      subst hc
      obtain ⟨r, hr2, hr1, _⟩ := ho.rank_lt (hts t (by simp [he]))
      have hlen : (unknowns n s1.ids).length ≤ n := by
        unfold unknowns
        have := List.length_filter_le (fun v => decide (s1.ids[v]? = some none)) (List.range n)
        simpa using this
      have hr3 : r < s1.ids.length := by rw [hi.len]; exact hr2
      have : ∃ s2, selLoop bw (2 * bw.numNodes + 2) (s1, s1.nodes.length) [r] = some (s2, s2.nodes.length) ∧ SelInv n bw s2 ∧ s1.nodes <+: s2.nodes ∧ ∃ j, s2.ids[r]? = some (some j) := by
        have hx := List.getElem?_eq_getElem hr3
        cases hy : s1.ids[r] with
        | none =>
          rw [hy] at hx
          obtain ⟨s2, f1, f2, f3, f4⟩ := selLoop_spec hg (2 * bw.numNodes + 2) s1 [r] hi (by simp) (by simp [hr2, hx]) (by rw [hg.nn]; simp; omega)
          exact ⟨s2, f1, f2, f3, f4 r (by simp)⟩
        | some j =>
          rw [hy] at hx
          exact ⟨s1, by simp [selLoop, hx], hi, List.prefix_refl _, j, hx⟩
      obtain ⟨s2, f1, f2, f3, j, f4⟩ := this
      refine ⟨(s2, s2.nodes.length), by simp only [hr1, Option.bind_eq_bind, Option.bind_some]; exact f1, rfl, f2, ?_⟩
      intro t' ht'
      rcases List.mem_append.1 ht' with ht' | ht'
      · obtain ⟨r', j', g1, g2⟩ := hk t' ht'
        exact ⟨r', j', g1, hi.known_mono f2 f3 g2⟩
      · rw [List.mem_singleton.1 ht']; exact ⟨r, j, hr1, f4⟩) (⟨ids, [], s.firstOut.take 1, [], []⟩, 0) ⟨rfl, h0, by simp⟩
  obtain ⟨⟨s', c⟩, e1, e2, e3, e4⟩ := key
  exact ⟨s', by simp only [select, h1, Option.bind_eq_bind, Option.bind_some, Option.pure_def] at e1 ⊢; rw [e1]; rfl, e3, e4⟩

/-! ### Queries -/

theorem sweepEdges {s : Sel} {i : Nat} {P : Nat → Nat → Prop} : ∀ (ls : List Link) (a : Nat) (dists : List Nat) (d0 : Nat),
    (∀ l ∈ ls, l.weight ≤ INFINITY) → dists[i]? = some d0 →
    (∀ (k : Nat) (l : Link), ls[k]? = some l → ∃ j p, s.head[a + k]? = some j ∧ j < i ∧ s.weight[a + k]? = some l.weight ∧ dists[j]? = some p ∧ CapMin (P l.node) p) →
    ∃ d, (rangeList a (a + ls.length)).foldlM (sweepEdge s i) dists = some (dists.set i d) ∧ d ≤ d0 ∧ (d = d0 ∨ ∃ l ∈ ls, ∃ p, CapMin (P l.node) p ∧ d = l.weight + p) ∧
        ∀ l ∈ ls, ∃ p, CapMin (P l.node) p ∧ d ≤ l.weight + p := by
  intro ls
  induction ls with
  | nil =>
    intro a dists d0 _ hd _
    refine ⟨d0, ?_, Nat.le_refl _, .inl rfl, by simp⟩
    have : dists.set i d0 = dists := by
      apply List.ext_getElem?; intro k
      rw [List.getElem?_set]; split
      · rename_i h; subst h
        have := (List.getElem?_eq_some_iff.1 hd).1
        rw [if_pos this, hd]
      · rfl
    simp [rangeList, this]
  | cons l ls ih =>
    intro a dists d0 hw hd hk
    have hi := (List.getElem?_eq_some_iff.1 hd).1
    obtain ⟨j, p, h1, h2, h3, h4, h5⟩ := hk 0 l rfl
    have hx : add32 p l.weight = some (p + l.weight) := add32_of_lt (by have := h5.ub; have := hw l (by simp); unfold INFINITY at *; unfold U32; omega)
    obtain ⟨d, e1, e2, e3, e4⟩ := ih (a + 1) (dists.set i (min d0 (p + l.weight))) (min d0 (p + l.weight)) (fun l' h' => hw l' (by simp [h'])) (by simp [hi]) (by
      intro k l' hl
      obtain ⟨j', p', f1, f2, f3, f4, f5⟩ := hk (k + 1) l' (by simpa using hl)
      refine ⟨j', p', by rw [← f1, Nat.add_assoc, Nat.add_comm 1 k], f2, by rw [← f3, Nat.add_assoc, Nat.add_comm 1 k], ?_, f5⟩
      rw [List.getElem?_set_ne (by omega)]; exact f4)
    refine ⟨d, ?_, by omega, ?_, ?_⟩
    · rw [rangeList_succ (by simp)]
      simp only [Nat.add_zero] at h1 h3
      simp only [List.foldlM_cons, sweepEdge, h1, h3, h4, hd, hx, Option.bind_eq_bind, Option.bind_some, upd_of_lt _ hi]
      rw [show a + (l :: ls).length = a + 1 + ls.length by simp; omega, e1]
      simp
    · rcases e3 with e3 | ⟨l', h', p', h6, h7⟩
      · by_cases hm : d0 ≤ p + l.weight
        · exact .inl (by omega)
        · exact .inr ⟨l, by simp, p, h5, by omega⟩
      · exact .inr ⟨l', by simp [h'], p', h6, h7⟩
    · intro l' h'
      rcases List.mem_cons.1 h' with rfl | h'
      · exact ⟨p, h5, by omega⟩
      · exact e4 l' h'

structure QueryOK (n : Nat) (q : Query) : Prop where
  len : q.dists.length = n
  data : ∃ a, Refines n q.data a

theorem query_spec {fw : FOGraph} (hf : UpDir n fw) (hb : UpDir n bw) {order : NodeOrder} (ho : order.OK n) {s : Sel} (h : SelInv n bw s) {q : Query} (hq : QueryOK n q)
    {src : Nat} (hs : src < n) : ∃ q' r, query order fw s q src = some q' ∧ QueryOK n q' ∧ order.rank src = some r ∧
      ∀ (i v : Nat), s.nodes[i]? = some v → ∃ p, q'.dists[i]? = some p ∧ CapMin (UpDown fw.Arc bw.Arc r v) p := by
  obtain ⟨r, hr2, hr1, _⟩ := ho.rank_lt hs
  obtain ⟨a0, hr⟩ := hq.data
  have hle := h.length_le
  have hlen := hq.len
  let δ := fun v => Classical.choose (exists_capMin (Walk fw.Arc r v))
  have hδ : ∀ v, CapMin (Walk fw.Arc r v) (δ v) := fun v => Classical.choose_spec (exists_capMin (Walk fw.Arc r v))
  have hres : resetFirst q.dists s.nodes.length = some (List.replicate s.nodes.length INFINITY ++ q.dists.drop s.nodes.length) := by
    unfold resetFirst; rw [if_pos (by omega)]
  let K : List Nat → List Nat → Prop := fun S x => x.length = n ∧ ∀ (i v : Nat), s.nodes[i]? = some v → x[i]? = some (if v ∈ S then δ v else INFINITY)
  obtain ⟨d, x, a, S, h1, h2, h3, h4, h5, h6⟩ := visit_spec (vis := visit s.ids) (K := K) (Z := fun _ _ => False)
      (x0 := List.replicate s.nodes.length INFINITY ++ q.dists.drop s.nodes.length) hf.wf hf.bounded (by rw [hf.nn]; exact hr2) hδ (by
    rintro S x v d ⟨hl, hx⟩ hnd hst
    have hvn : v < s.ids.length := by rw [h.len, ← hf.nn]; exact hst.lt
    have hid := List.getElem?_eq_getElem hvn
    cases hy : s.ids[v] with
    | none =>
      rw [hy] at hid
      refine ⟨x, false, by simp [visit, hid], by simp, fun _ => ⟨hl, ?_⟩⟩
      intro i u hu
      rw [hx i u hu]
      have : u ≠ v := by
        rintro rfl
        have := (h.iff _ _).2 hu
        rw [hid] at this; simp at this
      simp [this]
    | some j =>
      rw [hy] at hid
      have hj := (h.iff _ _).1 hid
      have hjl : j < x.length := by have := (List.getElem?_eq_some_iff.1 hj).1; omega
      refine ⟨x.set j (δ v), false, by simp [visit, hid, hst.get, upd_of_lt _ hjl], by simp, fun _ => ⟨by simp [hl], ?_⟩⟩
      intro i u hu
      by_cases hij : i = j
      · subst hij
        rw [hj] at hu; simp at hu; subst hu
        simp [hjl]
      · rw [List.getElem?_set_ne (Ne.symm hij), hx i u hu]
        have : u ≠ v := by
          rintro rfl
          have := (h.iff _ _).2 hu
          rw [hid] at this; simp at this; omega
        simp [this]) (by rw [hf.nn]; exact hr) ⟨by simp; omega, by
    intro i v hv
    have := (List.getElem?_eq_some_iff.1 hv).1
    rw [List.getElem?_append_left (by simpa using this)]
    simp [this]⟩
  obtain ⟨⟨hxl, hx⟩, hall⟩ := h6.resolve_left id
  have hxδ : ∀ (i v : Nat), s.nodes[i]? = some v → x[i]? = some (δ v) := by
    intro i v hv
    rw [hx i v hv]
    by_cases hvS : v ∈ S
    · simp [hvS]
    · have : ¬ δ v < INFINITY := fun h => hvS (hall v h)
      have := (hδ v).ub
      simp [hvS]; omega
  have key := GraphOps.foldlM_inv (sweepNode s) (fun P y => y.length = n ∧ ∀ (i v : Nat), s.nodes[i]? = some v →
      (i < P.length → ∃ p, y[i]? = some p ∧ CapMin (UpDown bw.Arc fw.Arc v r) p) ∧ (P.length ≤ i → y[i]? = some (δ v))) (List.range s.nodes.length) (by
    rintro P i Q y he ⟨hyl, hy⟩
    have hi : i = P.length := by
      have : (List.range s.nodes.length)[P.length]? = some i := by rw [he]; simp
      have h7 := (List.getElem?_eq_some_iff.1 this).1
      rw [List.getElem?_range (by simpa using h7)] at this
      simpa using this.symm
    have hil : i < s.nodes.length := by
      have : i ∈ List.range s.nodes.length := by rw [he]; simp
      simpa using this
    subst hi
    have hv := List.getElem?_eq_getElem hil
    generalize s.nodes[P.length] = v at hv
    obtain ⟨ls, a, e1, e2, e3, e4⟩ := h.adj _ v hv
    have hyi := (hy _ v hv).2 (Nat.le_refl _)
    have harc : ∀ l ∈ ls, bw.Arc v l.node l.weight := fun l hl => ⟨ls, e1, hl⟩
    obtain ⟨d, f1, f2, f3, f4⟩ := sweepEdges (P := fun u => UpDown bw.Arc fw.Arc u r) ls a y (δ v) (fun l hl => hb.bound (harc l hl)) hyi (by
      intro k l hl
      obtain ⟨j, g1, g2, g3, g4⟩ := e4 k l hl
      obtain ⟨p, g5, g6⟩ := (hy j _ g3).1 g2
      exact ⟨j, p, g1, g2, g4, g5, g6⟩)
    have hil' : P.length < y.length := (List.getElem?_eq_some_iff.1 hyi).1
    refine ⟨y.set P.length d, by simp [sweepNode, hyi, e2, e3, f1], by simp [hyl], ?_⟩
    intro i u hu
    by_cases hip : i = P.length
    · subst hip
      rw [hv] at hu; simp at hu; subst hu
      refine ⟨fun _ => ⟨d, by simp [hil'], ?_⟩, fun h => by simp at h; omega⟩
      have hup : CapMin (UpWalk fw.Arc r v) (δ v) := by
        have := hδ v
        exact ⟨this.ub, fun hl => hf.walk.1 (this.sound hl), fun d hd => this.le d (hf.walk.2 hd)⟩
      apply updown_step hup f2
      · rcases f3 with f3 | ⟨l, hl, p, g1, g2⟩
        · exact .inl f3
        · exact .inr ⟨l.node, l.weight, p, harc l hl, hb.up (harc l hl), g1, g2⟩
      · intro u' w ha _
        obtain ⟨ls', g1, g2⟩ := ha
        rw [e1] at g1; simp at g1; subst g1
        exact f4 _ g2
    · rw [List.getElem?_set_ne (Ne.symm hip)]
      simp only [List.length_append, List.length_cons, List.length_nil]
      refine ⟨fun h => (hy i u hu).1 (by omega), fun h => (hy i u hu).2 (by omega)⟩) x ⟨hxl, fun i v hv => ⟨by simp, fun _ => hxδ i v hv⟩⟩
  obtain ⟨y, e1, e2, e3⟩ := key
  refine ⟨⟨y, d⟩, r, ?_, ⟨e2, ⟨a, by rw [← hf.nn]; exact h2⟩⟩, hr1, ?_⟩
  · unfold query
    cases hi : q.data.init r 0 with
    | none => rw [hi] at h1; simp at h1
    | some d1 =>
      rw [hi] at h1
      simp only [Option.bind_eq_bind, Option.bind_some] at h1
      simp only [hres, hr1, hi, h1, e1, Option.bind_eq_bind, Option.bind_some, Option.pure_def]
  · intro i v hv
    have hil := (List.getElem?_eq_some_iff.1 hv).1
    obtain ⟨p, f1, f2⟩ := (e3 i v hv).1 (by simpa using hil)
    exact ⟨p, f1, ⟨f2.ub, fun hl => UpDown.flip (f2.sound hl), fun d hd => f2.le d (UpDown.flip hd)⟩⟩

end RPHAST
end Verif
