import Verif.Proof.Reorder
import Mathlib.Data.List.Nodup
set_option linter.unusedSimpArgs false
set_option linter.unusedVariables false
/- `CCH::fix_order_and_build`: the reordering keeps the chordal completion and passes the validation. -/
namespace Verif
namespace CCH
open Spec
variable {n : Nat} {tree : List (Option Nat)}

/-! ### Positions in the new order -/

theorem Block.index {L : List Nat} (hnd : L.Nodup) {y b : Nat} (ht : TreeOK n tree) (hy : y < n) (h : Block tree L y) (hb : L[b]? = some y) :
    b + size tree y ≤ L.length ∧ ∀ (a x : Nat), L[a]? = some x → (Anc (par tree) x y ↔ b ≤ a ∧ a < b + size tree y) := by
  obtain ⟨A, B, C, h1, h2⟩ := h
  have hbA : b = A.length := by
    have h3 : L[A.length]? = some y := by rw [h1]; simp
    exact (List.getElem?_inj (List.getElem?_eq_some_iff.1 hb).1 hnd).1 (hb.trans h3.symm)
  have hndB : (y :: B).Nodup := by
    rw [h1] at hnd
    have := (List.nodup_append.1 hnd).2.1
    exact this.sublist (List.Sublist.cons_cons _ (List.sublist_append_left _ _))
  have hsz : size tree y = B.length + 1 := size_eq ht hy hndB h2
  have hlen : L.length = A.length + (B.length + C.length + 1) := by rw [h1]; simp
  refine ⟨by omega, ?_⟩
  intro a x hx
  rw [← h2, hsz, hbA]
  have hal := (List.getElem?_eq_some_iff.1 hx).1
  constructor
  · intro hm
    obtain ⟨i, hi⟩ := List.mem_iff_getElem?.1 hm
    have hil := (List.getElem?_eq_some_iff.1 hi).1
    have : L[A.length + i]? = some x := by
      rw [h1, List.getElem?_append_right (by omega), show A.length + i - A.length = i by omega, show y :: (B ++ C) = (y :: B) ++ C by rfl,
        List.getElem?_append_left hil]
      exact hi
    have := (List.getElem?_inj hal hnd).1 (hx.trans this.symm)
    simp at hil
    omega
  · intro ⟨h3, h4⟩
    rw [h1, List.getElem?_append_right (by omega), show y :: (B ++ C) = (y :: B) ++ C by rfl, List.getElem?_append_left (by simp; omega)] at hx
    exact List.mem_of_getElem? hx

theorem sublist_index {L : List Nat} {x y : Nat} (h : [x, y].Sublist L) : ∃ i j : Nat, i < j ∧ L[i]? = some x ∧ L[j]? = some y := by
  obtain ⟨r1, r2, h1, h2, h3⟩ := List.cons_sublist_iff.1 h
  obtain ⟨i, hi⟩ := List.mem_iff_getElem?.1 h2
  obtain ⟨j, hj⟩ := List.mem_iff_getElem?.1 (List.singleton_sublist.1 h3)
  have hil := (List.getElem?_eq_some_iff.1 hi).1
  refine ⟨i, r1.length + j, by omega, ?_, ?_⟩
  · rw [h1, List.getElem?_append_left hil]; exact hi
  · rw [h1, List.getElem?_append_right (by omega), show r1.length + j - r1.length = j by omega]; exact hj

/-- The order `R` of the nodes of `tree`: subtrees are ranges that end with their root; of two siblings the larger one comes first. -/
structure Postorder (n : Nat) (tree : List (Option Nat)) (R : List Nat) : Prop where
  perm : R.Perm (List.range n)
  range : ∀ (j y : Nat), R[j]? = some y → size tree y ≤ j + 1 ∧
    ∀ (i x : Nat), R[i]? = some x → (Anc (par tree) x y ↔ j + 1 - size tree y ≤ i ∧ i ≤ j)
  sizes : ∀ (i j x y : Nat), R[i]? = some x → R[j]? = some y → i < j → par tree x = par tree y → size tree y ≤ size tree x

theorem new_postorder (ht : TreeOK n tree) {srt : List SepTree → List SepTree} (hs : SortsBySize srt) {t : SepTree} (h : SepTree.new tree = some t) :
    Postorder n tree (sortChildren srt t).toList.reverse := by
  have hp := (sortChildren_perm hs t).trans (SepTree.new_perm ht h).1
  have hbl := new_blocks ht hs h
  have hsi := fun {a b} => new_siblings ht hs h (a := a) (b := b)
  generalize (sortChildren srt t).toList = L at *
  have hnd : L.Nodup := hp.nodup_iff.2 List.nodup_range
  have hlen : L.length = n := by rw [hp.length_eq, List.length_range]
  have hlt : ∀ (j y : Nat), L[j]? = some y → y < n := fun j y h => by
    have := hp.mem_iff.1 (List.mem_of_getElem? h); simpa using this
  have hrev : ∀ (j y : Nat), L.reverse[j]? = some y → j < n ∧ L[n - 1 - j]? = some y := by
    intro j y h
    have hj := (List.getElem?_eq_some_iff.1 h).1
    simp at hj
    rw [List.getElem?_reverse hj, hlen] at h
    exact ⟨by omega, h⟩
  refine ⟨(List.reverse_perm L).trans hp, ?_, ?_⟩
  · intro j y hj
    obtain ⟨hjn, hj'⟩ := hrev j y hj
    obtain ⟨h1, h2⟩ := (hbl y (hlt _ _ hj')).index hnd ht (hlt _ _ hj') hj'
    refine ⟨by omega, ?_⟩
    intro i x hi
    obtain ⟨hin, hi'⟩ := hrev i x hi
    rw [h2 _ _ hi']
    omega
  · intro i j x y hi hj hij hpar
    obtain ⟨hin, hi'⟩ := hrev i x hi
    obtain ⟨hjn, hj'⟩ := hrev j y hj
    have hne : x ≠ y := by
      rintro rfl
      have := (List.getElem?_inj (List.getElem?_eq_some_iff.1 hi').1 hnd).1 (hi'.trans hj'.symm)
      omega
    rcases hsi (hlt _ _ hi') (hlt _ _ hj') hne hpar with ⟨h1, h2⟩ | ⟨h1, h2⟩
    · exfalso
      obtain ⟨a, b, hab, ha, hb⟩ := sublist_index h1
      have e1 := (List.getElem?_inj (List.getElem?_eq_some_iff.1 hi').1 hnd).1 (hi'.trans ha.symm)
      have e2 := (List.getElem?_inj (List.getElem?_eq_some_iff.1 hj').1 hnd).1 (hj'.trans hb.symm)
      omega
    · exact h2

/-! ### The chordal completion does not change -/

/-- the parents after contraction -/
theorem contractedTree_ok {E : Nat → Nat → Prop} {nodes : List (List Nat)} (hc : Contracted E n nodes) : TreeOK n (contractedTree nodes) := by
  refine ⟨by simp [contractedTree, hc.len], ?_⟩
  intro x p hp
  simp only [par, contractedTree, List.getElem?_map] at hp
  cases hx : nodes[x]? with
  | none => simp [hx] at hp
  | some l =>
    simp [hx] at hp
    exact (hc.sorted x l hx).2 p (List.mem_of_mem_head? (by simp [hp]))

theorem par_contracted {nodes : List (List Nat)} {v : Nat} {l : List Nat} (h : nodes[v]? = some l) : par (contractedTree nodes) v = l.head? := by
  simp [par, contractedTree, h]

/-- adjacency after renaming: position `i` is the node `R[i]` -/
def Renamed (E : Nat → Nat → Prop) (R : List Nat) (i j : Nat) : Prop := ∃ x y, R[i]? = some x ∧ R[j]? = some y ∧ E x y

section
variable {E : Nat → Nat → Prop} {nodes : List (List Nat)} {R : List Nat}

theorem Contracted.comparable (hc : Contracted E n nodes) (hs : ∀ u v, E u v → E v u) (hlt : ∀ u v, E u v → u ≠ v) {u v : Nat} (h : E u v) :
    Anc (par (contractedTree nodes)) u v ∨ Anc (par (contractedTree nodes)) v u := by
  have hanc := fun {v x} => hc.ancestors (par (contractedTree nodes)) (fun v l h => par_contracted h) (v := v) (x := x)
  rcases Nat.lt_or_ge u v with h1 | h1
  · exact .inl (hanc (hc.sup u v h h1))
  · exact .inr (hanc (hc.sup v u (hs _ _ h) (by have := hlt _ _ h; omega)))

theorem low_forward (hc : Contracted E n nodes) (hs : ∀ u v, E u v → E v u) (hlt : ∀ u v, E u v → u ≠ v) (hE : ∀ u v, E u v → u < n ∧ v < n)
    (hR : Postorder n (contractedTree nodes) R) {x i : Nat} (hi : R[i]? = some x) {u y : Nat} (h : LowPath E x u y) :
    Anc (par (contractedTree nodes)) u x → ∀ a b, R[a]? = some u → R[b]? = some y → LowPath (Renamed E R) i a b := by
  have ht := contractedTree_ok hc
  induction h with
  | @one u w he => intro _ a b ha hb; exact .one ⟨u, w, ha, hb, he⟩
  | @cons u v w he hv _ ih =>
    intro hu a b ha hb
    have hvn := (hE u v he).2
    obtain ⟨q, hq⟩ := List.mem_iff_getElem?.1 (hR.perm.mem_iff.2 (List.mem_range.2 hvn))
    have hvx : Anc (par (contractedTree nodes)) v x := by
      rcases hc.comparable hs hlt he with h | h
      · rcases anc_total h hu with h' | h'
        · exact h'
        · have := anc_le ht h'; omega
      · exact h.trans hu
    have hqi : q < i := by
      have := (((hR.range i x hi).2 q v hq).1 hvx).2
      have : q ≠ i := by rintro rfl; rw [hi] at hq; simp at hq; omega
      omega
    exact .cons ⟨u, v, ha, hq, he⟩ hqi (ih hvx q b hq hb)

theorem low_backward (hc : Contracted E n nodes) (hs : ∀ u v, E u v → E v u) (hlt : ∀ u v, E u v → u ≠ v)
    (hR : Postorder n (contractedTree nodes) R) {x i : Nat} (hi : R[i]? = some x) {a b : Nat} (h : LowPath (Renamed E R) i a b) :
    i < b → ∀ u y, R[a]? = some u → R[b]? = some y → Anc (par (contractedTree nodes)) u x →
      LowPath E x u y ∧ Anc (par (contractedTree nodes)) x y := by
  have ht := contractedTree_ok hc
  have hnd : R.Nodup := hR.perm.nodup_iff.2 List.nodup_range
  induction h with
  | @one a b he =>
    intro hib u y ha hb hu
    obtain ⟨u', y', ha', hb', he⟩ := he
    rw [ha] at ha'; rw [hb] at hb'; simp at ha' hb'; subst ha'; subst hb'
    refine ⟨.one he, ?_⟩
    have hnot : ¬ Anc (par (contractedTree nodes)) y x := by
      intro h; have := (((hR.range i x hi).2 b y hb).1 h).2; omega
    rcases hc.comparable hs hlt he with h | h
    · rcases anc_total h hu with h' | h'
      · exact absurd h' hnot
      · exact h'
    · exact absurd (h.trans hu) hnot
  | @cons a v b he hv _ ih =>
    intro hib u y ha hb hu
    obtain ⟨u', z, ha', hz, he⟩ := he
    rw [ha] at ha'; simp at ha'; subst ha'
    have hzx : Anc (par (contractedTree nodes)) z x := by
      rcases hc.comparable hs hlt he with h | h
      · rcases anc_total h hu with h' | h'
        · exact h'
        · exfalso
          have := (((hR.range v z hz).2 i x hi).1 h').2
          omega
      · exact h.trans hu
    have hne : z ≠ x := by
      rintro rfl
      have := (List.getElem?_inj (List.getElem?_eq_some_iff.1 hz).1 hnd).1 (hz.trans hi.symm)
      omega
    obtain ⟨h1, h2⟩ := ih hib z y hz hb hzx
    have := anc_le ht hzx
    exact ⟨.cons he (by omega) h1, h2⟩

/-- The edges of the chordal completion for the new order are those for the old order. -/
theorem fill_renamed (hc : Contracted E n nodes) (hs : ∀ u v, E u v → E v u) (hlt : ∀ u v, E u v → u ≠ v) (hE : ∀ u v, E u v → u < n ∧ v < n)
    (hR : Postorder n (contractedTree nodes) R) {i j x y : Nat} (hi : R[i]? = some x) (hj : R[j]? = some y) :
    i < j ∧ LowPath (Renamed E R) i i j ↔ Adj nodes x y := by
  have ht := contractedTree_ok hc
  constructor
  · rintro ⟨hij, h⟩
    obtain ⟨h1, h2⟩ := low_backward hc hs hlt hR hi h hij x y hi hj (.refl x)
    have hxy : x < y := by
      have := anc_le ht h2
      have : x ≠ y := by
        rintro rfl
        have := (List.getElem?_inj (List.getElem?_eq_some_iff.1 hi).1 (hR.perm.nodup_iff.2 List.nodup_range)).1 (hi.trans hj.symm)
        omega
      omega
    exact (hc.iff_lowPath hs hxy).2 h1
  · intro h
    have hxy := hc.lt h
    have hanc := hc.ancestors (par (contractedTree nodes)) (fun v l h => par_contracted h) h
    have hij : i < j := by
      have h1 := (((hR.range j y hj).2 i x hi).1 hanc).2
      have : i ≠ j := by rintro rfl; rw [hi] at hj; simp at hj; omega
      omega
    exact ⟨hij, low_forward hc hs hlt hE hR hi ((hc.iff_lowPath hs hxy.1).1 h) (.refl x) i j hi hj⟩
end

/-! ### `fix_order_and_build` -/

theorem contracted_spec {orig : FOGraph} (ho : orig.WF) {order : NodeOrder} (hord : order.OK orig.numNodes) :
    ∃ nodes0 nodes, contractionGraph orig.numNodes order (fun v => heads orig v) = some nodes0 ∧ contractNodes nodes0 = some nodes ∧
      Contracted (RankAdj orig.Arc order.node) orig.numNodes nodes := by
  obtain ⟨nodes0, h1, h2, h3, h4⟩ := contractionGraph_spec hord (links := fun v => heads orig v) (by
    intro v hv
    refine ⟨_, heads_eq ho hv, ?_⟩
    intro x hx
    obtain ⟨w, ls, ha, hb⟩ := (heads_mem ho (heads_eq ho hv) x).1 hx
    exact ho.mem_heads ha hb)
  have h4' : ∀ x y, Adj nodes0 x y ↔ x < y ∧ RankAdj orig.Arc order.node x y := by
    intro x y; rw [h4, inAdj_iff ho hord]
  obtain ⟨nodes, h5, hc⟩ := contractNodes_spec h2 h3 h4'
  exact ⟨nodes0, nodes, h1, h5, hc⟩

theorem rankAdj_symm {A : Nat → Nat → Nat → Prop} {f : Nat → Option Nat} : ∀ u v, RankAdj A f u v → RankAdj A f v u := by
  rintro u v ⟨h, a, b, w, h1, h2, h3⟩
  exact ⟨fun h' => h h'.symm, b, a, w, h2, h1, h3.symm⟩

theorem rankAdj_renamed {A : Nat → Nat → Nat → Prop} {f f' : Nat → Option Nat} {R : List Nat} (hnd : R.Nodup) (hf : ∀ i : Nat, f' i = R[i]?.bind f) :
    RankAdj A f' = Renamed (RankAdj A f) R := by
  funext i j
  apply propext
  constructor
  · rintro ⟨hij, u, v, w, hu, hv, h⟩
    rw [hf] at hu hv
    simp only [Option.bind_eq_some_iff] at hu hv
    obtain ⟨x, hx, hu⟩ := hu
    obtain ⟨y, hy, hv⟩ := hv
    refine ⟨x, y, hx, hy, ?_, u, v, w, hu, hv, h⟩
    rintro rfl
    exact hij ((List.getElem?_inj (List.getElem?_eq_some_iff.1 hx).1 hnd).1 (hx.trans hy.symm))
  · rintro ⟨x, y, hx, hy, hxy, u, v, w, hu, hv, h⟩
    refine ⟨?_, u, v, w, by rw [hf, hx]; exact hu, by rw [hf, hy]; exact hv, h⟩
    rintro rfl
    rw [hx] at hy; simp at hy; exact hxy hy

/-- The result of the reordering. -/
structure Fixed (srt : List SepTree → List SepTree) (orig : FOGraph) (order order' : NodeOrder) (nodes : List (List Nat)) (R : List Nat) : Prop where
  con : Contracted (RankAdj orig.Arc order.node) orig.numNodes nodes
  post : Postorder orig.numNodes (contractedTree nodes) R
  ok : order'.OK orig.numNodes
  list : ∃ l : List Nat, l.length = orig.numNodes ∧ NodeOrder.fromNodeOrder l = some order'
  node : ∀ i : Nat, order'.node i = R[i]?.bind order.node
  eq : fixOrderAndBuild srt orig order = build orig order'

theorem fixed_spec {orig : FOGraph} (ho : orig.WF) {order : NodeOrder} (hord : order.OK orig.numNodes) {srt : List SepTree → List SepTree}
    (hs : SortsBySize srt) : ∃ order' nodes R, Fixed srt orig order order' nodes R := by
  obtain ⟨nodes0, nodes, h1, h2, hc⟩ := contracted_spec ho hord
  have ht := contractedTree_ok hc
  obtain ⟨cs, h3, _⟩ := SepTree.new_spec ht
  have hn : orig.numNodes < U32 - 1 := by
    have h1 := ho.small.1
    have h2 := ho.fo_len
    simp only [FOGraph.numNodes]; omega
  obtain ⟨order', h4, ⟨h5, h6⟩, h7⟩ := reorderForCustomization_spec ht h3 hord hn hs
  refine ⟨order', nodes, _, hc, new_postorder ht hs h3, h5, h6, h7, ?_⟩
  simp only [fixOrderAndBuild, h1, h2, h3, h4, Option.bind_eq_bind, Option.bind_some]

section
variable {srt : List SepTree → List SepTree} {orig : FOGraph} {order order' : NodeOrder} {nodes : List (List Nat)} {R : List Nat}

theorem rankAdj_lt {orig : FOGraph} {order : NodeOrder} (hord : order.OK orig.numNodes) (u v : Nat) (h : RankAdj orig.Arc order.node u v) :
    u < orig.numNodes ∧ v < orig.numNodes := by
  obtain ⟨_, a, b, w, h1, h2, _⟩ := h
  rw [← hord.len]
  exact ⟨(List.getElem?_eq_some_iff.1 h1).1, (List.getElem?_eq_some_iff.1 h2).1⟩

theorem Fixed.edges (h : Fixed srt orig order order' nodes R) (hord : order.OK orig.numNodes) {i j x y : Nat} (hi : R[i]? = some x) (hj : R[j]? = some y) :
    i < j ∧ LowPath (RankAdj orig.Arc order'.node) i i j ↔ x < y ∧ LowPath (RankAdj orig.Arc order.node) x x y := by
  rw [rankAdj_renamed (h.post.perm.nodup_iff.2 List.nodup_range) h.node,
    fill_renamed h.con rankAdj_symm (fun u v h => h.1) (rankAdj_lt hord) h.post hi hj]
  constructor
  · intro ha; exact ⟨(h.con.lt ha).1, (h.con.iff_lowPath rankAdj_symm (h.con.lt ha).1).1 ha⟩
  · rintro ⟨h1, h2⟩; exact (h.con.iff_lowPath rankAdj_symm h1).2 h2

theorem LowPath.ends {E : Nat → Nat → Prop} {k u w : Nat} (h : LowPath E k u w) : (∃ v, E u v) ∧ ∃ v, E v w := by
  induction h with
  | one h => exact ⟨⟨_, h⟩, _, h⟩
  | cons h _ _ ih => exact ⟨⟨_, h⟩, ih.2⟩

/-- A completion that was built is not too large. -/
theorem BuiltFrom.not_tooLarge {c : Cch} (hg : Good n c) (hb : BuiltFrom orig order c) : ¬ TooLarge orig order := by
  rintro ⟨P, hP1, hP2, hP3⟩
  have hex : ∀ p : Nat × Nat, ∃ e, p ∈ P → c.Edge e p.1 p.2 := by
    intro p
    by_cases hp : p ∈ P
    · obtain ⟨e, he⟩ := (hb.edge_iff p.1 p.2).2 (hP2 p hp)
      exact ⟨e, fun _ => he⟩
    · exact ⟨0, fun h => absurd h hp⟩
  obtain ⟨f, hf⟩ := Classical.axiomOfChoice hex
  have hnd : (P.map f).Nodup := by
    refine List.Nodup.map_on ?_ hP1
    intro p hp q hq heq
    have h1 := hf p hp
    have h2 := hf q hq
    rw [heq] at h1
    have := Edge.inj h1 h2
    exact Prod.ext this.1 this.2
  have hle : (P.map f).length ≤ (List.range c.head.length).length := by
    refine (List.subperm_of_subset hnd ?_).length_le
    intro e he
    obtain ⟨p, hp, rfl⟩ := List.mem_map.1 he
    exact List.mem_range.2 (Edge.lt (hf p hp))
  have := hg.wf.small.2
  simp only [Cch.topo] at this
  simp at hle
  omega

theorem Fixed.tooLarge (h : Fixed srt orig order order' nodes R) (hord : order.OK orig.numNodes) : TooLarge orig order' ↔ TooLarge orig order := by
  have hnd : R.Nodup := h.post.perm.nodup_iff.2 List.nodup_range
  have hget : ∀ x, x < orig.numNodes → R[R.idxOf x]? = some x := by
    intro x hx
    have hm : x ∈ R := h.post.perm.mem_iff.2 (List.mem_range.2 hx)
    rw [List.getElem?_eq_getElem (List.idxOf_lt_length_iff.2 hm)]
    simp
  have hget' : ∀ i, i < orig.numNodes → R[i]? = some (R.getD i 0) := by
    intro i hi
    have hl : R.length = orig.numNodes := by rw [h.post.perm.length_eq, List.length_range]
    simp [List.getD, List.getElem?_eq_getElem (show i < R.length by omega)]
  constructor
  · rintro ⟨P, h1, h2, h3⟩
    have hlt : ∀ p ∈ P, p.1 < orig.numNodes ∧ p.2 < orig.numNodes := by
      intro p hp
      obtain ⟨⟨v, ha⟩, w, hb⟩ := LowPath.ends (h2 p hp).2
      exact ⟨(rankAdj_lt h.ok _ _ ha).1, (rankAdj_lt h.ok _ _ hb).2⟩
    refine ⟨P.map (fun p => (R.getD p.1 0, R.getD p.2 0)), ?_, ?_, by simpa using h3⟩
    · refine List.Nodup.map_on ?_ h1
      intro p hp q hq heq
      simp only [Prod.mk.injEq] at heq
      obtain ⟨e1, e2⟩ := heq
      have a1 := hget' _ (hlt p hp).1
      have a2 := hget' _ (hlt p hp).2
      have b1 := hget' _ (hlt q hq).1
      have b2 := hget' _ (hlt q hq).2
      rw [e1] at a1; rw [e2] at a2
      exact Prod.ext ((List.getElem?_inj (List.getElem?_eq_some_iff.1 a1).1 hnd).1 (a1.trans b1.symm))
        ((List.getElem?_inj (List.getElem?_eq_some_iff.1 a2).1 hnd).1 (a2.trans b2.symm))
    · intro q hq
      obtain ⟨p, hp, rfl⟩ := List.mem_map.1 hq
      exact (h.edges hord (hget' _ (hlt p hp).1) (hget' _ (hlt p hp).2)).1 (h2 p hp)
  · rintro ⟨P, h1, h2, h3⟩
    have hlt : ∀ p ∈ P, p.1 < orig.numNodes ∧ p.2 < orig.numNodes := by
      intro p hp
      obtain ⟨⟨v, ha⟩, w, hb⟩ := LowPath.ends (h2 p hp).2
      exact ⟨(rankAdj_lt hord _ _ ha).1, (rankAdj_lt hord _ _ hb).2⟩
    refine ⟨P.map (fun p => (R.idxOf p.1, R.idxOf p.2)), ?_, ?_, by simpa using h3⟩
    · refine List.Nodup.map_on ?_ h1
      intro p hp q hq heq
      simp only [Prod.mk.injEq] at heq
      obtain ⟨e1, e2⟩ := heq
      have a1 := hget _ (hlt p hp).1
      have a2 := hget _ (hlt p hp).2
      have b1 := hget _ (hlt q hq).1
      have b2 := hget _ (hlt q hq).2
      rw [e1, b1] at a1; rw [e2, b2] at a2
      simp at a1 a2
      exact Prod.ext a1.symm a2.symm
    · intro q hq
      obtain ⟨p, hp, rfl⟩ := List.mem_map.1 hq
      exact (h.edges hord (hget _ (hlt p hp).1) (hget _ (hlt p hp).2)).2 (h2 p hp)

/-- The parents in the new elimination tree. -/
theorem Fixed.parent (h : Fixed srt orig order order' nodes R) (hord : order.OK orig.numNodes) {c : Cch} (hg : Good orig.numNodes c)
    (hb : BuiltFrom orig order' c) {i j x y : Nat} (hi : R[i]? = some x) (hj : R[j]? = some y) :
    par c.elimTree i = some j ↔ par (contractedTree nodes) x = some y := by
  have hnd : R.Nodup := h.post.perm.nodup_iff.2 List.nodup_range
  have hl : R.length = orig.numNodes := by rw [h.post.perm.length_eq, List.length_range]
  have ht := contractedTree_ok h.con
  have hedge : ∀ (a b u v : Nat), R[a]? = some u → R[b]? = some v → ((∃ e, c.Edge e a b) ↔ Adj nodes u v) := by
    intro a b u v ha hb'
    rw [hb.edge_iff, rankAdj_renamed hnd h.node, fill_renamed h.con rankAdj_symm (fun u v h => h.1) (rankAdj_lt hord) h.post ha hb']
  have hin : i < orig.numNodes := by have := (List.getElem?_eq_some_iff.1 hi).1; omega
  have hxn : x < orig.numNodes := by have := h.post.perm.mem_iff.1 (List.mem_of_getElem? hi); simpa using this
  have hpos : ∀ v, v < orig.numNodes → ∃ b : Nat, R[b]? = some v := fun v hv =>
    List.mem_iff_getElem?.1 (h.post.perm.mem_iff.2 (List.mem_range.2 hv))
  -- the first neighbour of `x` is the lowest one in both orders
  have key : ∀ z k : Nat, par (contractedTree nodes) x = some z → R[k]? = some z → par c.elimTree i = some k := by
    intro z k hz hk
    obtain ⟨l, hl⟩ : ∃ l, nodes[x]? = some l := ⟨_, List.getElem?_eq_getElem (by rw [h.con.len]; exact hxn)⟩
    rw [par_contracted hl] at hz
    obtain ⟨rest, rfl⟩ : ∃ rest, l = z :: rest := by cases l <;> simp at hz; subst hz; exact ⟨_, rfl⟩
    obtain ⟨p, hp1, hp2⟩ := hg.tree i hin
    have : p = some k := by
      rw [hp2]
      refine ⟨(hedge i k x z hi hk).2 ⟨_, hl, by simp⟩, ?_⟩
      intro e' b he'
      have hbn := (hg.up he').2
      have hb' : R[b]? = some (R.getD b 0) := by simp [List.getD, List.getElem?_eq_getElem (show b < R.length by omega)]
      obtain ⟨l', hl', hm⟩ := (hedge i b x _ hi hb').1 ⟨e', he'⟩
      rw [hl] at hl'; simp at hl'; subst hl'
      rcases List.mem_cons.1 hm with heq | hm
      · rw [heq] at hb'
        exact Nat.le_of_eq ((List.getElem?_inj (List.getElem?_eq_some_iff.1 hk).1 hnd).1 (hk.trans hb'.symm))
      · have hadj := h.con.clos x z rest hl _ hm
        have hanc := h.con.ancestors (par (contractedTree nodes)) (fun v l h => par_contracted h) hadj
        exact (((h.post.range b _ hb').2 k z hk).1 hanc).2
    subst this
    simp [par, hp1]
  constructor
  · intro hpj
    obtain ⟨⟨e, he⟩, hmin⟩ := hg.parent_edge (x := i) (p := j) hpj
    obtain ⟨l, hl', hm⟩ := (hedge i j x y hi hj).1 ⟨e, he⟩
    cases l with
    | nil => simp at hm
    | cons z rest =>
      have hz : par (contractedTree nodes) x = some z := by rw [par_contracted hl']; rfl
      obtain ⟨k, hk⟩ := hpos z (ht.up hz).2
      have h1 := key z k hz hk
      rw [hpj] at h1; simp at h1; subst h1
      rw [hk] at hj; simp at hj; subst hj; exact hz
  · intro hz; exact key y j hz hj

theorem Fixed.anc (h : Fixed srt orig order order' nodes R) (hord : order.OK orig.numNodes) {c : Cch} (hg : Good orig.numNodes c)
    (hb : BuiltFrom orig order' c) {i j x y : Nat} (hi : R[i]? = some x) (hj : R[j]? = some y) :
    Anc (par c.elimTree) i j ↔ Anc (par (contractedTree nodes)) x y := by
  have hl : R.length = orig.numNodes := by rw [h.post.perm.length_eq, List.length_range]
  have hnd : R.Nodup := h.post.perm.nodup_iff.2 List.nodup_range
  have ht := contractedTree_ok h.con
  have hpos : ∀ v, v < orig.numNodes → ∃ b : Nat, R[b]? = some v := fun v hv =>
    List.mem_iff_getElem?.1 (h.post.perm.mem_iff.2 (List.mem_range.2 hv))
  constructor
  · intro ha
    induction ha generalizing x with
    | refl => rw [hi] at hj; simp at hj; subst hj; exact .refl _
    | @step i p j hp _ ih =>
      have hpn := (hg.treeOK.up hp).2
      have hp' : R[p]? = some R[p] := List.getElem?_eq_getElem (by omega)
      exact .step ((h.parent hord hg hb hi hp').1 hp) (ih hp' hj)
  · intro ha
    induction ha generalizing i with
    | refl u =>
      have := (List.getElem?_inj (List.getElem?_eq_some_iff.1 hi).1 hnd).1 (hi.trans hj.symm)
      subst this; exact .refl _
    | @step x p y hp _ ih =>
      obtain ⟨k, hk⟩ := hpos p (ht.up hp).2
      exact .step ((h.parent hord hg hb hi hk).2 hp) (ih hk hj)

theorem Fixed.size_eq (h : Fixed srt orig order order' nodes R) (hord : order.OK orig.numNodes) {c : Cch} (hg : Good orig.numNodes c)
    (hb : BuiltFrom orig order' c) {j y : Nat} (hj : R[j]? = some y) :
    size c.elimTree j = size (contractedTree nodes) y ∧
      ∀ v, Anc (par c.elimTree) v j ↔ j + 1 - size (contractedTree nodes) y ≤ v ∧ v ≤ j := by
  have hl : R.length = orig.numNodes := by rw [h.post.perm.length_eq, List.length_range]
  obtain ⟨h1, h2⟩ := h.post.range j y hj
  have hjn : j < orig.numNodes := by have := (List.getElem?_eq_some_iff.1 hj).1; omega
  have key : ∀ v, Anc (par c.elimTree) v j ↔ j + 1 - size (contractedTree nodes) y ≤ v ∧ v ≤ j := by
    intro v
    by_cases hv : v < orig.numNodes
    · have hv' : R[v]? = some R[v] := List.getElem?_eq_getElem (by omega)
      rw [h.anc hord hg hb hv' hj, h2 v _ hv']
    · constructor
      · intro ha; have := anc_lt' hg.treeOK ha hjn; omega
      · intro ha; omega
  refine ⟨?_, key⟩
  rw [CCH.size_eq hg.treeOK hjn (l := rangeList (j + 1 - size (contractedTree nodes) y) (j + 1)) nodup_rangeList (by
    intro v; rw [mem_rangeList, key]; omega), length_rangeList]
  omega

theorem Fixed.parallel (h : Fixed srt orig order order' nodes R) (hord : order.OK orig.numNodes) {c : Cch} (hg : Good orig.numNodes c)
    (hb : BuiltFrom orig order' c) : Parallel orig.numNodes c.elimTree := by
  have hl : R.length = orig.numNodes := by rw [h.post.perm.length_eq, List.length_range]
  have ht := contractedTree_ok h.con
  refine ⟨?_, ?_⟩
  · intro r hr
    have hr' : R[r]? = some R[r] := List.getElem?_eq_getElem (by omega)
    obtain ⟨h1, h2⟩ := h.size_eq hord hg hb hr'
    rw [h1]
    exact ⟨(h.post.range r _ hr').1, h2⟩
  · intro a b hab hbn hpar
    have ha' : R[a]? = some R[a] := List.getElem?_eq_getElem (by omega)
    have hb' : R[b]? = some R[b] := List.getElem?_eq_getElem (by omega)
    rw [(h.size_eq hord hg hb ha').1, (h.size_eq hord hg hb hb').1]
    refine h.post.sizes a b _ _ ha' hb' hab ?_
    have hpos : ∀ v, v < orig.numNodes → ∃ b : Nat, R[b]? = some v := fun v hv =>
      List.mem_iff_getElem?.1 (h.post.perm.mem_iff.2 (List.mem_range.2 hv))
    apply Option.ext
    intro z
    constructor
    · intro hz
      obtain ⟨k, hk⟩ := hpos z (ht.up hz).2
      exact (h.parent hord hg hb hb' hk).1 (hpar ▸ (h.parent hord hg hb ha' hk).2 hz)
    · intro hz
      obtain ⟨k, hk⟩ := hpos z (ht.up hz).2
      exact (h.parent hord hg hb ha' hk).1 (hpar ▸ (h.parent hord hg hb hb' hk).2 hz)
end

end CCH
end Verif
