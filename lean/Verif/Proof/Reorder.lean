import Verif.Proof.Separator
import Verif.Proof.CCHSession
import Mathlib.Data.List.Perm.Subperm
set_option linter.unusedSimpArgs false
set_option linter.unusedVariables false
/- Orders derived from separator trees (`reorder.rs`). -/
namespace Verif
namespace CCH
open Spec
variable {n : Nat} {tree : List (Option Nat)}

/-! ### Orders from lists of ranks -/

theorem orderOfRanks_spec {order : NodeOrder} (ho : order.OK n) (hn : n < U32 - 1) {ranks : List Nat} (hp : ranks.Perm (List.range n)) :
    ∃ o, orderOfRanks order ranks = some o ∧ (o.OK n ∧ ∃ l : List Nat, l.length = n ∧ NodeOrder.fromNodeOrder l = some o) ∧ ∀ i : Nat, o.node i = ranks.reverse[i]?.bind order.node := by
  have hlt : ∀ x ∈ ranks, x < n := fun x hx => by have := hp.mem_iff.1 hx; simpa using this
  obtain ⟨l, hl⟩ := mapM_exists (f := order.node) (l := ranks) (fun x hx => by
    obtain ⟨v, _, h, _⟩ := ho.node_lt (hlt x hx); exact ⟨v, h⟩)
  obtain ⟨hll, hli⟩ := mapM_index hl
  have hlen : ranks.length = n := by rw [hp.length_eq, List.length_range]
  have hnode : ∀ i : Nat, l.reverse[i]? = ranks.reverse[i]?.bind order.node := by
    intro i
    by_cases hi : i < n
    · rw [List.getElem?_reverse (by omega), List.getElem?_reverse (by omega)]
      rw [show l.length - 1 - i = ranks.length - 1 - i by omega]
      obtain ⟨y, h1, h2⟩ := hli (ranks.length - 1 - i) _ (List.getElem?_eq_getElem (by omega))
      rw [h1, List.getElem?_eq_getElem (by omega : ranks.length - 1 - i < ranks.length)]; simp [h2]
    · rw [List.getElem?_eq_none (by simp; omega), List.getElem?_eq_none (by simp; omega)]; rfl
  have hnd : l.Nodup := by
    refine mapM_nodup ?_ hl (hp.nodup_iff.2 List.nodup_range)
    intro x y z hx hy
    have h1 := (ho.inv.inv _ _).1 hx
    have h2 := (ho.inv.inv _ _).1 hy
    rw [h1] at h2; simpa using h2
  have hperm : l.reverse.Perm (List.range l.reverse.length) := by
    refine (List.reverse_perm l).trans ?_
    rw [List.length_reverse]
    refine List.Subperm.perm_of_length_le (List.subperm_of_subset hnd ?_) (by simp)
    intro v hv
    obtain ⟨x, hx, hxv⟩ := (mem_of_mapM hl v).1 hv
    obtain ⟨w, hw, h2, _⟩ := ho.node_lt (hlt x hx)
    rw [hxv] at h2; simp at h2; subst h2
    simp; omega
  obtain ⟨inv, hinv⟩ := NodeOrder.invert_of_perm (by simp; omega) hperm
  have hfrom : NodeOrder.fromNodeOrder l.reverse = some ⟨l.reverse, inv⟩ := by simp [NodeOrder.fromNodeOrder, hinv]
  refine ⟨⟨l.reverse, inv⟩, ?_, ?_, hnode⟩
  · simp only [orderOfRanks, hl, Option.bind_eq_bind, Option.bind_some]; exact hfrom
  · have := NodeOrder.ok_of_fromNodeOrder hfrom
    have hll : l.reverse.length = n := by simp; omega
    exact ⟨by rwa [hll] at this, _, hll, hfrom⟩

/-! ### Breadth first order -/

/-- the number of separators of a list of trees -/
def sepCount : SepTree → Nat
  | .mk _ cs _ => 1 + all cs
where all : List SepTree → Nat
  | [] => 0
  | t :: ts => sepCount t + all ts

theorem sepCount.all_append (a b : List SepTree) : sepCount.all (a ++ b) = sepCount.all a + sepCount.all b := by
  induction a with
  | nil => simp [sepCount.all]
  | cons t ts ih => simp [sepCount.all, ih]; omega

theorem SepTree.toList.all_append (a b : List SepTree) : SepTree.toList.all (a ++ b) = SepTree.toList.all a ++ SepTree.toList.all b := by
  induction a with
  | nil => simp [SepTree.toList.all]
  | cons t ts ih => simp [SepTree.toList.all, ih]

theorem bfsLoop_spec : ∀ (fuel : Nat) (queue : List SepTree) (acc : List Nat), sepCount.all queue ≤ fuel →
    ∃ r, bfsLoop fuel queue acc = some r ∧ r.Perm (acc ++ SepTree.toList.all queue) := by
  intro fuel
  induction fuel with
  | zero =>
    intro queue acc h
    cases queue with
    | nil => exact ⟨acc, rfl, by simp [SepTree.toList.all]⟩
    | cons t q => cases t; simp [sepCount.all, sepCount] at h
  | succ fuel ih =>
    intro queue acc h
    cases queue with
    | nil => exact ⟨acc, rfl, by simp [SepTree.toList.all]⟩
    | cons t q =>
      cases t with
      | mk s cs k =>
        obtain ⟨r, h1, h2⟩ := ih (q ++ cs) (acc ++ s.toList) (by
          rw [sepCount.all_append]; simp [sepCount.all, sepCount] at h; omega)
        refine ⟨r, h1, h2.trans ?_⟩
        rw [SepTree.toList.all_append, SepTree.toList.all, SepTree.toList]
        simp only [List.append_assoc]
        refine List.Perm.append_left _ (List.Perm.append_left _ List.perm_append_comm)

mutual
theorem SubOK.count (ht : TreeOK n tree) {t : SepTree} {r : Nat} (h : SubOK tree t r) : sepCount t ≤ t.toList.length :=
  match h with
  | .mk (s := s) (cs := cs) h1 h2 h3 hcan => by
    rw [sepCount, SepTree.toList, List.length_append]
    have := SubAll.count ht h2
    have h4 := (h1.lower ht).2.2
    have : 1 ≤ s.toList.length := by cases hs : s.toList <;> simp [hs] at h4 ⊢
    omega
theorem SubAll.count (ht : TreeOK n tree) {ts : List SepTree} {rs : List Nat} (h : SubAll tree ts rs) : sepCount.all ts ≤ (SepTree.toList.all ts).length :=
  match h with
  | .nil => by simp [sepCount.all]
  | .cons h1 h2 => by
    rw [sepCount.all, SepTree.toList.all, List.length_append]
    have := SubAll.count ht h2
    have := SubOK.count ht h1
    omega
end

theorem reorderBfs_spec (ht : TreeOK n tree) {t : SepTree} (h : SepTree.new tree = some t) {order : NodeOrder} (ho : order.OK n) (hn : n < U32 - 1) :
    ∃ o, reorderBfs order t = some o ∧ ∃ l : List Nat, l.length = n ∧ NodeOrder.fromNodeOrder l = some o := by
  obtain ⟨hp, hnum⟩ := SepTree.new_perm ht h
  obtain ⟨cs, h1, h2⟩ := SepTree.new_spec ht
  rw [h] at h1; simp at h1
  have hc := SubAll.count ht h2
  have hnm := SubAll.num h2
  obtain ⟨r, h3, h4⟩ := bfsLoop_spec (t.num + 1) [t] [] (by
    subst h1
    simp only [sepCount.all, sepCount, SepTree.num]; omega)
  obtain ⟨o, h5, h6, _⟩ := orderOfRanks_spec ho hn (h4.trans (by simpa [SepTree.toList.all] using hp))
  exact ⟨o, by simp only [reorderBfs, h3, Option.bind_eq_bind, Option.bind_some]; exact h5, h6.2⟩

/-! ### Depth first order with sorted cells -/

/-- what `sort_unstable_by_key(|c| c.num_nodes)` promises -/
def SortsBySize (srt : List SepTree → List SepTree) : Prop := ∀ l, (srt l).Perm l ∧ (srt l).Pairwise (fun t u => t.num ≤ u.num)

theorem toList_all_eq (ts : List SepTree) : SepTree.toList.all ts = (ts.map SepTree.toList).flatten := by
  induction ts with
  | nil => rfl
  | cons t ts ih => simp [SepTree.toList.all, ih]

theorem sortChildren_all_eq (srt : List SepTree → List SepTree) (ts : List SepTree) : sortChildren.all srt ts = ts.map (sortChildren srt) := by
  induction ts with
  | nil => rfl
  | cons t ts ih => simp [sortChildren.all, ih]

theorem toList_all_perm {a b : List SepTree} (h : a.Perm b) : (SepTree.toList.all a).Perm (SepTree.toList.all b) := by
  rw [toList_all_eq, toList_all_eq]
  exact (h.map _).flatten

mutual
theorem sortChildren_perm {srt : List SepTree → List SepTree} (hs : SortsBySize srt) : ∀ t : SepTree, (sortChildren srt t).toList.Perm t.toList
  | .mk s cs k => by
    rw [sortChildren, SepTree.toList, SepTree.toList]
    exact List.Perm.append_left _ ((toList_all_perm (hs _).1).trans (sortChildren_all_perm hs cs))
theorem sortChildren_all_perm {srt : List SepTree → List SepTree} (hs : SortsBySize srt) :
    ∀ ts : List SepTree, (SepTree.toList.all (sortChildren.all srt ts)).Perm (SepTree.toList.all ts)
  | [] => by simp [sortChildren.all]
  | t :: ts => by
    rw [sortChildren.all, SepTree.toList.all, SepTree.toList.all]
    exact (sortChildren_perm hs t).append (sortChildren_all_perm hs ts)
end

theorem sortChildren_num (srt : List SepTree → List SepTree) (t : SepTree) : (sortChildren srt t).num = t.num := by
  cases t; rfl

theorem reorderForCustomization_spec (ht : TreeOK n tree) {t : SepTree} (h : SepTree.new tree = some t) {order : NodeOrder} (ho : order.OK n)
    (hn : n < U32 - 1) {srt : List SepTree → List SepTree} (hs : SortsBySize srt) :
    ∃ o, reorderForCustomization srt order t = some o ∧ (o.OK n ∧ ∃ l : List Nat, l.length = n ∧ NodeOrder.fromNodeOrder l = some o) ∧ ∀ i : Nat, o.node i = (sortChildren srt t).toList.reverse[i]?.bind order.node :=
  orderOfRanks_spec ho hn ((sortChildren_perm hs t).trans (SepTree.new_perm ht h).1)

/-- A block of `L`: the descendants of `x`, beginning with `x`. -/
def Block (tree : List (Option Nat)) (L : List Nat) (x : Nat) : Prop :=
  ∃ A B C, L = A ++ x :: (B ++ C) ∧ ∀ v, v ∈ x :: B ↔ Anc (par tree) v x

theorem Block.infix {L : List Nat} {x : Nat} (h : Block tree L x) (P Q : List Nat) : Block tree (P ++ (L ++ Q)) x := by
  obtain ⟨A, B, C, h1, h2⟩ := h
  exact ⟨P ++ A, B, C ++ Q, by rw [h1]; simp, h2⟩

theorem flatten_split {ts : List SepTree} {t : SepTree} (h : t ∈ ts) : ∃ P Q, SepTree.toList.all ts = P ++ (t.toList ++ Q) := by
  obtain ⟨a, b, rfl⟩ := List.append_of_mem h
  exact ⟨SepTree.toList.all a, SepTree.toList.all b, by rw [SepTree.toList.all_append, SepTree.toList.all]⟩

theorem ChainOK.blocks (ht : TreeOK n tree) {r last : Nat} {l : List Nat} (h : ChainOK tree r l last) {K : List Nat}
    (hK : ∀ v, v ∈ K ↔ ∃ k ∈ kids tree last, Anc (par tree) v k) : ∀ x ∈ l, Block tree (l ++ K) x := by
  induction h with
  | @single r hk =>
    intro x hx
    simp at hx; subst hx
    refine ⟨[], K, [], by simp, ?_⟩
    intro v
    rw [List.mem_cons, hK, anc_kids ht]
  | @cons r c last l hk h ih =>
    intro x hx
    have ih' := ih hK
    rcases List.mem_cons.1 hx with rfl | hx
    · refine ⟨[], l ++ K, [], by simp, ?_⟩
      intro v
      have : ChainOK tree x (x :: l) last := .cons hk h
      rw [this.anc ht, List.mem_cons, List.mem_append, hK, List.mem_cons, or_assoc]
    · simpa using (ih' x hx).infix [r] []

mutual
theorem SubOK.blocks (ht : TreeOK n tree) {srt : List SepTree → List SepTree} (hs : SortsBySize srt) {t : SepTree} {r : Nat} (h : SubOK tree t r) :
    ∀ x, Anc (par tree) x r → Block tree (sortChildren srt t).toList x :=
  match h with
  | .mk (s := s) (cs := cs) (k := k) h1 h2 h3 hcan => by
    intro x hx
    have hmem : ∀ v, v ∈ SepTree.toList.all (srt (sortChildren.all srt cs)) ↔ v ∈ SepTree.toList.all cs := fun v =>
      ((toList_all_perm (hs _).1).trans (sortChildren_all_perm hs cs)).mem_iff
    rw [sortChildren, SepTree.toList]
    rcases (h1.anc ht x).1 hx with hx | hx
    · exact h1.blocks ht (fun v => by rw [hmem, SubAll.mem ht h2]) x hx
    · obtain ⟨u, hu, hb⟩ := SubAll.blocks ht hs h2 x hx
      have hu' : u ∈ srt (sortChildren.all srt cs) := (hs _).1.mem_iff.2 hu
      obtain ⟨P, Q, hPQ⟩ := flatten_split hu'
      rw [hPQ]
      simpa using hb.infix (s.toList ++ P) Q
theorem SubAll.blocks (ht : TreeOK n tree) {srt : List SepTree → List SepTree} (hs : SortsBySize srt) {ts : List SepTree} {rs : List Nat}
    (h : SubAll tree ts rs) : ∀ x, (∃ r ∈ rs, Anc (par tree) x r) → ∃ u ∈ sortChildren.all srt ts, Block tree u.toList x :=
  match h with
  | .nil => by intro x ⟨r, hr, _⟩; simp at hr
  | .cons (t := t) (ts := ts) h1 h2 => by
    intro x ⟨r, hr, hx⟩
    rw [sortChildren.all]
    rcases List.mem_cons.1 hr with rfl | hr
    · exact ⟨_, by simp, SubOK.blocks ht hs h1 x hx⟩
    · obtain ⟨u, hu, hb⟩ := SubAll.blocks ht hs h2 x ⟨r, hr, hx⟩
      exact ⟨u, by simp [hu], hb⟩
end

theorem new_blocks (ht : TreeOK n tree) {srt : List SepTree → List SepTree} (hs : SortsBySize srt) {t : SepTree} (h : SepTree.new tree = some t) :
    ∀ x, x < n → Block tree (sortChildren srt t).toList x := by
  obtain ⟨cs, h1, h2⟩ := SepTree.new_spec ht
  rw [h] at h1; simp at h1; subst h1
  intro x hx
  obtain ⟨u, hu, hb⟩ := SubAll.blocks ht hs h2 x (exists_root ht hx)
  have hu' : u ∈ srt (sortChildren.all srt cs) := (hs _).1.mem_iff.2 hu
  obtain ⟨P, Q, hPQ⟩ := flatten_split hu'
  rw [sortChildren, SepTree.toList, hPQ]
  simpa [SepNodes.toList, rangeList] using hb.infix P Q

/-! ### Sizes of siblings -/

open Classical in
/-- the number of descendants -/
noncomputable def size (tree : List (Option Nat)) (x : Nat) : Nat := ((List.range tree.length).filter (fun v => decide (Anc (par tree) v x))).length

theorem size_eq (ht : TreeOK n tree) {x : Nat} (hx : x < n) {l : List Nat} (hl : l.Nodup) (hm : ∀ v, v ∈ l ↔ Anc (par tree) v x) : size tree x = l.length := by
  classical
  refine List.Perm.length_eq ((List.perm_ext_iff_of_nodup (List.nodup_range.sublist List.filter_sublist) hl).2 ?_)
  intro v
  simp only [List.mem_filter, List.mem_range, decide_eq_true_eq, hm, ht.len]
  exact ⟨fun h => h.2, fun h => ⟨anc_lt' ht h hx, h⟩⟩

theorem SubOK.size (ht : TreeOK n tree) {t : SepTree} {r : Nat} (h : SubOK tree t r) (hr : r < n) : t.num = size tree r := by
  rw [size_eq ht hr (h.nodup ht) (h.mem ht), h.num]

theorem sublist_or {α : Type} {a b : α} (hab : a ≠ b) : ∀ {l : List α}, a ∈ l → b ∈ l → [a, b].Sublist l ∨ [b, a].Sublist l
  | [], ha, _ => by simp at ha
  | x :: l, ha, hb => by
    rcases List.mem_cons.1 ha with rfl | ha'
    · rcases List.mem_cons.1 hb with rfl | hb'
      · exact absurd rfl hab
      · exact .inl (List.Sublist.cons_cons _ (List.singleton_sublist.2 hb'))
    · rcases List.mem_cons.1 hb with rfl | hb'
      · exact .inr (List.Sublist.cons_cons _ (List.singleton_sublist.2 ha'))
      · rcases sublist_or hab ha' hb' with h | h
        · exact .inl (h.cons _)
        · exact .inr (h.cons _)

theorem toList_all_sublist {a b : List SepTree} (h : a.Sublist b) : (SepTree.toList.all a).Sublist (SepTree.toList.all b) := by
  induction h with
  | slnil => exact List.Sublist.refl _
  | cons t _ ih => rw [SepTree.toList.all]; exact ih.trans (List.sublist_append_right _ _)
  | cons_cons t _ ih => rw [SepTree.toList.all, SepTree.toList.all]; exact (List.Sublist.refl _).append ih

theorem SubAll.get {ts : List SepTree} {rs : List Nat} (h : SubAll tree ts rs) : ∀ r ∈ rs, ∃ t ∈ ts, SubOK tree t r :=
  match h with
  | .nil => by intro r hr; simp at hr
  | .cons (t := t) h1 h2 => by
    intro r hr
    rcases List.mem_cons.1 hr with rfl | hr
    · exact ⟨t, by simp, h1⟩
    · obtain ⟨u, hu, h3⟩ := SubAll.get h2 r hr
      exact ⟨u, by simp [hu], h3⟩

/-- Of two siblings, the smaller one comes first in `L`. -/
def SmallFirst (tree : List (Option Nat)) (L : List Nat) (a b : Nat) : Prop :=
  ([a, b].Sublist L ∧ size tree a ≤ size tree b) ∨ ([b, a].Sublist L ∧ size tree b ≤ size tree a)

theorem SmallFirst.mono {L L' : List Nat} {a b : Nat} (h : SmallFirst tree L a b) (hs : L.Sublist L') : SmallFirst tree L' a b := by
  rcases h with ⟨h, h'⟩ | ⟨h, h'⟩
  · exact .inl ⟨h.trans hs, h'⟩
  · exact .inr ⟨h.trans hs, h'⟩

theorem SubAll.level (ht : TreeOK n tree) {srt : List SepTree → List SepTree} (hs : SortsBySize srt) {ts : List SepTree} {rs : List Nat}
    (h : SubAll tree ts rs) (hrs : ∀ x ∈ rs, x < n) {a b : Nat} (ha : a ∈ rs) (hb : b ∈ rs) (hab : a ≠ b) (hp : par tree a = par tree b) :
    SmallFirst tree (SepTree.toList.all (srt (sortChildren.all srt ts))) a b := by
  obtain ⟨t, ht1, hta⟩ := h.get a ha
  obtain ⟨u, hu1, hub⟩ := h.get b hb
  have hmem : ∀ t ∈ ts, sortChildren srt t ∈ srt (sortChildren.all srt ts) := by
    intro t h; refine (hs _).1.mem_iff.2 ?_; rw [sortChildren_all_eq]; exact List.mem_map_of_mem h
  have hma : a ∈ (sortChildren srt t).toList := (sortChildren_perm hs t).mem_iff.2 ((hta.mem ht a).2 (.refl a))
  have hmb : b ∈ (sortChildren srt u).toList := (sortChildren_perm hs u).mem_iff.2 ((hub.mem ht b).2 (.refl b))
  have hne : sortChildren srt t ≠ sortChildren srt u := by
    intro heq
    rw [heq] at hma
    have h1 := (hub.mem ht a).1 ((sortChildren_perm hs u).mem_iff.1 hma)
    exact anc_disjoint ht hab hp (.refl a) h1
  have ha' := hta.size ht (hrs a ha)
  have hb' := hub.size ht (hrs b hb)
  rcases sublist_or hne (hmem t ht1) (hmem u hu1) with hl | hl
  · left
    refine ⟨List.Sublist.trans ?_ (toList_all_sublist hl), ?_⟩
    · simp only [SepTree.toList.all, List.append_nil]
      exact (List.singleton_sublist.2 hma).append (List.singleton_sublist.2 hmb)
    · have := ((hs (sortChildren.all srt ts)).2.sublist hl)
      simp [sortChildren_num] at this; omega
  · right
    refine ⟨List.Sublist.trans ?_ (toList_all_sublist hl), ?_⟩
    · simp only [SepTree.toList.all, List.append_nil]
      exact (List.singleton_sublist.2 hmb).append (List.singleton_sublist.2 hma)
    · have := ((hs (sortChildren.all srt ts)).2.sublist hl)
      simp [sortChildren_num] at this; omega

theorem ChainOK.inner {r last : Nat} {l : List Nat} (h : ChainOK tree r l last) : ∀ p ∈ l, p = last ∨ ∃ c, kids tree p = [c] := by
  induction h with
  | single _ => intro p hp; simp at hp; exact .inl hp
  | @cons r c last l hk h ih =>
    intro p hp
    rcases List.mem_cons.1 hp with rfl | hp
    · exact .inr ⟨c, hk⟩
    · exact ih p hp

mutual
theorem SubOK.siblings (ht : TreeOK n tree) {srt : List SepTree → List SepTree} (hs : SortsBySize srt) {t : SepTree} {r : Nat} (h : SubOK tree t r) :
    ∀ p a b, Anc (par tree) p r → par tree a = some p → par tree b = some p → a ≠ b → SmallFirst tree (sortChildren srt t).toList a b :=
  match h with
  | .mk (s := s) (cs := cs) (k := k) (last := last) h1 h2 h3 hcan => by
    intro p a b hp ha hb hab
    rw [sortChildren, SepTree.toList]
    have hkl : ∀ x ∈ kids tree last, x < n := fun x hx => by have := ht.up ((mem_kids ht).1 hx); omega
    rcases (h1.anc ht p).1 hp with hp | ⟨k, hk, hp⟩
    · rcases h1.inner p hp with rfl | ⟨c, hc⟩
      · exact (SubAll.level ht hs h2 hkl ((mem_kids ht).2 ha) ((mem_kids ht).2 hb) hab (ha.trans hb.symm)).mono (List.sublist_append_right _ _)
      · exfalso
        have h4 := (mem_kids ht).2 ha
        have h5 := (mem_kids ht).2 hb
        rw [hc] at h4 h5; simp at h4 h5; omega
    · obtain ⟨u, hu, hsf⟩ := SubAll.siblings ht hs h2 p a b k hk hp ha hb hab
      have hu' : u ∈ srt (sortChildren.all srt cs) := (hs _).1.mem_iff.2 hu
      obtain ⟨P, Q, hPQ⟩ := flatten_split hu'
      refine hsf.mono ?_
      rw [hPQ]
      exact (List.sublist_append_left _ _).trans ((List.sublist_append_right _ _).trans (List.sublist_append_right _ _))
theorem SubAll.siblings (ht : TreeOK n tree) {srt : List SepTree → List SepTree} (hs : SortsBySize srt) {ts : List SepTree} {rs : List Nat}
    (h : SubAll tree ts rs) : ∀ p a b k, k ∈ rs → Anc (par tree) p k → par tree a = some p → par tree b = some p → a ≠ b →
      ∃ u ∈ sortChildren.all srt ts, SmallFirst tree u.toList a b :=
  match h with
  | .nil => by intro p a b k hk; simp at hk
  | .cons (t := t) (ts := ts) h1 h2 => by
    intro p a b k hk hp ha hb hab
    rw [sortChildren.all]
    rcases List.mem_cons.1 hk with rfl | hk
    · exact ⟨_, by simp, SubOK.siblings ht hs h1 p a b hp ha hb hab⟩
    · obtain ⟨u, hu, hb⟩ := SubAll.siblings ht hs h2 p a b k hk hp ha hb hab
      exact ⟨u, by simp [hu], hb⟩
end

theorem mem_rootsOf (ht : TreeOK n tree) {v : Nat} : v ∈ rootsOf tree ↔ v < n ∧ par tree v = none := by
  simp [rootsOf, ht.len]

theorem new_siblings (ht : TreeOK n tree) {srt : List SepTree → List SepTree} (hs : SortsBySize srt) {t : SepTree} (h : SepTree.new tree = some t)
    {a b : Nat} (ha : a < n) (hb : b < n) (hab : a ≠ b) (hp : par tree a = par tree b) : SmallFirst tree (sortChildren srt t).toList a b := by
  obtain ⟨cs, h1, h2⟩ := SepTree.new_spec ht
  rw [h] at h1; simp at h1; subst h1
  rw [sortChildren, SepTree.toList]
  have hrs : ∀ x ∈ rootsOf tree, x < n := fun x hx => ((mem_rootsOf ht).1 hx).1
  refine SmallFirst.mono ?_ (List.sublist_append_right _ _)
  cases hpa : par tree a with
  | none => exact h2.level ht hs hrs ((mem_rootsOf ht).2 ⟨ha, hpa⟩) ((mem_rootsOf ht).2 ⟨hb, hp ▸ hpa⟩) hab hp
  | some p =>
    have hpn := (ht.up hpa).2
    obtain ⟨r, hr, hpr⟩ := exists_root ht hpn
    obtain ⟨u, hu, hsf⟩ := SubAll.siblings ht hs h2 p a b r hr hpr hpa (hp ▸ hpa) hab
    have hu' : u ∈ srt (sortChildren.all srt cs) := (hs _).1.mem_iff.2 hu
    obtain ⟨P, Q, hPQ⟩ := flatten_split hu'
    rw [hPQ]
    exact hsf.mono ((List.sublist_append_left _ _).trans (List.sublist_append_right _ _))

/-! ### Trees that pass the validation -/

/-- The condition on the elimination tree: subtrees are ranges, and among siblings the larger subtree comes first. -/
structure Parallel (n : Nat) (tree : List (Option Nat)) : Prop where
  range : ∀ r, r < n → size tree r ≤ r + 1 ∧ ∀ v, Anc (par tree) v r ↔ r + 1 - size tree r ≤ v ∧ v ≤ r
  sizes : ∀ a b, a < b → b < n → par tree a = par tree b → size tree b ≤ size tree a

theorem Parallel.chain (hP : Parallel n tree) (ht : TreeOK n tree) {r last : Nat} {l : List Nat} (h : ChainOK tree r l last) :
    r < n → last ≤ r ∧ l = (rangeList last (r + 1)).reverse := by
  induction h with
  | @single r _ => intro hr; exact ⟨Nat.le_refl _, by simp [rangeList]⟩
  | @cons r c last l hk h ih =>
    intro hr
    have hcr := (mem_kids ht).1 (show c ∈ kids tree r by rw [hk]; simp)
    have hlt := ht.up hcr
    obtain ⟨h1, h2⟩ := hP.range r hr
    have h3 := (h2 c).1 (.step hcr (.refl r))
    have h4 := (h2 (r - 1)).2 (by omega)
    rcases (anc_kids ht).1 h4 with h5 | ⟨k, h5, h6⟩
    · omega
    · rw [hk] at h5; simp at h5; subst h5
      have := anc_le ht h6
      obtain ⟨h7, h8⟩ := ih (by omega)
      refine ⟨by omega, ?_⟩
      rw [rangeList_snoc (by omega : last < r + 1), h8, show r + 1 - 1 = k + 1 by omega]
      simp
      omega

theorem Parallel.checkChildren (hP : Parallel n tree) (ht : TreeOK n tree) {ts : List SepTree} {rs : List Nat} (h : SubAll tree ts rs) :
    ∀ (p : Option Nat) (start fin : Nat), rs.Pairwise (· < ·) → (∀ x ∈ rs, x < n ∧ par tree x = p) →
    (∀ v, (∃ k ∈ rs, Anc (par tree) v k) ↔ start ≤ v ∧ v < fin) → checkChildren start ts = some () :=
  match h with
  | .nil => by intros; rfl
  | .cons (t := t) (ts := ts) (r := k) (rs := rs) h1 h2 => by
    intro p start fin hpw hrs hcov
    obtain ⟨hkn, hkp⟩ := hrs k (by simp)
    obtain ⟨h3, h4⟩ := hP.range k hkn
    have hnum := h1.size ht hkn
    have hpos : 1 ≤ size tree k := by have := (h4 k).1 (.refl k); omega
    have hlow : start ≤ k + 1 - size tree k := ((hcov _).1 ⟨k, by simp, (h4 _).2 ⟨Nat.le_refl _, by omega⟩⟩).1
    have hkf : k < fin := ((hcov k).1 ⟨k, by simp, .refl k⟩).2
    have hstart : start = k + 1 - size tree k := by
      by_cases hc : start = k + 1 - size tree k
      · exact hc
      · exfalso
        obtain ⟨k', hk', ha⟩ := (hcov start).2 ⟨Nat.le_refl _, by omega⟩
        rcases List.mem_cons.1 hk' with rfl | hk''
        · have := (h4 start).1 ha; omega
        · have hlt := List.rel_of_pairwise_cons hpw hk''
          obtain ⟨hk1, hk2⟩ := hrs k' hk'
          obtain ⟨_, h6⟩ := hP.range k' hk1
          have h7 := (h6 start).1 ha
          have h8 := (h6 k).2 ⟨by omega, by omega⟩
          exact anc_disjoint ht (show k ≠ k' by omega) (hkp.trans hk2.symm) (.refl k) h8
    rw [CCH.checkChildren]
    simp only [h1.highest ht, Option.bind_eq_bind, Option.bind_some, sub32, hnum, if_pos h3, if_pos hstart]
    refine Parallel.checkChildren hP ht h2 p _ fin (List.Pairwise.of_cons hpw) (fun x hx => hrs x (by simp [hx])) ?_
    intro v
    constructor
    · rintro ⟨k', hk', ha⟩
      have hb := (hcov v).1 ⟨k', by simp [hk'], ha⟩
      have hlt := List.rel_of_pairwise_cons hpw hk'
      have hnot := anc_disjoint ht (show k' ≠ k by omega) ((hrs k' (by simp [hk'])).2.trans hkp.symm) ha
      rw [h4] at hnot
      omega
    · intro hv
      obtain ⟨k', hk', ha⟩ := (hcov v).2 (by omega)
      rcases List.mem_cons.1 hk' with rfl | hk'
      · have := (h4 v).1 ha; omega
      · exact ⟨k', hk', ha⟩

theorem Parallel.checkSizes (hP : Parallel n tree) (ht : TreeOK n tree) : ∀ {ts : List SepTree} {rs : List Nat} (h : SubAll tree ts rs)
    (p : Option Nat), rs.Pairwise (· < ·) → (∀ x ∈ rs, x < n ∧ par tree x = p) → checkSizes ts = true := by
  intro ts
  induction ts with
  | nil => intros; rfl
  | cons t ts ih =>
    intro rs h p hpw hrs
    cases h with
    | cons h1 h2 =>
      have ih' := ih h2 p hpw.of_cons (fun x hx => hrs x (by simp [hx]))
      cases h2 with
      | nil => rfl
      | @cons u us k' rs' h3 h4 =>
        rename_i k
        rw [CCH.checkSizes, ih']
        have hk := hrs k (by simp)
        have hk' := hrs k' (by simp)
        have hlt : k < k' := List.rel_of_pairwise_cons hpw (by simp)
        rw [h1.size ht hk.1, h3.size ht hk'.1]
        simpa using hP.sizes k k' hlt hk'.1 (hk.2.trans hk'.2.symm)

mutual
theorem SubOK.validates (hP : Parallel n tree) (ht : TreeOK n tree) {t : SepTree} {r : Nat} (h : SubOK tree t r) (hr : r < n) : validate t = some () :=
  match h with
  | .mk (s := s) (cs := cs) (k := k) (last := last) h1 h2 h3 hcan => by
    obtain ⟨hl, hsl⟩ := hP.chain ht h1 hr
    have hs := hcan last (r + 1) (by omega) hsl
    have hk : k = CCH.size tree r := (SubOK.mk h1 h2 h3 hcan).size ht hr
    have hhi : s.highest = some r := (h1.lower ht).2.2
    obtain ⟨h4, h5⟩ := hP.range r hr
    have hpos : 1 ≤ CCH.size tree r := by have := (h5 r).1 (.refl r); omega
    have hpw := kids_sorted (tree := tree) last
    have hrs : ∀ x ∈ kids tree last, x < n ∧ par tree x = some last := fun x hx => by
      have := (mem_kids ht).1 hx; have h := ht.up this; exact ⟨by omega, this⟩
    have hcc := hP.checkChildren ht h2 (some last) (r + 1 - CCH.size tree r) last hpw hrs (by
      intro v
      have h6 := h1.anc ht v
      rw [h5, hsl, List.mem_reverse, mem_rangeList] at h6
      constructor
      · intro h7
        have h8 : v < last := by
          obtain ⟨k, hk, ha⟩ := h7
          have := anc_le ht ha
          have := (ht.up ((mem_kids ht).1 hk)).1
          omega
        have := h6.2 (.inr h7)
        omega
      · intro h7
        rcases h6.1 (by omega) with h8 | h8
        · omega
        · exact h8)
    rw [validate]
    have hcon : s.isConsecutive = true := by rw [hs]; rfl
    simp only [hcon, Bool.not_true, Bool.false_eq_true, if_false, sub32, hhi, Option.getD_some, Option.bind_eq_bind, Option.bind_some, hk, if_pos hpos, if_pos h4, hcc,
      hP.checkSizes ht h2 (some last) hpw hrs]
    exact SubAll.validates hP ht h2 (fun x hx => (hrs x hx).1)
theorem SubAll.validates (hP : Parallel n tree) (ht : TreeOK n tree) {ts : List SepTree} {rs : List Nat} (h : SubAll tree ts rs) (hr : ∀ x ∈ rs, x < n) :
    validate.all ts = some () :=
  match h with
  | .nil => by rw [validate.all]
  | .cons (r := r) h1 h2 => by
    rw [validate.all, SubOK.validates hP ht h1 (hr r (by simp))]
    exact SubAll.validates hP ht h2 (fun x hx => hr x (by simp [hx]))
end

theorem Parallel.validates (hP : Parallel n tree) (ht : TreeOK n tree) (hn : 0 < n) {t : SepTree} (h : SepTree.new tree = some t) : validate t = some () := by
  obtain ⟨cs, h1, h2⟩ := SepTree.new_spec ht
  have hnum := (SepTree.new_perm ht h).2
  rw [h] at h1; simp at h1; subst h1
  simp only [SepTree.num] at hnum
  have hpw : (rootsOf tree).Pairwise (· < ·) := List.Pairwise.filter _ List.pairwise_lt_range
  have hrs : ∀ x ∈ rootsOf tree, x < n ∧ par tree x = none := fun x hx => (mem_rootsOf ht).1 hx
  have hcc := hP.checkChildren ht h2 none 0 n hpw hrs (by
    intro v
    constructor
    · rintro ⟨r, hr, ha⟩; exact ⟨Nat.zero_le _, anc_lt' ht ha (hrs r hr).1⟩
    · intro hv; exact exists_root ht hv.2)
  rw [validate]
  have h0 : (SepNodes.consecutive 0 0).highest = none := rfl
  have h3 : n ≤ n - 1 + 1 := by omega
  have h4 : n - 1 + 1 - n = 0 := by omega
  simp only [SepNodes.isConsecutive, Bool.not_true, Bool.false_eq_true, if_false, sub32, h0, Option.getD_none, Option.bind_eq_bind, Option.bind_some, hnum,
    if_pos (show 1 ≤ n from hn), if_pos h3, h4, hcc, hP.checkSizes ht h2 none hpw hrs]
  exact SubAll.validates hP ht h2 (fun x hx => (hrs x hx).1)

end CCH
end Verif
