import Verif.Model.Separator
import Verif.Proof.CCHQuery
set_option linter.unusedSimpArgs false
set_option linter.unusedVariables false
/- Separator trees: construction from the elimination tree. -/
namespace Verif
namespace CCH
open Spec
variable {n : Nat} {tree : List (Option Nat)}

/-- The children of a node in the elimination tree, ascending. -/
def kids (tree : List (Option Nat)) (p : Nat) : List Nat := (List.range tree.length).filter (fun v => par tree v = some p)

theorem mem_kids (ht : TreeOK n tree) {v p : Nat} : v ∈ kids tree p ↔ par tree v = some p := by
  simp only [kids, List.mem_filter, List.mem_range, decide_eq_true_eq]
  constructor
  · exact fun h => h.2
  · intro h
    exact ⟨by rw [ht.len]; have := ht.up h; omega, h⟩

theorem kids_nodup (p : Nat) : (kids tree p).Nodup := List.nodup_range.sublist List.filter_sublist

theorem kids_sorted (p : Nat) : (kids tree p).Pairwise (· < ·) := List.Pairwise.filter _ List.pairwise_lt_range

/-- The roots, ascending. -/
def rootsOf (tree : List (Option Nat)) : List Nat := (List.range tree.length).filter (fun v => par tree v = none)

namespace Children
def toList : Children → List Nat
  | .none => []
  | .one c => [c]
  | .many l => l

/-- `many` is used for at least two children -/
def WF : Children → Prop
  | .many l => 2 ≤ l.length
  | _ => True

theorem toList_add (c : Children) (v : Nat) : (c.add v).toList = c.toList ++ [v] := by cases c <;> rfl
theorem wf_add {c : Children} (h : c.WF) (v : Nat) : (c.add v).WF := by cases c <;> simp_all [WF, add] <;> omega
end Children

theorem collectChildren_spec (ht : TreeOK n tree) : ∀ (ps : List (Option Nat)) (i : Nat) (st : List Children × List Nat),
    tree = tree.take i ++ ps → i + ps.length = n → st.1.length = n →
    (∀ p, p < n → ∃ c, st.1[p]? = some c ∧ c.WF ∧ c.toList = (List.range i).filter (fun v => par tree v = some p)) →
    st.2 = (List.range i).filter (fun v => par tree v = none) →
    ∃ ch, collectChildren i ps st = some (ch, rootsOf tree) ∧ ch.length = n ∧ ∀ p, p < n → ∃ c, ch[p]? = some c ∧ c.WF ∧ c.toList = kids tree p := by
  intro ps
  induction ps with
  | nil =>
    intro i st hE hi hl hc hr
    have : i = tree.length := by rw [ht.len]; simpa using hi
    subst this
    refine ⟨st.1, ?_, hl, hc⟩
    rw [show rootsOf tree = st.2 from hr.symm]; rfl
  | cons q ps ih =>
    intro i st hE hi hl hc hr
    have hin : i < n := by simp at hi; omega
    have hpar : par tree i = q := by
      have : tree[i]? = some q := by
        have : (tree.take i).length = i := by rw [List.length_take, ht.len]; omega
        rw [hE, List.getElem?_append_right (by omega), this]; simp
      simp [par, this]
    have hE' : tree = tree.take (i + 1) ++ ps := by
      have h1 : i < tree.length := by rw [ht.len]; exact hin
      have h2 : tree.drop i = q :: ps := by
        have : (tree.take i ++ tree.drop i) = tree.take i ++ (q :: ps) := by rw [List.take_append_drop]; exact hE
        exact List.append_cancel_left this
      have h3 : tree.drop (i + 1) = ps := by
        have : tree.drop (i + 1) = (tree.drop i).drop 1 := by rw [List.drop_drop]
        rw [this, h2]; rfl
      conv => lhs; rw [← List.take_append_drop (i + 1) tree, h3]
    have hir : ∀ (f : Nat → Bool), (List.range (i + 1)).filter f = (List.range i).filter f ++ (if f i then [i] else []) := by
      intro f; rw [List.range_succ, List.filter_append]; cases h : f i <;> simp [h]
    cases q with
    | none =>
      obtain ⟨ch, h1, h2, h3⟩ := ih (i + 1) (st.1, st.2 ++ [i]) hE' (by simp at hi; omega) hl (by
        intro p hp
        obtain ⟨c, h1, h2, h3⟩ := hc p hp
        exact ⟨c, h1, h2, by rw [h3, hir]; simp [hpar]⟩) (by simp only [hr, hir]; simp [hpar])
      exact ⟨ch, by simpa only [collectChildren] using h1, h2, h3⟩
    | some p =>
      have hp : p < n := (ht.up hpar).2
      obtain ⟨c, h1, h2, h3⟩ := hc p hp
      obtain ⟨ch, k1, k2, k3⟩ := ih (i + 1) (st.1.set p (c.add i), st.2) hE' (by simp at hi; omega) (by simpa using hl) (by
        intro p' hp'
        obtain ⟨c', h1', h2', h3'⟩ := hc p' hp'
        by_cases hpp : p' = p
        · subst hpp
          refine ⟨c.add i, by simp [hl, hp'], Children.wf_add h2 _, ?_⟩
          rw [Children.toList_add, h3, hir]; simp [hpar]
        · refine ⟨c', by rw [List.getElem?_set_ne (by omega)]; exact h1', h2', ?_⟩
          rw [h3', hir]; simp [hpar, Ne.symm hpp]) (by simp only [hr, hir]; simp [hpar])
      refine ⟨ch, ?_, k2, k3⟩
      simp only [collectChildren, h1, Option.bind_eq_bind, Option.bind_some, upd_of_lt _ (show p < st.1.length by omega)]
      exact k1

/-! ### Structure of the tree -/

/-- a chain of only children from `r` down to `last` -/
inductive ChainOK (tree : List (Option Nat)) : Nat → List Nat → Nat → Prop
  | single {r : Nat} : (∀ c, kids tree r ≠ [c]) → ChainOK tree r [r] r
  | cons {r c last : Nat} {l : List Nat} : kids tree r = [c] → ChainOK tree c l last → ChainOK tree r (r :: l) last

/-- ranges are stored as ranges -/
def SepNodes.Canon (s : SepNodes) : Prop := ∀ a b, a < b → s.toList = (rangeList a b).reverse → s = .consecutive a b

mutual
/-- `t` is the separator tree of the subtree of `root` -/
inductive SubOK (tree : List (Option Nat)) : SepTree → Nat → Prop
  | mk {s : SepNodes} {cs : List SepTree} {k root last : Nat} : ChainOK tree root s.toList last → SubAll tree cs (kids tree last) →
      k = s.len + (cs.map SepTree.num).sum → s.Canon → SubOK tree (.mk s cs k) root
/-- separator trees for several nodes -/
inductive SubAll (tree : List (Option Nat)) : List SepTree → List Nat → Prop
  | nil : SubAll tree [] []
  | cons {t : SepTree} {ts : List SepTree} {r : Nat} {rs : List Nat} : SubOK tree t r → SubAll tree ts rs → SubAll tree (t :: ts) (r :: rs)
end

theorem rangeList_succ {a b : Nat} (h : a < b) : rangeList a b = a :: rangeList (a + 1) b := by
  simp only [rangeList]
  rw [show b - a = (b - (a + 1)) + 1 by omega, List.range'_succ]

theorem mem_rangeList {a b v : Nat} : v ∈ rangeList a b ↔ a ≤ v ∧ v < b := by
  simp only [rangeList, List.mem_range'_1]; omega

theorem length_rangeList {a b : Nat} : (rangeList a b).length = b - a := by simp [rangeList]

theorem nodup_rangeList {a b : Nat} : (rangeList a b).Nodup := List.nodup_range'

theorem SepNodes.toList_push (s : SepNodes) (v : Nat) (h : ∀ a b, s = .consecutive a b → a < b) : (s.push v).toList = s.toList ++ [v] := by
  cases s with
  | random l => rfl
  | consecutive a b =>
    have hab := h a b rfl
    by_cases hc : 0 < a ∧ v = a - 1
    · simp only [push, if_pos hc, toList]
      rw [rangeList_succ (a := a - 1) (by omega), show a - 1 + 1 = a by omega]
      simp [hc.2]
    · simp only [push, if_neg hc, toList]

theorem SepNodes.push_ne (s : SepNodes) (v : Nat) (h : ∀ a b, s = .consecutive a b → a < b) : ∀ a b, s.push v = .consecutive a b → a < b := by
  intro a b
  cases s with
  | random l => simp [push]
  | consecutive a' b' =>
    have hab := h a' b' rfl
    by_cases hc : 0 < a' ∧ v = a' - 1
    · simp only [push, if_pos hc]; intro h; simp at h; omega
    · simp [push, hc]

theorem SepNodes.len_eq (s : SepNodes) : s.len = s.toList.length := by
  cases s <;> simp [len, toList, length_rangeList]

theorem rangeList_snoc {a b : Nat} (h : a < b) : rangeList a b = rangeList a (b - 1) ++ [b - 1] := by
  simp only [rangeList]
  rw [show b - a = (b - 1 - a) + 1 by omega, List.range'_concat]
  simp; omega

theorem rangeList_inj {a b a' b' : Nat} (h1 : a < b) (h2 : a' < b') (h : rangeList a b = rangeList a' b') : a = a' ∧ b = b' := by
  have hl := congrArg List.length h
  rw [rangeList_succ h1, rangeList_succ h2] at h
  simp [length_rangeList] at h hl
  omega

theorem SepNodes.canon_single (r : Nat) : (SepNodes.consecutive r (r + 1)).Canon := by
  intro a b hab h
  simp only [toList, List.reverse_inj] at h
  have := rangeList_inj (by omega) hab h
  simp; omega

theorem SepNodes.canon_push {s : SepNodes} (hs : s.Canon) (hne : ∀ a b, s = .consecutive a b → a < b) (hne' : s.toList ≠ []) (v : Nat) : (s.push v).Canon := by
  intro a b hab h
  rw [s.toList_push v hne, rangeList_succ hab] at h
  simp only [List.reverse_cons] at h
  have h' := List.append_inj' h rfl
  have hva : v = a := by simpa using h'.2
  by_cases hab' : a + 1 < b
  · have := hs (a + 1) b hab' h'.1
    subst this
    subst hva
    simp [push]
  · exfalso
    have : rangeList (a + 1) b = [] := by simp [rangeList]; omega
    rw [this] at h'
    exact hne' h'.1

theorem sepChain_spec (ht : TreeOK n tree) {ch : List Children} (hch : ∀ p, p < n → ∃ c, ch[p]? = some c ∧ c.WF ∧ c.toList = kids tree p) :
    ∀ (fuel r : Nat) (s : SepNodes), r < fuel → r < n → (∀ a b, s = .consecutive a b → a < b) → s.Canon → s.toList ≠ [] →
    ∃ last s' l, sepChain ch fuel r s = some (last, s') ∧ s'.toList = s.toList ++ l ∧ ChainOK tree r (r :: l) last ∧ last ≤ r ∧ s'.Canon := by
  intro fuel
  induction fuel with
  | zero => intro r s h; omega
  | succ fuel ih =>
    intro r s hf hr hs hcan hne
    obtain ⟨c, h1, h2, h3⟩ := hch r hr
    cases c with
    | one v =>
      have hk : kids tree r = [v] := h3.symm
      have hv : par tree v = some r := (mem_kids ht).1 (by rw [hk]; simp)
      have hlt := ht.up hv
      obtain ⟨last, s', l, k1, k2, k3, k4, k5⟩ := ih v (s.push v) (by omega) (by omega) (s.push_ne v hs) (SepNodes.canon_push hcan hs hne v)
        (by rw [s.toList_push v hs]; simp)
      refine ⟨last, s', v :: l, ?_, ?_, .cons hk k3, by omega, k5⟩
      · simp only [sepChain, h1, Option.bind_eq_bind, Option.bind_some]; exact k1
      · rw [k2, s.toList_push v hs]; simp
    | none =>
      refine ⟨r, s, [], ?_, by simp, .single ?_, Nat.le_refl _, hcan⟩
      · simp [sepChain, h1]
      · intro c hc; rw [← h3] at hc; simp [Children.toList] at hc
    | many l =>
      refine ⟨r, s, [], ?_, by simp, .single ?_, Nat.le_refl _, hcan⟩
      · simp [sepChain, h1]
      · intro c hc; rw [← h3] at hc; simp only [Children.toList] at hc; simp [Children.WF, hc] at h2

theorem ChainOK.last {r last : Nat} {l : List Nat} (h : ChainOK tree r l last) : ∀ c, kids tree last ≠ [c] := by
  induction h with
  | single h => exact h
  | cons _ _ ih => exact ih

theorem newSubtree_spec (ht : TreeOK n tree) {ch : List Children} (hch : ∀ p, p < n → ∃ c, ch[p]? = some c ∧ c.WF ∧ c.toList = kids tree p) :
    ∀ (fuel r : Nat), r < fuel → r < n → ∃ t, newSubtree ch fuel r = some t ∧ SubOK tree t r := by
  intro fuel
  induction fuel with
  | zero => intro r h; omega
  | succ fuel ih =>
    intro r hf hr
    obtain ⟨last, s, l, h1, h2, h3, h4, hcan⟩ := sepChain_spec ht hch (fuel + 1) r (.consecutive r (r + 1)) hf hr (by intro a b h; simp at h; omega)
      (SepNodes.canon_single r) (by simp [SepNodes.toList, rangeList])
    obtain ⟨c, k1, k2, k3⟩ := hch last (by omega)
    have hall : ∀ (rs : List Nat), (∀ x ∈ rs, x < last) → ∃ ts, rs.mapM (newSubtree ch fuel) = some ts ∧ SubAll tree ts rs := by
      intro rs
      induction rs with
      | nil => intro _; exact ⟨[], rfl, .nil⟩
      | cons x rs ihr =>
        intro hx
        have hxl := hx x (by simp)
        obtain ⟨t, t1, t2⟩ := ih x (by omega) (by omega)
        obtain ⟨ts, t3, t4⟩ := ihr (fun y hy => hx y (by simp [hy]))
        exact ⟨t :: ts, by simp [t1, t3], .cons t2 t4⟩
    obtain ⟨ts, t1, t2⟩ := hall (kids tree last) (fun x hx => (ht.up ((mem_kids ht).1 hx)).1)
    have hsl : s.toList = r :: l := by
      rw [h2]; simp [SepNodes.toList, rangeList_succ (show r < r + 1 by omega), rangeList]
    refine ⟨.mk s ts (s.len + (ts.map SepTree.num).sum), ?_, .mk (by rw [hsl]; exact h3) t2 rfl hcan⟩
    cases c with
    | one v => exact absurd k3.symm (h3.last v)
    | none =>
      have k3' : kids tree last = [] := k3.symm
      rw [k3'] at t1
      simp only [newSubtree, h1, k1, Option.bind_eq_bind, Option.bind_some, t1, Option.pure_def]
    | many l' =>
      have k3' : kids tree last = l' := k3.symm
      rw [k3'] at t1
      simp only [newSubtree, h1, k1, Option.bind_eq_bind, Option.bind_some, t1, Option.pure_def]

theorem SepTree.new_spec (ht : TreeOK n tree) : ∃ cs, SepTree.new tree = some (.mk (.consecutive 0 0) cs ((cs.map SepTree.num).sum)) ∧ SubAll tree cs (rootsOf tree) := by
  obtain ⟨ch, h1, h2, h3⟩ := collectChildren_spec ht tree 0 (List.replicate tree.length .none, []) (by simp) (by simp [ht.len]) (by simp [ht.len])
    (by intro p hp; exact ⟨.none, by simp [ht.len, hp], trivial, rfl⟩) rfl
  have hall : ∀ (rs : List Nat), (∀ x ∈ rs, x < n) → ∃ ts, rs.mapM (newSubtree ch tree.length) = some ts ∧ SubAll tree ts rs := by
    intro rs
    induction rs with
    | nil => intro _; exact ⟨[], rfl, .nil⟩
    | cons x rs ihr =>
      intro hx
      have hxl := hx x (by simp)
      obtain ⟨t, t1, t2⟩ := newSubtree_spec ht h3 tree.length x (by rw [ht.len]; exact hxl) hxl
      obtain ⟨ts, t3, t4⟩ := ihr (fun y hy => hx y (by simp [hy]))
      exact ⟨t :: ts, by simp [t1, t3], .cons t2 t4⟩
  obtain ⟨cs, t1, t2⟩ := hall (rootsOf tree) (by
    intro x hx
    simp only [rootsOf, List.mem_filter, List.mem_range, ht.len] at hx; exact hx.1)
  exact ⟨cs, by simp only [SepTree.new, h1, t1, Option.bind_eq_bind, Option.bind_some, Option.pure_def], t2⟩

/-! ### Nodes of the tree -/

theorem anc_kids (ht : TreeOK n tree) {v r : Nat} : Anc (par tree) v r ↔ v = r ∨ ∃ k ∈ kids tree r, Anc (par tree) v k := by
  constructor
  · intro h
    induction h with
    | refl u => exact .inl rfl
    | @step u p x hp h2 ih =>
      right
      rcases ih with rfl | ⟨k, hk, h3⟩
      · exact ⟨u, (mem_kids ht).2 hp, .refl u⟩
      · exact ⟨k, hk, .step hp h3⟩
  · rintro (rfl | ⟨k, hk, h⟩)
    · exact .refl v
    · exact h.trans (.step ((mem_kids ht).1 hk) (.refl r))

theorem anc_le (ht : TreeOK n tree) {v r : Nat} (h : Anc (par tree) v r) : v ≤ r := by
  induction h with
  | refl => exact Nat.le_refl _
  | step hp _ ih => have := ht.up hp; omega

theorem anc_total {p : Nat → Option Nat} {v a b : Nat} (h1 : Anc p v a) : Anc p v b → Anc p a b ∨ Anc p b a := by
  induction h1 with
  | refl u => intro h; exact .inl h
  | @step u q x hq h3 ih =>
    intro h2
    cases h2 with
    | refl => exact .inr (.step hq h3)
    | step hq' h4 => rw [hq] at hq'; simp at hq'; subst hq'; exact ih h4

theorem ChainOK.anc (ht : TreeOK n tree) {r last : Nat} {l : List Nat} (h : ChainOK tree r l last) :
    ∀ v, Anc (par tree) v r ↔ v ∈ l ∨ ∃ k ∈ kids tree last, Anc (par tree) v k := by
  induction h with
  | single _ => intro v; rw [anc_kids ht]; simp
  | @cons r c last l hk _ ih =>
    intro v
    rw [anc_kids ht, hk]
    simp only [List.mem_cons, List.not_mem_nil, or_false, exists_eq_left, ih, or_assoc]

theorem ChainOK.lower (ht : TreeOK n tree) {r last : Nat} {l : List Nat} (h : ChainOK tree r l last) : (∀ v ∈ l, last ≤ v ∧ v ≤ r) ∧ l.Nodup ∧ l.head? = some r := by
  induction h with
  | single _ => simp
  | @cons r c last l hk h ih =>
    obtain ⟨h1, h2, h3⟩ := ih
    have hcr : c < r := (ht.up ((mem_kids ht).1 (by rw [hk]; simp))).1
    have hc := h1 c (by cases l <;> simp at h3; subst h3; simp)
    refine ⟨?_, ?_, rfl⟩
    · intro v hv
      rcases List.mem_cons.1 hv with rfl | hv
      · omega
      · have := h1 v hv; omega
    · rw [List.nodup_cons]
      exact ⟨fun hm => by have := h1 r hm; omega, h2⟩

mutual
theorem SubOK.mem (ht : TreeOK n tree) {t : SepTree} {r : Nat} (h : SubOK tree t r) : ∀ v, v ∈ t.toList ↔ Anc (par tree) v r :=
  match h with
  | .mk (s := s) (cs := cs) h1 h2 h3 hcan => by
    intro v
    rw [SepTree.toList, List.mem_append, h1.anc ht, SubAll.mem ht h2 v]
theorem SubAll.mem (ht : TreeOK n tree) {ts : List SepTree} {rs : List Nat} (h : SubAll tree ts rs) : ∀ v, v ∈ SepTree.toList.all ts ↔ ∃ r ∈ rs, Anc (par tree) v r :=
  match h with
  | .nil => by intro v; simp [SepTree.toList.all]
  | .cons h1 h2 => by
    intro v
    rw [SepTree.toList.all, List.mem_append, SubOK.mem ht h1 v, SubAll.mem ht h2 v]
    simp
end


/-- The subtrees of different nodes with the same parent (or of different roots) are disjoint. -/
theorem anc_disjoint (ht : TreeOK n tree) {v a b : Nat} (hab : a ≠ b) (hp : par tree a = par tree b) (h1 : Anc (par tree) v a) : ¬ Anc (par tree) v b := by
  intro h2
  have key : ∀ a b, a ≠ b → par tree a = par tree b → ¬ Anc (par tree) a b := by
    intro a b hab hp h
    cases h with
    | refl => exact hab rfl
    | step hq h =>
      have h1 := anc_le ht h
      rw [hp] at hq
      have := ht.up hq
      omega
  rcases anc_total h1 h2 with h | h
  · exact key a b hab hp h
  · exact key b a (Ne.symm hab) hp.symm h

mutual
theorem SubOK.nodup (ht : TreeOK n tree) {t : SepTree} {r : Nat} (h : SubOK tree t r) : t.toList.Nodup :=
  match h with
  | .mk (s := s) (cs := cs) (last := last) h1 h2 h3 hcan => by
    rw [SepTree.toList, List.nodup_append]
    refine ⟨(h1.lower ht).2.1, SubAll.nodup ht h2 (kids_nodup last) (some last) (fun x hx => (mem_kids ht).1 hx), ?_⟩
    intro a ha b hb hab
    subst hab
    obtain ⟨k, hk, h4⟩ := (SubAll.mem ht h2 a).1 hb
    have := anc_le ht h4
    have := (ht.up ((mem_kids ht).1 hk)).1
    have := ((h1.lower ht).1 a ha).1
    omega
theorem SubAll.nodup (ht : TreeOK n tree) {ts : List SepTree} {rs : List Nat} (h : SubAll tree ts rs) :
    rs.Nodup → ∀ p, (∀ x ∈ rs, par tree x = p) → (SepTree.toList.all ts).Nodup :=
  match h with
  | .nil => by intro _ _ _; simp [SepTree.toList.all]
  | .cons (r := r) (rs := rs) h1 h2 => by
    intro hnd p hp
    rw [List.nodup_cons] at hnd
    rw [SepTree.toList.all, List.nodup_append]
    refine ⟨SubOK.nodup ht h1, SubAll.nodup ht h2 hnd.2 p (fun x hx => hp x (by simp [hx])), ?_⟩
    intro a ha b hb hab
    subst hab
    obtain ⟨k, hk, h4⟩ := (SubAll.mem ht h2 a).1 hb
    have h5 := (SubOK.mem ht h1 a).1 ha
    refine anc_disjoint ht (a := r) (b := k) ?_ ?_ h5 h4
    · rintro rfl; exact hnd.1 hk
    · rw [hp r (by simp), hp k (by simp [hk])]
end

mutual
theorem SubOK.num {t : SepTree} {r : Nat} (h : SubOK tree t r) : t.num = t.toList.length :=
  match h with
  | .mk (s := s) (cs := cs) h1 h2 h3 hcan => by
    rw [SepTree.toList, List.length_append, ← SubAll.num h2, SepTree.num, h3, SepNodes.len_eq]
theorem SubAll.num {ts : List SepTree} {rs : List Nat} (h : SubAll tree ts rs) : (ts.map SepTree.num).sum = (SepTree.toList.all ts).length :=
  match h with
  | .nil => by simp [SepTree.toList.all]
  | .cons h1 h2 => by
    rw [SepTree.toList.all, List.length_append, ← SubAll.num h2, ← SubOK.num h1]
    simp
end

theorem SubOK.highest (ht : TreeOK n tree) {t : SepTree} {r : Nat} (h : SubOK tree t r) : t.nodes.highest = some r := by
  cases h with
  | mk h1 h2 h3 _ => exact (h1.lower ht).2.2

/-- Every node has a root. -/
theorem exists_root (ht : TreeOK n tree) {v : Nat} (hv : v < n) : ∃ r ∈ rootsOf tree, Anc (par tree) v r := by
  have key : ∀ k v, v < n → n - v ≤ k → ∃ r ∈ rootsOf tree, Anc (par tree) v r := by
    intro k
    induction k with
    | zero => intro v hv hk; omega
    | succ k ih =>
      intro v hv hk
      cases hp : par tree v with
      | none => exact ⟨v, by simp [rootsOf, ht.len, hv, hp], .refl v⟩
      | some p =>
        have := ht.up hp
        obtain ⟨r, h1, h2⟩ := ih p (by omega) (by omega)
        exact ⟨r, h1, .step hp h2⟩
  exact key (n - v) v hv (Nat.le_refl _)

theorem anc_lt' (ht : TreeOK n tree) {v r : Nat} (h : Anc (par tree) v r) (hr : r < n) : v < n := by
  have := anc_le ht h; omega

/-- The separator tree has every node exactly once. -/
theorem SepTree.new_perm (ht : TreeOK n tree) {t : SepTree} (h : SepTree.new tree = some t) : t.toList.Perm (List.range n) ∧ t.num = n := by
  obtain ⟨cs, h1, h2⟩ := SepTree.new_spec ht
  rw [h] at h1; simp at h1; subst h1
  have hnd : (SepTree.toList.all cs).Nodup := SubAll.nodup ht h2 (List.nodup_range.sublist List.filter_sublist) none (by
    intro x hx; simp [rootsOf] at hx; exact hx.2)
  have hp : (SepTree.toList.all cs).Perm (List.range n) := by
    rw [List.perm_ext_iff_of_nodup hnd List.nodup_range]
    intro v
    rw [SubAll.mem ht h2 v, List.mem_range]
    constructor
    · rintro ⟨r, hr, ha⟩
      simp only [rootsOf, List.mem_filter, List.mem_range, ht.len] at hr
      exact anc_lt' ht ha hr.1
    · exact fun hv => exists_root ht hv
  refine ⟨by simpa [SepTree.toList, SepNodes.toList, rangeList] using hp, ?_⟩
  rw [SepTree.num, SubAll.num h2, hp.length_eq, List.length_range]

/-! ### Validated trees: cells are ranges -/

theorem sub32_some {a b r : Nat} (h : sub32 a b = some r) : b ≤ a ∧ r = a - b := by
  simp only [sub32] at h
  split at h
  · simp at h; exact ⟨by assumption, h.symm⟩
  · simp at h

theorem validate_mk {s : SepNodes} {cs : List SepTree} {k : Nat} (h : validate (.mk s cs k) = some ()) :
    (∃ a b, s = .consecutive a b) ∧ (∃ start, 1 ≤ k ∧ k ≤ s.highest.getD (k - 1) + 1 ∧ start = s.highest.getD (k - 1) + 1 - k ∧
      checkChildren start cs = some ()) ∧ checkSizes cs = true ∧ validate.all cs = some () := by
  rw [validate] at h
  cases s with
  | random l => simp [SepNodes.isConsecutive] at h
  | consecutive a b =>
    simp only [SepNodes.isConsecutive, Bool.not_true, Bool.false_eq_true, if_false, Option.bind_eq_bind, Option.bind_eq_some_iff] at h
    obtain ⟨d, h1, start, h2, _, h3, h4⟩ := h
    obtain ⟨h5, rfl⟩ := sub32_some h1
    obtain ⟨h6, rfl⟩ := sub32_some h2
    refine ⟨⟨a, b, rfl⟩, ⟨_, h5, h6, rfl, h3⟩, ?_⟩
    cases hs : checkSizes cs with
    | false => simp [hs] at h4
    | true => simp [hs] at h4; exact ⟨rfl, h4⟩

mutual
theorem SubOK.range (ht : TreeOK n tree) {t : SepTree} {r : Nat} (h : SubOK tree t r) : validate t = some () →
    t.num ≤ r + 1 ∧ ∀ v, v ∈ t.toList ↔ r + 1 - t.num ≤ v ∧ v < r + 1 :=
  match h with
  | .mk (s := s) (cs := cs) (k := k) (last := last) h1 h2 h3 hcan => by
    intro hv
    obtain ⟨⟨a, b, rfl⟩, ⟨start, h4, h5, h6, h7⟩, _, h8⟩ := validate_mk hv
    have hh : (SepNodes.consecutive a b).highest = some r := (h1.lower ht).2.2
    rw [hh] at h5 h6
    simp only [Option.getD_some] at h5 h6
    have hab : b = r + 1 ∧ a < b := by
      simp only [SepNodes.highest, SepNodes.toList] at hh
      by_cases hab : a < b
      · refine ⟨?_, hab⟩
        rw [rangeList_snoc hab] at hh; simp at hh; omega
      · simp [rangeList, Nat.sub_eq_zero_of_le (Nat.le_of_not_lt hab)] at hh
    obtain ⟨rfl, hab⟩ := hab
    have hall := SubAll.range ht h2 start h7 h8
    have hk : k = (r + 1 - a) + (cs.map SepTree.num).sum := h3
    refine ⟨h5, ?_⟩
    intro v
    rw [SepTree.toList, List.mem_append, hall v, SepNodes.toList, List.mem_reverse, mem_rangeList]
    simp only [SepTree.num]
    omega
theorem SubAll.range (ht : TreeOK n tree) {ts : List SepTree} {rs : List Nat} (h : SubAll tree ts rs) : ∀ start, checkChildren start ts = some () →
    validate.all ts = some () → ∀ v, v ∈ SepTree.toList.all ts ↔ start ≤ v ∧ v < start + (ts.map SepTree.num).sum :=
  match h with
  | .nil => by intro start _ _ v; simp [SepTree.toList.all]
  | .cons (t := t) (ts := ts) (r := r) h1 h2 => by
    intro start hc hv v
    rw [validate.all] at hv
    simp only [Option.bind_eq_bind, Option.bind_eq_some_iff] at hv
    obtain ⟨_, hv1, hv2⟩ := hv
    obtain ⟨h3, h4⟩ := SubOK.range ht h1 hv1
    simp only [checkChildren, h1.highest ht, Option.bind_eq_bind, Option.bind_some, Option.bind_eq_some_iff] at hc
    obtain ⟨s, hs, hc⟩ := hc
    obtain ⟨_, rfl⟩ := sub32_some hs
    split at hc
    case isFalse => simp at hc
    case isTrue heq =>
      rw [SepTree.toList.all, List.mem_append, h4, SubAll.range ht h2 _ hc hv2]
      simp only [List.map_cons, List.sum_cons]
      omega
end

end CCH
end Verif
