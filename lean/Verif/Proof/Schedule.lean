import Verif.Proof.Separator
import Verif.Proof.CCHExact
set_option linter.unusedSimpArgs false
set_option linter.unusedVariables false
/- Schedules of the parallel customization. -/
namespace Verif
namespace CCH
open Spec
variable {n : Nat} {c : Cch}

/-! ### Interleavings -/

theorem Interleave.mem {α : Type} {l r L : List α} (h : Interleave l r L) : ∀ x, x ∈ L ↔ x ∈ l ∨ x ∈ r := by
  induction h with
  | nil => simp
  | left _ ih => intro x; simp [ih, or_assoc]
  | right _ ih => intro x; simp only [List.mem_cons, ih]; tauto

theorem Interleave.perm {α : Type} {l r L : List α} (h : Interleave l r L) : L.Perm (l ++ r) := by
  induction h with
  | nil => exact .nil
  | left _ ih => exact .cons _ ih
  | right _ ih => exact (List.Perm.cons _ ih).trans List.perm_middle.symm

theorem Interleave.map {α β : Type} (f : α → β) {l r L : List α} (h : Interleave l r L) : Interleave (l.map f) (r.map f) (L.map f) := by
  induction h with
  | nil => exact .nil
  | left _ ih => exact .left ih
  | right _ ih => exact .right ih

theorem Interleave.split {α : Type} {l r L : List α} (h : Interleave l r L) : ∀ {P : List α} {x : α} {Q : List α}, L = P ++ x :: Q →
    (∃ P1 Q1, l = P1 ++ x :: Q1 ∧ ∀ y ∈ P1, y ∈ P) ∨ (∃ P1 Q1, r = P1 ++ x :: Q1 ∧ ∀ y ∈ P1, y ∈ P) := by
  induction h with
  | nil => intro P x Q h; simp at h
  | @left a l r L _ ih =>
    intro P x Q hE
    cases P with
    | nil => simp at hE; obtain ⟨rfl, rfl⟩ := hE; exact .inl ⟨[], l, rfl, by simp⟩
    | cons p P =>
      simp at hE; obtain ⟨rfl, hE⟩ := hE
      rcases ih hE with ⟨P1, Q1, h1, h2⟩ | ⟨P1, Q1, h1, h2⟩
      · refine .inl ⟨a :: P1, Q1, by rw [h1]; rfl, ?_⟩
        intro y hy
        rcases List.mem_cons.1 hy with rfl | hy
        · simp
        · simp [h2 y hy]
      · exact .inr ⟨P1, Q1, h1, fun y hy => by simp [h2 y hy]⟩
  | @right a l r L _ ih =>
    intro P x Q hE
    cases P with
    | nil => simp at hE; obtain ⟨rfl, rfl⟩ := hE; exact .inr ⟨[], r, rfl, by simp⟩
    | cons p P =>
      simp at hE; obtain ⟨rfl, hE⟩ := hE
      rcases ih hE with ⟨P1, Q1, h1, h2⟩ | ⟨P1, Q1, h1, h2⟩
      · exact .inl ⟨P1, Q1, h1, fun y hy => by simp [h2 y hy]⟩
      · refine .inr ⟨a :: P1, Q1, by rw [h1]; rfl, ?_⟩
        intro y hy
        rcases List.mem_cons.1 hy with rfl | hy
        · simp
        · simp [h2 y hy]

/-! ### Segments -/

/-- The steps `L` handle exactly the nodes `a..b`, in a possible order, and stay in their slices. -/
structure SegOK (c : Cch) (a b : Nat) (L : List Step) : Prop where
  nodup : (L.map Step.node).Nodup
  mem : ∀ v, v ∈ L.map Step.node ↔ a ≤ v ∧ v < b
  before : ∀ P x Q, L.map Step.node = P ++ x :: Q → ∀ e z, c.Edge e z x → z ∈ P
  slice : ∀ s ∈ L, inSlice c s = some ()

theorem SegOK.nil (c : Cch) (a : Nat) : SegOK c a a [] := by
  refine ⟨by simp, by simp, ?_, by simp⟩
  intro P x Q h; simp at h

theorem SegOK.interleave {a b d : Nat} {L1 L2 L : List Step} (hab : a ≤ b) (hbd : b ≤ d) (h1 : SegOK c a b L1) (h2 : SegOK c b d L2) (h : Interleave L1 L2 L) :
    SegOK c a d L := by
  have hm := h.map Step.node
  refine ⟨?_, ?_, ?_, ?_⟩
  · rw [hm.perm.nodup_iff, List.nodup_append]
    refine ⟨h1.nodup, h2.nodup, ?_⟩
    intro x hx y hy hxy
    subst hxy
    have := (h1.mem x).1 hx
    have := (h2.mem x).1 hy
    omega
  · intro v
    rw [hm.mem, h1.mem, h2.mem]; omega
  · intro P x Q hE e z he
    rcases hm.split hE with ⟨P1, Q1, k1, k2⟩ | ⟨P1, Q1, k1, k2⟩
    · exact k2 z (h1.before P1 x Q1 k1 e z he)
    · exact k2 z (h2.before P1 x Q1 k1 e z he)
  · intro s hs
    rcases (h.mem s).1 hs with hs | hs
    · exact h1.slice s hs
    · exact h2.slice s hs

/-- The range of nodes `a..b` is closed under lower neighbours. -/
def Closed (c : Cch) (a b : Nat) : Prop := ∀ x, a ≤ x → x < b → ∀ e z, c.Edge e z x → a ≤ z

theorem SegOK.append (hg : Good n c) {a b d lo hi : Nat} {L : List Step} (hab : a ≤ b) (hbd : b ≤ d) (h1 : SegOK c a b L) (hcl : Closed c a d)
    (hsl : ∀ v, b ≤ v → v < d → inSlice c ⟨v, lo, hi⟩ = some ()) : SegOK c a d (L ++ (rangeList b d).map (fun v => ⟨v, lo, hi⟩)) := by
  have hmap : (L ++ (rangeList b d).map (fun v => (⟨v, lo, hi⟩ : Step))).map Step.node = L.map Step.node ++ rangeList b d := by
    rw [List.map_append, List.map_map]
    congr 1
    exact List.map_id _
  refine ⟨?_, ?_, ?_, ?_⟩
  · rw [hmap, List.nodup_append]
    refine ⟨h1.nodup, nodup_rangeList, ?_⟩
    intro x hx y hy hxy
    subst hxy
    have := (h1.mem x).1 hx
    have := mem_rangeList.1 hy
    omega
  · intro v
    rw [hmap, List.mem_append, h1.mem, mem_rangeList]; omega
  · intro P x Q hE e z he
    rw [hmap] at hE
    rcases List.append_eq_append_iff.1 hE with ⟨P', hP, hR⟩ | ⟨P', hP, hR⟩
    · -- in the new part
      subst hP
      rw [List.mem_append]
      have hx := mem_rangeList.1 (show x ∈ rangeList b d by rw [hR]; simp)
      have hz1 := hcl x (by omega) hx.2 e z he
      have hz2 := (hg.up he).1
      by_cases hzb : z < b
      · exact .inl ((h1.mem z).2 ⟨hz1, hzb⟩)
      · right
        have hzm : z ∈ rangeList b d := mem_rangeList.2 ⟨by omega, by omega⟩
        rw [hR] at hzm
        rcases List.mem_append.1 hzm with h | h
        · exact h
        · exfalso
          have hs : (rangeList b d).Pairwise (· < ·) := List.pairwise_lt_range'
          rw [hR, List.pairwise_append] at hs
          rcases List.mem_cons.1 h with rfl | h
          · omega
          · have := (List.pairwise_cons.1 hs.2.1).1 z h; omega
    · cases P' with
      | nil =>
        simp only [List.nil_append, List.append_nil] at hP hR
        subst hP
        have hx := mem_rangeList.1 (show x ∈ rangeList b d by rw [← hR]; simp)
        have hxb : x = b := by
          have hb : b < d := by omega
          rw [rangeList_succ hb] at hR
          simp at hR; exact hR.1
        have hz1 := hcl x (by omega) hx.2 e z he
        have hz2 := (hg.up he).1
        exact (h1.mem z).2 ⟨hz1, by omega⟩
      | cons y P' =>
        simp only [List.cons_append, List.cons.injEq] at hR
        obtain ⟨rfl, _⟩ := hR
        exact h1.before P x P' hP e z he
  · intro s hs
    rcases List.mem_append.1 hs with hs | hs
    · exact h1.slice s hs
    · simp only [List.mem_map] at hs
      obtain ⟨v, hv, rfl⟩ := hs
      have := mem_rangeList.1 hv
      exact hsl v this.1 this.2

/-! ### Tasks -/

theorem Base.fo_some (hg : Base n c) {i : Nat} (hi : i ≤ n) : ∃ a, c.firstOut[i]? = some a := by
  have h1 : c.firstOut.length = n + 1 := by
    have := hg.wf.fo_len
    have hn : c.firstOut.length - 1 = n := hg.nn
    have h2 : 0 < c.firstOut.length := by
      have := hg.wf.first
      cases h : c.topo.firstOut with
      | nil => rw [h] at this; simp at this
      | cons a l => have h' : c.firstOut = a :: l := h; rw [h']; simp
    omega
  exact ⟨_, List.getElem?_eq_getElem (by omega)⟩

theorem inSlice_ok (hg : Good n c) {off fin v lo hi : Nat} (hv : off ≤ v) (hv2 : v < fin) (hfin : fin ≤ n) (hcl : Closed c off fin)
    (hlo : c.firstOut[off]? = some lo) (hhi : ∃ h, c.firstOut[fin]? = some h ∧ h ≤ hi) : inSlice c ⟨v, lo, hi⟩ = some () := by
  obtain ⟨h, hh, hle⟩ := hhi
  have hrange : ∀ x, off ≤ x → x < fin → ∃ a b, c.topo.range x = some (a, b) ∧ lo ≤ a ∧ b ≤ hi ∧ c.firstOut[x]? = some a ∧ c.firstOut[x + 1]? = some b := by
    intro x hx hx2
    obtain ⟨a, ha⟩ := hg.fo_some (i := x) (by omega)
    obtain ⟨b, hb⟩ := hg.fo_some (i := x + 1) (by omega)
    have h1 := hg.wf.mono' hx hlo ha
    have h2 := hg.wf.mono' (show x + 1 ≤ fin by omega) hb hh
    refine ⟨a, b, ?_, h1, by omega, ha, hb⟩
    simp only [FOGraph.range, show c.topo.firstOut = c.firstOut from rfl, ha, hb, Option.bind_eq_bind, Option.bind_some, Option.pure_def]
  obtain ⟨a, b, h1, h2, h3, _⟩ := hrange v hv hv2
  obtain ⟨lows, hl1, hl2, hl3⟩ := hg.inv v (by omega)
  have hfold : ∀ (ls : List (Nat × Nat)), (∀ p ∈ ls, p ∈ lows) → ls.foldlM (fun (_ : Unit) (l : Nat × Nat) => do
      if l.2 < lo ∨ hi ≤ l.2 then none
      let (a, b) ← c.topo.range l.1
      if a < lo ∨ hi < b then none) () = some () := by
    intro ls
    induction ls with
    | nil => intro _; rfl
    | cons p ls ih =>
      intro hp
      obtain ⟨z, e⟩ := p
      have he := (hl3 z e).1 (hp _ (by simp))
      have hz1 := hcl v hv hv2 e z he
      have hz2 := (hg.up he).1
      obtain ⟨a', b', k1, k2, k3, k4, k5⟩ := hrange z hz1 (by omega)
      obtain ⟨a'', b'', q1, q2, q3, q4⟩ := (hg.range e z).1 he.1
      rw [k4] at q1; simp at q1; subst q1
      rw [k5] at q2; simp at q2; subst q2
      rw [List.foldlM_cons]
      simp only [show ¬ (e < lo ∨ hi ≤ e) by omega, if_false, k1, show ¬ (a' < lo ∨ hi < b') by omega, Option.bind_eq_bind, Option.bind_some, Option.pure_def]
      exact ih (fun p hp' => hp p (by simp [hp']))
  simp only [inSlice, h1, show ¬ (a < lo ∨ hi < b) by omega, if_false, hl1, Option.bind_eq_bind, Option.bind_some, Option.pure_def]
  exact hfold lows (fun p hp => hp)

theorem exists_interleave {α : Type} (l r : List α) : ∃ L, Interleave l r L := by
  induction l with
  | nil =>
    induction r with
    | nil => exact ⟨[], .nil⟩
    | cons x r ih => obtain ⟨L, h⟩ := ih; exact ⟨x :: L, .right h⟩
  | cons x l ih => obtain ⟨L, h⟩ := ih; exact ⟨x :: L, .left h⟩

mutual
theorem SubOK.plan (hg : Good n c) (ht : TreeOK n c.elimTree) (thr : Nat) {t : SepTree} {r : Nat} (h : SubOK c.elimTree t r) :
    validate t = some () → r < n → ∀ lo hi, c.firstOut[r + 1 - t.num]? = some lo → (∃ h, c.firstOut[r + 1]? = some h ∧ h ≤ hi) →
    ∃ task, CCH.plan c thr t (r + 1 - t.num) lo hi = some task ∧ (∃ L, task.Runs L) ∧ ∀ L, task.Runs L → SegOK c (r + 1 - t.num) (r + 1) L :=
  match h with
  | .mk (s := s) (cs := cs) (k := k) (last := last) h1 h2 h3 hcan => by
    intro hv hr lo hi hlo hhi
    have hS : SubOK c.elimTree (.mk s cs k) r := .mk h1 h2 h3 hcan
    obtain ⟨hle, hrng⟩ := hS.range ht hv
    obtain ⟨⟨a, b, rfl⟩, ⟨start, h4, h5, h6, h7⟩, _, h8⟩ := validate_mk hv
    have hh : (SepNodes.consecutive a b).highest = some r := (h1.lower ht).2.2
    rw [hh] at h6
    simp only [Option.getD_some] at h6
    simp only [SepTree.num] at hle hrng hlo ⊢
    have hcl : Closed c (r + 1 - k) (r + 1) := by
      intro x hx1 hx2 e z he
      have hx := (hS.mem ht x).1 ((hrng x).2 ⟨hx1, hx2⟩)
      have hz : Anc (par c.elimTree) z r := Anc.trans (hg.anc he) hx
      exact ((hrng z).1 ((hS.mem ht z).2 hz)).1
    have hsl : ∀ v, r + 1 - k ≤ v → v < r + 1 → inSlice c ⟨v, lo, hi⟩ = some () := fun v hv1 hv2 => inSlice_ok hg hv1 hv2 (by omega) hcl hlo hhi
    have hoff : r + 1 - k + k = r + 1 := by omega
    rw [CCH.plan]
    simp only [hlo, Option.bind_eq_bind, Option.bind_some, ne_eq, not_true_eq_false, if_false, hoff, Option.pure_def]
    by_cases hk : k < thr
    · simp only [if_pos hk]
      refine ⟨_, rfl, ⟨_, .mk .nil⟩, ?_⟩
      intro L hL
      cases hL with
      | mk hsub =>
        cases hsub
        exact SegOK.append hg (Nat.le_refl _) (by omega) (SegOK.nil c _) hcl hsl
    · simp only [if_neg hk]
      subst h6
      have hsum : k = (b - a) + (cs.map SepTree.num).sum := h3
      obtain ⟨hx, hhx, hhxle⟩ := hhi
      obtain ⟨y, hy⟩ := hg.fo_some (i := r + 1 - k + (cs.map SepTree.num).sum) (by omega)
      have hyle := hg.wf.mono' (show r + 1 - k + (cs.map SepTree.num).sum ≤ r + 1 by omega) hy hhx
      obtain ⟨subs, p1, p2, p3⟩ := SubAll.plan hg ht thr h2 (r + 1 - k) h7 h8 (fun x hx => by
        have := ht.up ((mem_kids ht).1 hx)
        omega) lo hi hlo ⟨y, hy, by omega⟩
      simp only [p1]
      obtain ⟨L, hL⟩ := p2
      refine ⟨_, rfl, ⟨_, .mk hL⟩, ?_⟩
      intro L hL
      cases hL with
      | mk hsub =>
        exact SegOK.append hg (by omega) (by omega) (p3 _ hsub) hcl (fun v hv1 hv2 => hsl v (by omega) hv2)
theorem SubAll.plan (hg : Good n c) (ht : TreeOK n c.elimTree) (thr : Nat) {ts : List SepTree} {rs : List Nat} (h : SubAll c.elimTree ts rs) :
    ∀ start, checkChildren start ts = some () → validate.all ts = some () → (∀ x ∈ rs, x < n) →
    ∀ lo hi, c.firstOut[start]? = some lo → (∃ h, c.firstOut[start + (ts.map SepTree.num).sum]? = some h ∧ h ≤ hi) →
    ∃ subs, CCH.plan.all c thr ts start lo hi = some (subs, start + (ts.map SepTree.num).sum) ∧ (∃ L, Task.RunsAll subs L) ∧
      ∀ L, Task.RunsAll subs L → SegOK c start (start + (ts.map SepTree.num).sum) L :=
  match h with
  | .nil => by
    intro start _ _ _ lo hi _ _
    refine ⟨[], by simp [CCH.plan.all], ⟨[], .nil⟩, ?_⟩
    intro L hL
    cases hL
    exact SegOK.nil c _
  | .cons (t := t) (ts := ts) (r := r) (rs := rs) h1 h2 => by
    intro start hc hv hrs lo hi hlo hhi
    rw [validate.all] at hv
    simp only [Option.bind_eq_bind, Option.bind_eq_some_iff] at hv
    obtain ⟨_, hv1, hv2⟩ := hv
    obtain ⟨h3, h4⟩ := SubOK.range ht h1 hv1
    simp only [checkChildren, h1.highest ht, Option.bind_eq_bind, Option.bind_some, Option.bind_eq_some_iff] at hc
    obtain ⟨s, hs, hc⟩ := hc
    obtain ⟨_, rfl⟩ := sub32_some hs
    split at hc
    case isFalse => simp at hc
    case isTrue heq =>
      subst heq
      have hr := hrs r (by simp)
      have hoff : r + 1 - t.num + t.num = r + 1 := by omega
      rw [hoff] at hc
      simp only [List.map_cons, List.sum_cons, ← Nat.add_assoc, hoff] at hhi ⊢
      obtain ⟨e, he⟩ := hg.fo_some (i := r + 1) (by omega)
      obtain ⟨hx, hhx, hhxle⟩ := hhi
      have hle1 := hg.wf.mono' (show r + 1 - t.num ≤ r + 1 by omega) hlo he
      have hle2 := hg.wf.mono' (show r + 1 ≤ r + 1 + (ts.map SepTree.num).sum by omega) he hhx
      obtain ⟨task, p1, ⟨L1, p2⟩, p3⟩ := SubOK.plan hg ht thr h1 hv1 hr lo e hlo ⟨e, he, Nat.le_refl _⟩
      obtain ⟨subs, q1, ⟨L2, q2⟩, q3⟩ := SubAll.plan hg ht thr h2 (r + 1) hc hv2 (fun x hx => hrs x (by simp [hx])) e hi he ⟨hx, hhx, hhxle⟩
      refine ⟨task :: subs, ?_, ?_, ?_⟩
      · rw [CCH.plan.all]
        simp only [hoff, he, show ¬ (e < lo ∨ hi < e) by omega, if_false, p1, q1, Option.bind_eq_bind, Option.bind_some, Option.pure_def]
      · obtain ⟨L, hL⟩ := exists_interleave L1 L2
        exact ⟨L, .cons p2 q2 hL⟩
      · intro L hL
        cases hL with
        | cons r1 r2 r3 => exact SegOK.interleave (by omega) (by omega) (p3 _ r1) (q3 _ r2) r3
end

/-- All possible orders for a validated separator tree. -/
theorem plan_spec (hg : Good n c) (ht : TreeOK n c.elimTree) (thr : Nat) {t : SepTree} (h : SepTree.new c.elimTree = some t) (hv : validate t = some ()) :
    ∃ task, CCH.plan c thr t 0 0 c.head.length = some task ∧ (∃ L, task.Runs L) ∧ ∀ L, task.Runs L → SegOK c 0 n L := by
  obtain ⟨_, hnum⟩ := SepTree.new_perm ht h
  obtain ⟨cs, h1, h2⟩ := SepTree.new_spec ht
  rw [h] at h1; simp at h1; subst h1
  obtain ⟨_, ⟨start, h4, h5, h6, h7⟩, _, h8⟩ := validate_mk hv
  simp only [SepTree.num] at hnum
  rw [hnum] at h4 h5 h6
  have hst : start = 0 := by rw [h6]; simp [SepNodes.highest, SepNodes.toList, rangeList]; omega
  subst hst
  have hlo : c.firstOut[0]? = some 0 := by
    have := hg.wf.first
    rw [List.head?_eq_getElem?] at this; exact this
  have hhi : c.firstOut[n]? = some c.head.length := by
    have := hg.wf.last
    rw [List.getLast?_eq_getElem?] at this
    have hn : c.firstOut.length - 1 = n := hg.nn
    rw [← hn]; exact this
  obtain ⟨subs, p1, ⟨L, p2⟩, p3⟩ := SubAll.plan hg ht thr h2 0 h7 h8 (by
    intro x hx
    simp only [rootsOf, List.mem_filter, List.mem_range, ht.len] at hx; exact hx.1) 0 c.head.length hlo (by rw [hnum, Nat.zero_add]; exact ⟨_, hhi, Nat.le_refl _⟩)
  have hcl : Closed c 0 n := fun _ _ _ _ _ _ => Nat.zero_le _
  have hsl : ∀ v, 0 ≤ v → v < n → inSlice c ⟨v, 0, c.head.length⟩ = some () := fun v hv1 hv2 => inSlice_ok hg hv1 hv2 (Nat.le_refl _) hcl hlo ⟨_, hhi, Nat.le_refl _⟩
  rw [hnum, Nat.zero_add] at p1 p3
  rw [CCH.plan]
  simp only [hlo, hnum, Option.bind_eq_bind, Option.bind_some, ne_eq, not_true_eq_false, if_false, Nat.zero_add, Option.pure_def]
  by_cases hk : n < thr
  · simp only [if_pos hk]
    refine ⟨_, rfl, ⟨_, .mk .nil⟩, ?_⟩
    intro L hL
    cases hL with
    | mk hsub =>
      cases hsub
      exact SegOK.append hg (Nat.le_refl _) (by omega) (SegOK.nil c _) hcl hsl
  · simp only [if_neg hk, p1]
    refine ⟨_, rfl, ⟨_, .mk p2⟩, ?_⟩
    intro L hL
    cases hL with
    | mk hsub => exact SegOK.append hg (by omega) (by omega) (p3 _ hsub) hcl (fun v hv1 hv2 => hsl v (by omega) hv2)

/-- Running the steps. -/
theorem runSteps_spec (hg : Good n c) {w0 : Weights} (hw : WOK c w0) {S : List (Nat × Step)} (hS : SegOK c 0 n (S.map Prod.snd))
    {ws : Nat → WS × WS} (hws : ∀ i, (ws i).1.length = n ∧ (ws i).2.length = n) :
    ∃ w, runSteps c S w0 ws = some w ∧ custNodes c (List.range n) w0 = some w := by
  have hL : TopoOrder n c ((S.map Prod.snd).map Step.node) := by
    refine ⟨hS.nodup, fun x => ?_, hS.before⟩
    rw [hS.mem]; omega
  have key : ∀ (Q P : List (Nat × Step)), S = P ++ Q → ∀ w ws, (∀ i, (ws i).1.length = n ∧ (ws i).2.length = n) → RunInv n c w0 w ((P.map Prod.snd).map Step.node) →
      ∃ w', runSteps c Q w ws = some w' ∧ RunInv n c w0 w' ((S.map Prod.snd).map Step.node) := by
    intro Q
    induction Q with
    | nil => intro P h w ws _ hi; simp at h; subst h; exact ⟨w, rfl, hi⟩
    | cons p Q ih =>
      intro P hE w ws hws hi
      obtain ⟨i, st⟩ := p
      obtain ⟨w', ws', k1, k2, k3⟩ := RunInv.step hg.toBase hL (P := (P.map Prod.snd).map Step.node) (x := st.node) (Q := (Q.map Prod.snd).map Step.node)
        (by rw [hE]; simp) hi (hws i)
      obtain ⟨w'', k4, k5⟩ := ih (P ++ [(i, st)]) (by simp [hE]) w' (fupd ws i ws') (by
        intro j
        by_cases hj : j = i
        · subst hj; simp [fupd]; exact k2
        · simp [fupd, hj]; exact hws j) (by simpa using k3)
      refine ⟨w'', ?_, k5⟩
      simp only [runSteps, hS.slice st (by rw [hE]; simp), k1, Option.bind_eq_bind, Option.bind_some]
      exact k4
  obtain ⟨w, h1, h2⟩ := key S [] (by simp) w0 ws hws (RunInv.init hw)
  obtain ⟨w', h4, h5, h6⟩ := custNodes_spec hg.toBase hw (topo_range hg.toBase)
  have hsol : Solved c w0 w (fun x => x < n) := by
    have := h2.solved
    have he : (fun x => x ∈ (S.map Prod.snd).map Step.node) = (fun x => x < n) := by
      funext x; exact propext (hL.mem x)
    rw [he] at this; exact this
  have := Solved.eq hg.toBase h2.ok h5 hsol h6
  subst this
  exact ⟨w, h1, h4⟩

end CCH
end Verif
