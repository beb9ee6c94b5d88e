import Mathlib.Data.List.Nodup
import Verif.Proof.MultiCritAbs
import Verif.Proof.Heap
/- Inserting a label into the heap of a node. -/
set_option linter.unusedSimpArgs false
set_option linter.unusedVariables false
namespace Verif.Traffic
namespace MC
open Active Spec

theorem le_preorder : TotalPreorder Lab.le := by
  constructor
  · intro a b; simp only [Lab.le, decide_eq_true_eq]; omega
  · intro a b c; simp only [Lab.le, decide_eq_true_eq]; omega

theorem le_pair : TotalPreorder (fun a b : Lab × Bool => Lab.le a.1 b.1) := ⟨fun a b => le_preorder.total _ _, fun a b c => le_preorder.trans _ _ _⟩

/-- the heap of a node with the labels waiting and the labels popped -/
structure HRep (h : Heap Lab) (W T : Lab → Prop) : Prop where
  inv : Heap.Inv Lab.le h
  nodup : h.data.Nodup
  wait : ∀ l, l ∈ h.data.take h.split ↔ W l
  pop : ∀ l, l ∈ h.popped ↔ T l

theorem HRep.mem {h : Heap Lab} {W T : Lab → Prop} (hr : HRep h W T) (l : Lab) : l ∈ h.data ↔ W l ∨ T l := by
  rw [← hr.wait, ← hr.pop, Heap.popped, ← List.mem_append, List.take_append_drop]

theorem marks_spec {x : Lab} (hx : x.act.Good) (os : List Lab) (d0 : Bool) (hos : ∀ o ∈ os, o.act.Good) :
    ∃ ds D, Blocked.marks x os d0 = some (ds, D) ∧ ds.map Prod.fst = os ∧ (D = true ↔ d0 = true ∨ ∃ o ∈ os, dom o x) ∧
      ∀ o k, (o, k) ∈ ds → (k = false → dom x o ∧ ¬ dom o x) ∧ (D = false → (k = true ↔ ¬ dom x o)) := by
  induction os generalizing d0 with
  | nil => exact ⟨[], d0, rfl, rfl, by simp, by simp⟩
  | cons o os ih =>
    have ho := hos o (by simp)
    obtain ⟨now, h1, h2⟩ : ∃ now, (if o.dist ≤ x.dist then o.act.isSubset x.act else some false) = some now ∧ (now = true ↔ dom o x) := by
      by_cases hd : o.dist ≤ x.dist
      · obtain ⟨y, e1, e2⟩ := isSubset_spec ho hx
        exact ⟨y, by rw [if_pos hd, e1], by rw [e2]; simp [dom, hd]⟩
      · exact ⟨false, by rw [if_neg hd], by simp [dom, hd]⟩
    obtain ⟨keep, h3, h4⟩ : ∃ keep, (if (d0 || now) || decide (o.dist < x.dist) then some true else (x.act.isSubset o.act).map (!·)) = some keep ∧
        (keep = false ↔ (d0 || now) = false ∧ dom x o) := by
      by_cases hd : (d0 || now) = true
      · exact ⟨true, by rw [hd]; simp, by simp [hd]⟩
      · rw [Bool.not_eq_true] at hd
        by_cases hlt : o.dist < x.dist
        · exact ⟨true, by simp [hlt], by simp [dom]; omega⟩
        · obtain ⟨y, e1, e2⟩ := isSubset_spec hx ho
          refine ⟨!y, by simp [hd, hlt, e1], ?_⟩
          simp only [hd, true_and, dom, ← e2, Bool.not_eq_false']
          constructor
          · intro h; exact ⟨by omega, h⟩
          · exact fun h => h.2
    obtain ⟨ds, D, e1, e2, e3, e4⟩ := ih (d0 || now) (fun o ho => hos o (by simp [ho]))
    refine ⟨(o, keep) :: ds, D, ?_, by simp [e2], ?_, ?_⟩
    · have hmm : Blocked.marks x (o :: os) d0 = (if o.dist ≤ x.dist then o.act.isSubset x.act else some false).bind fun now =>
          (if (d0 || now) || decide (o.dist < x.dist) then some true else (x.act.isSubset o.act).map (!·)).bind fun keep =>
            (Blocked.marks x os (d0 || now)).bind fun r => some ((o, keep) :: r.1, r.2) := by
        rw [Blocked.marks]
        simp only [Option.bind_eq_bind, Option.pure_def]
        by_cases c1 : o.dist ≤ x.dist
        · rw [if_pos c1, if_pos c1]
          congr 1
          funext now
          by_cases c2 : ((d0 || now) || decide (o.dist < x.dist)) = true
          · rw [if_pos c2, if_pos c2]
          · rw [if_neg c2, if_neg c2]
        · rw [if_neg c1, if_neg c1]
          congr 1
          funext now
          by_cases c2 : ((d0 || now) || decide (o.dist < x.dist)) = true
          · rw [if_pos c2, if_pos c2]
          · rw [if_neg c2, if_neg c2]
      rw [hmm, h1, Option.bind_some, h3, Option.bind_some, e1, Option.bind_some]
    · rw [e3, Bool.or_eq_true, h2]
      simp only [List.mem_cons, exists_eq_or_imp, or_assoc]
    · intro o' k' hm
      rcases List.mem_cons.1 hm with hm | hm
      · injection hm with q1 q2
        subst q1 q2
        refine ⟨fun hk => ?_, fun hD => ?_⟩
        · obtain ⟨q1, q2⟩ := h4.1 hk
          refine ⟨q2, fun hdom => ?_⟩
          rw [h2.2 hdom] at q1
          simp at q1
        · have hd : (d0 || now) = false := by
            cases hdn : (d0 || now)
            · rfl
            · rw [e3.2 (.inl hdn)] at hD; simp at hD
          simp only [hd, true_and] at h4
          rw [← h4]; simp
      · exact e4 o' k' hm

theorem ord_map {ds : List (Lab × Bool)} {s : Nat} : Heap.Inv (fun a b : Lab × Bool => Lab.le a.1 b.1) ⟨ds, s⟩ ↔ Heap.Inv Lab.le ⟨ds.map Prod.fst, s⟩ := by
  constructor
  · rintro ⟨h1, h2⟩
    refine ⟨by simpa using h1, fun i h0 hi => ?_⟩
    have := h2 i h0 hi
    simp only at this ⊢
    intro a b ha hb
    rw [List.getElem?_map, Option.map_eq_some_iff] at ha hb
    obtain ⟨a', ha, rfl⟩ := ha
    obtain ⟨b', hb, rfl⟩ := hb
    exact this a' b' ha hb
  · rintro ⟨h1, h2⟩
    refine ⟨by simpa using h1, fun i h0 hi => ?_⟩
    have := h2 i h0 hi
    simp only at this ⊢
    intro a b ha hb
    exact this a.1 b.1 (by rw [List.getElem?_map, ha]; rfl) (by rw [List.getElem?_map, hb]; rfl)

theorem merge_spec {h : Heap Lab} {W T : Lab → Prop} (hr : HRep h W T) {x : Lab} (hx : x.act.Good) (hos : ∀ l, W l ∨ T l → l.act.Good)
    (hinc : ∀ a b, W a ∨ T a → W b ∨ T b → dom a b → a = b) :
    ((∃ o, (W o ∨ T o) ∧ dom o x) ∧ ∃ h', Blocked.merge h (some x) = some (h', none) ∧ HRep h' W T) ∨
    ((∀ o, W o ∨ T o → ¬ dom o x) ∧ ∃ h', Blocked.merge h (some x) = some (h', some x.dist) ∧
      HRep h' (fun l => (W l ∧ ¬ dom x l) ∨ l = x) (fun l => T l ∧ ¬ dom x l)) := by
  obtain ⟨ds, D, e1, e2, e3, e4⟩ := marks_spec hx h.data false (fun o ho => hos o ((hr.mem o).1 ho))
  have hinv : Heap.Inv (fun a b : Lab × Bool => Lab.le a.1 b.1) ⟨ds, h.split⟩ := by
    rw [ord_map, e2]; exact hr.inv
  obtain ⟨hm, f1, f2, f3, f4⟩ := Heap.retain_spec le_pair hinv Prod.snd
  simp only [Heap.popped] at f3 f4
  have g1 : Heap.Inv Lab.le ⟨hm.data.map Prod.fst, hm.split⟩ := ord_map.1 f2
  have hds : ∀ o, o ∈ h.data ↔ ∃ k, (o, k) ∈ ds := by
    intro o
    rw [← e2, List.mem_map]
    constructor
    · rintro ⟨⟨a, k⟩, h1, rfl⟩; exact ⟨k, h1⟩
    · rintro ⟨k, h1⟩; exact ⟨(o, k), h1, rfl⟩
  have hdn : ds.Nodup := List.Nodup.of_map Prod.fst (by rw [e2]; exact hr.nodup)
  have hfst : (ds.map Prod.fst).Nodup := by rw [e2]; exact hr.nodup
  have hperm : hm.data.Perm (ds.filter Prod.snd) := by
    rw [← List.take_append_drop hm.split hm.data, f4]
    refine (f3.append_right _).trans ?_
    rw [← List.filter_append, List.take_append_drop]
  have gn : (hm.data.map Prod.fst).Nodup := by
    rw [(hperm.map Prod.fst).nodup_iff]
    exact hfst.sublist (List.filter_sublist.map _)
  have gw : ∀ l, l ∈ (hm.data.map Prod.fst).take hm.split ↔ W l ∧ (l, true) ∈ ds := by
    intro l
    rw [← List.map_take, List.mem_map]
    constructor
    · rintro ⟨⟨a, k⟩, h1, rfl⟩
      have h1 := f3.mem_iff.1 h1
      rw [List.mem_filter] at h1
      obtain ⟨h1, hk⟩ := h1
      simp only at hk
      subst hk
      refine ⟨(hr.wait _).1 ?_, List.mem_of_mem_take h1⟩
      rw [← e2, ← List.map_take]
      exact List.mem_map.2 ⟨_, h1, rfl⟩
    · rintro ⟨h1, h2⟩
      have h1 := (hr.wait _).2 h1
      rw [← e2, ← List.map_take, List.mem_map] at h1
      obtain ⟨⟨a, k⟩, h1', rfl⟩ := h1
      have hk : k = true := by
        have := List.inj_on_of_nodup_map hfst (List.mem_of_mem_take h1') h2 rfl
        injection this
      subst hk
      exact ⟨_, f3.mem_iff.2 (List.mem_filter.2 ⟨h1', rfl⟩), rfl⟩
  have gp : ∀ l, l ∈ (hm.data.map Prod.fst).drop hm.split ↔ T l ∧ (l, true) ∈ ds := by
    intro l
    rw [← List.map_drop, List.mem_map, f4]
    constructor
    · rintro ⟨⟨a, k⟩, h1, rfl⟩
      rw [List.mem_filter] at h1
      obtain ⟨h1, hk⟩ := h1
      simp only at hk
      subst hk
      refine ⟨(hr.pop _).1 ?_, List.mem_of_mem_drop h1⟩
      rw [Heap.popped, ← e2, ← List.map_drop]
      exact List.mem_map.2 ⟨_, h1, rfl⟩
    · rintro ⟨h1, h2⟩
      have h1 := (hr.pop _).2 h1
      rw [Heap.popped, ← e2, ← List.map_drop, List.mem_map] at h1
      obtain ⟨⟨a, k⟩, h1', rfl⟩ := h1
      have hk : k = true := by
        have := List.inj_on_of_nodup_map hfst (List.mem_of_mem_drop h1') h2 rfl
        injection this
      subst hk
      exact ⟨_, List.mem_filter.2 ⟨h1', rfl⟩, rfl⟩
  have hmd : ∀ l, W l ∨ T l → ((l, true) ∈ ds ↔ ¬ (l, false) ∈ ds) := by
    intro l hl
    obtain ⟨k, hk⟩ := (hds l).1 ((hr.mem l).2 hl)
    constructor
    · intro h1 h2
      have := List.inj_on_of_nodup_map hfst h1 h2 rfl
      simp at this
    · intro h1
      cases k with
      | true => exact hk
      | false => exact absurd hk h1
  cases D with
  | true =>
    left
    obtain ⟨o, ho, hod⟩ := (e3.1 rfl).resolve_left (by simp)
    have ho' := (hr.mem o).1 ho
    refine ⟨⟨o, ho', hod⟩, ⟨hm.data.map Prod.fst, hm.split⟩, ?_, ?_⟩
    · simp only [Blocked.merge, e1, f1, Option.bind_eq_bind, Option.bind_some, if_true, Option.pure_def]
    · have hall : ∀ l, W l ∨ T l → (l, true) ∈ ds := by
        intro l hl
        rw [hmd l hl]
        intro hf
        obtain ⟨h1, h2⟩ := (e4 l false hf).1 rfl
        have := hinc o l ho' hl (hod.trans h1)
        subst this
        exact h2 hod
      refine ⟨g1, gn, fun l => ?_, fun l => ?_⟩
      · rw [gw]; exact ⟨fun h => h.1, fun h => ⟨h, hall l (.inl h)⟩⟩
      · simp only [Heap.popped]
        rw [gp]; exact ⟨fun h => h.1, fun h => ⟨h, hall l (.inr h)⟩⟩
  | false =>
    right
    have hno : ∀ o, W o ∨ T o → ¬ dom o x := fun o ho hd => by
      have := e3.2 (.inr ⟨o, (hr.mem o).2 ho, hd⟩)
      simp at this
    obtain ⟨h', k1, k2, k3, k4⟩ := Heap.push_spec le_preorder g1 x
    simp only [Heap.popped] at k3 k4
    have hnd : ∀ l, W l ∨ T l → ((l, true) ∈ ds ↔ ¬ dom x l) := by
      intro l hl
      obtain ⟨k, hk⟩ := (hds l).1 ((hr.mem l).2 hl)
      have := (e4 l k hk).2 rfl
      rw [← this]
      constructor
      · intro h1
        have := List.inj_on_of_nodup_map hfst h1 hk rfl
        injection this with _ h2
        exact h2.symm
      · intro h1; rwa [h1] at hk
    refine ⟨hno, h', ?_, k2, ?_, fun l => ?_, fun l => ?_⟩
    · simp only [Blocked.merge, e1, f1, k1, Option.bind_eq_bind, Option.bind_some, Bool.false_eq_true, if_false, Option.pure_def]
    · have hp : h'.data.Perm (x :: hm.data.map Prod.fst) := by
        rw [← List.take_append_drop h'.split h'.data]
        refine (k3.append k4).trans ?_
        rw [List.cons_append, List.take_append_drop]
      rw [hp.nodup_iff, List.nodup_cons]
      refine ⟨fun hx => ?_, gn⟩
      obtain ⟨⟨a, k⟩, h1, rfl⟩ := List.mem_map.1 hx
      have h2 := (List.mem_filter.1 (hperm.mem_iff.1 h1)).1
      exact hno a ((hr.mem a).1 ((hds a).2 ⟨k, h2⟩)) (dom.refl _)
    · rw [k3.mem_iff, List.mem_cons, gw]
      constructor
      · rintro (h | ⟨h1, h2⟩)
        · exact .inr h
        · exact .inl ⟨h1, (hnd l (.inl h1)).1 h2⟩
      · rintro (⟨h1, h2⟩ | h)
        · exact .inr ⟨h1, (hnd l (.inl h1)).2 h2⟩
        · exact .inl h
    · simp only [Heap.popped]
      rw [k4.mem_iff, gp]
      exact ⟨fun h => ⟨h.1, (hnd l (.inr h.1)).1 h.2⟩, fun h => ⟨h.1, (hnd l (.inr h.1)).2 h.2⟩⟩

end MC
end Verif.Traffic
