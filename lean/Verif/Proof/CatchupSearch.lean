import Verif.Proof.CatchupPath
set_option linter.unusedSimpArgs false
set_option linter.unusedVariables false
/- The A* search of the CATCHUp query without lazy relaxation. -/
namespace Verif.Catchup
open Fl Spec

/-- a relaxation: end, lower bound and travel time of the arc -/
structure Item where
  y : Nat
  lo : Rat
  val : Rat
  par : Nat × Nat

def relaxStep (eps latest d : Rat) (s : Search) (i : Item) : Search :=
  if flt eps (min latest (s.dist i.y)) (d + i.lo) then s else improve (d + i.val) i.y i.par s

theorem improve_same (ea : Rat) (y : Nat) (p : Nat × Nat) (s : Search) : (improve ea y p s).lbt = s.lbt ∧ (improve ea y p s).rel = s.rel := by
  unfold improve; simp only
  split
  · exact ⟨rfl, rfl⟩
  · split
    · split <;> exact ⟨rfl, rfl⟩
    · exact ⟨rfl, rfl⟩

theorem relaxStep_same (eps latest d : Rat) (s : Search) (i : Item) : (relaxStep eps latest d s i).lbt = s.lbt ∧ (relaxStep eps latest d s i).rel = s.rel := by
  unfold relaxStep; split
  · exact ⟨rfl, rfl⟩
  · exact improve_same _ _ _ _

theorem fold_same (eps latest d : Rat) (L : List Item) : ∀ (s : Search), (L.foldl (relaxStep eps latest d) s).lbt = s.lbt ∧
    (L.foldl (relaxStep eps latest d) s).rel = s.rel := by
  induction L with
  | nil => intro s; exact ⟨rfl, rfl⟩
  | cons i L ih =>
    intro s
    rw [List.foldl_cons]
    have h1 := ih (relaxStep eps latest d s i)
    have h2 := relaxStep_same eps latest d s i
    exact ⟨h1.1.trans h2.1, h1.2.trans h2.2⟩

section
variable {G : Graph} {R : Network} {depth : Nat} {eps latest : Rat}

theorem relax_eq {x : Nat} {d v : Rat} {dir : Bool} {id tgt : Nat} {lo : Rat} {s : Search} (hv : evalArc G depth dir id d = some v) :
    relax false eps latest G depth x d dir id tgt lo s = some (relaxStep eps latest d s ⟨tgt, lo, v, (x, id)⟩) := by
  unfold relax relaxStep segment
  simp only [hv, Bool.false_eq_true, if_false, Option.map_some, Option.bind_eq_bind, Option.bind_some]
  split <;> rfl

/-- an arc that is relaxed when `x` is popped -/
inductive Relevant (G : Graph) (eps : Rat) (bw : Nodes) (bmask rel : Nat → Bool) (x : Nat) : Bool → Nat → Nat → Rat → Prop where
  | up {id : Nat} {a : Arc} : G.outgoing[id]? = some a → a.tail = x → rel id = true → Relevant G eps bw bmask rel x true id a.head a.lo
  | down {l : Label} {a : Arc} : bmask x = true → l ∈ kept eps (bw x) → G.incoming[l.id]? = some a → Relevant G eps bw bmask rel x false l.id l.parent a.lo

/-- labels of the backward corridor belong to arcs -/
def LabelArcs (G : Graph) (bw : Nodes) : Prop := ∀ x, ∀ l ∈ (bw x).labels, ∃ a, G.incoming[l.id]? = some a ∧ a.tail = l.parent ∧ a.head = x

structure ItemOK (G : Graph) (eps : Rat) (depth : Nat) (bw : Nodes) (bmask rel : Nat → Bool) (x : Nat) (d : Rat) (i : Item) : Prop where
  rel : ∃ dir id, Relevant G eps bw bmask rel x dir id i.y i.lo ∧ evalArc G depth dir id d = some i.val ∧ i.par = (x, id)

theorem up_items (hE : EvalOK G R depth) {bw : Nodes} {bmask rel : Nat → Bool} {x : Nat} {d : Rat} : ∀ (L : List (Nat × Arc)) (s : Search), s.rel = rel →
    (∀ p ∈ L, p ∈ links G.outgoing x) → ∃ items : List Item, L.foldlM (relaxUp false eps latest G depth x d) s = some (items.foldl (relaxStep eps latest d) s) ∧
      (∀ i ∈ items, ItemOK G eps depth bw bmask rel x d i) ∧
      (∀ p ∈ L, rel p.1 = true → ∃ v, evalArc G depth true p.1 d = some v ∧ (⟨p.2.head, p.2.lo, v, (x, p.1)⟩ : Item) ∈ items) := by
  intro L
  induction L with
  | nil => intro s _ _; exact ⟨[], rfl, by simp, by simp⟩
  | cons p L ih =>
    intro s hs hL
    rw [List.foldlM_cons]
    unfold relaxUp
    obtain ⟨h1, h2⟩ := mem_links.1 (hL p (by simp))
    rw [hs]
    split
    · next hr =>
      obtain ⟨v, hv, _, _⟩ := hE true p.1 p.2 h1 d
      rw [relax_eq hv]
      simp only [Option.bind_eq_bind, Option.bind_some]
      obtain ⟨items, i1, i2, i3⟩ := ih (relaxStep eps latest d s ⟨p.2.head, p.2.lo, v, (x, p.1)⟩) ((relaxStep_same _ _ _ _ _).2.trans hs) (fun q hq => hL q (by simp [hq]))
      refine ⟨⟨p.2.head, p.2.lo, v, (x, p.1)⟩ :: items, i1, ?_, ?_⟩
      · intro i hi
        rw [List.mem_cons] at hi
        rcases hi with rfl | hi
        · exact ⟨true, p.1, .up h1 h2 hr, hv, rfl⟩
        · exact i2 i hi
      · intro q hq hrq
        rw [List.mem_cons] at hq
        rcases hq with rfl | hq
        · exact ⟨v, hv, by simp⟩
        · obtain ⟨v', h3, h4⟩ := i3 q hq hrq
          exact ⟨v', h3, by simp [h4]⟩
    · next hr =>
      simp only [Option.bind_eq_bind, Option.bind_some]
      obtain ⟨items, i1, i2, i3⟩ := ih s hs (fun q hq => hL q (by simp [hq]))
      refine ⟨items, i1, i2, ?_⟩
      intro q hq hrq
      rw [List.mem_cons] at hq
      rcases hq with rfl | hq
      · exact absurd hrq hr
      · exact i3 q hq hrq

theorem down_items (hE : EvalOK G R depth) {bw : Nodes} (hbw : LabelArcs G bw) {bmask rel : Nat → Bool} {x : Nat} (hx : bmask x = true) {d : Rat} :
    ∀ (L : List Label) (s : Search), (∀ l ∈ L, l ∈ kept eps (bw x)) →
    ∃ items : List Item, L.foldlM (relaxDown false eps latest G depth x d) s = some (items.foldl (relaxStep eps latest d) s) ∧
      (∀ i ∈ items, ItemOK G eps depth bw bmask rel x d i) ∧
      (∀ l ∈ L, ∀ a, G.incoming[l.id]? = some a → ∃ v, evalArc G depth false l.id d = some v ∧ (⟨l.parent, a.lo, v, (x, l.id)⟩ : Item) ∈ items) := by
  intro L
  induction L with
  | nil => intro s _; exact ⟨[], rfl, by simp, by simp⟩
  | cons l L ih =>
    intro s hL
    rw [List.foldlM_cons]
    unfold relaxDown
    have hk := hL l (by simp)
    obtain ⟨a, h1, h2, h3⟩ := hbw x l (mem_kept.1 hk).1
    obtain ⟨v, hv, _, _⟩ := hE false l.id a h1 d
    simp only [h1, Option.bind_eq_bind, Option.bind_some, relax_eq hv]
    obtain ⟨items, i1, i2, i3⟩ := ih (relaxStep eps latest d s ⟨l.parent, a.lo, v, (x, l.id)⟩) (fun q hq => hL q (by simp [hq]))
    refine ⟨⟨l.parent, a.lo, v, (x, l.id)⟩ :: items, i1, ?_, ?_⟩
    · intro i hi
      rw [List.mem_cons] at hi
      rcases hi with rfl | hi
      · exact ⟨false, l.id, .down hx hk h1, hv, rfl⟩
      · exact i2 i hi
    · intro q hq a' ha'
      rw [List.mem_cons] at hq
      rcases hq with rfl | hq
      · rw [h1] at ha'; injection ha' with ha'; subst ha'
        exact ⟨v, hv, by simp⟩
      · obtain ⟨v', h3, h4⟩ := i3 q hq a' ha'
        exact ⟨v', h3, by simp [h4]⟩

/-- A popped node relaxes exactly its relevant arcs. -/
theorem popped_items (hE : EvalOK G R depth) {bw : Nodes} (hbw : LabelArcs G bw) {bmask rel : Nat → Bool} (x : Nat) (s : Search) (hs : s.rel = rel) :
    ∃ items : List Item, popped false eps latest G depth bw bmask x s = some (items.foldl (relaxStep eps latest (s.dist x)) s) ∧
      (∀ i ∈ items, ItemOK G eps depth bw bmask rel x (s.dist x) i) ∧
      (∀ dir id y lo, Relevant G eps bw bmask rel x dir id y lo → ∃ v, evalArc G depth dir id (s.dist x) = some v ∧ (⟨y, lo, v, (x, id)⟩ : Item) ∈ items) := by
  obtain ⟨I, i1, i2, i3⟩ := up_items (eps := eps) (latest := latest) (bw := bw) (bmask := bmask) (d := s.dist x) hE (links G.outgoing x) s hs (fun p hp => hp)
  unfold popped
  simp only [i1, Option.bind_eq_bind, Option.bind_some]
  by_cases hb : bmask x = true
  · obtain ⟨J, j1, j2, j3⟩ := down_items (eps := eps) (latest := latest) (rel := rel) (d := s.dist x) hE hbw hb (kept eps (bw x))
      (I.foldl (relaxStep eps latest (s.dist x)) s) (fun l hl => hl)
    refine ⟨I ++ J, ?_, ?_, ?_⟩
    · simp only [hb, if_true, List.foldl_append]; exact j1
    · intro i hi
      rcases List.mem_append.1 hi with hi | hi
      · exact i2 i hi
      · exact j2 i hi
    · intro dir id y lo h
      cases h with
      | up h1 h2 h3 =>
        obtain ⟨v, h4, h5⟩ := i3 (id, _) (mem_links.2 ⟨h1, h2⟩) h3
        exact ⟨v, h4, List.mem_append.2 (.inl h5)⟩
      | down h1 h2 h3 =>
        obtain ⟨v, h4, h5⟩ := j3 _ h2 _ h3
        exact ⟨v, h4, List.mem_append.2 (.inr h5)⟩
  · refine ⟨I, ?_, i2, ?_⟩
    · simp only [hb, if_false, Bool.false_eq_true]
    · intro dir id y lo h
      cases h with
      | up h1 h2 h3 => exact i3 (id, _) (mem_links.2 ⟨h1, h2⟩) h3
      | down h1 h2 h3 => exact absurd h1 hb

/-! ## The queue -/

theorem least_spec : ∀ (q : List (Nat × Rat)), (least q = none → q = []) ∧ ∀ p, least q = some p → p ∈ q ∧ ∀ p' ∈ q, p.2 ≤ p'.2 := by
  intro q
  induction q with
  | nil => exact ⟨fun _ => rfl, fun p h => by simp [least] at h⟩
  | cons a q ih =>
    rw [least]
    cases hl : least q with
    | none =>
      have := ih.1 hl; subst this
      refine ⟨fun h => by simp at h, ?_⟩
      intro p hp
      simp only [Option.some.injEq] at hp; subst hp
      exact ⟨by simp, fun p' h => by simp only [List.mem_singleton] at h; rw [h]⟩
    | some b =>
      obtain ⟨h1, h2⟩ := ih.2 b hl
      refine ⟨?_, ?_⟩
      · intro h; simp only at h; split at h <;> simp at h
      · intro p hp
        simp only at hp
        split at hp
        · next hb =>
          simp only [Option.some.injEq] at hp; subst hp
          refine ⟨by simp [h1], ?_⟩
          intro p' h
          rw [List.mem_cons] at h
          rcases h with rfl | h
          · unfold before at hb
            simp only [Bool.or_eq_true, Bool.and_eq_true, decide_eq_true_eq] at hb
            rcases hb with hb | hb
            · exact le_of_lt hb
            · exact le_of_eq hb.1
          · exact h2 p' h
        · next hb =>
          simp only [Option.some.injEq] at hp; subst hp
          refine ⟨by simp, ?_⟩
          have hab : a.2 ≤ b.2 := by
            by_contra hc
            apply hb
            unfold before
            simp only [Bool.or_eq_true, decide_eq_true_eq]
            exact .inl (not_le.1 hc)
          intro p' h
          rw [List.mem_cons] at h
          rcases h with rfl | h
          · exact le_refl _
          · exact le_trans hab (h2 p' h)

theorem mem_qdel {q : List (Nat × Rat)} {v x : Nat} {k : Rat} : (x, k) ∈ qdel q v ↔ (x, k) ∈ q ∧ x ≠ v := by
  unfold qdel; rw [List.mem_filter]; simp

theorem mem_qset {q : List (Nat × Rat)} {v x : Nat} {k k' : Rat} : (x, k') ∈ qset q v k ↔ (x = v ∧ k' = k) ∨ ((x, k') ∈ q ∧ x ≠ v) := by
  unfold qset; rw [List.mem_cons, mem_qdel]; simp

theorem qdel_length (q : List (Nat × Rat)) (v : Nat) : (qdel q v).length ≤ q.length := List.length_filter_le _ _

theorem qset_length (q : List (Nat × Rat)) (v : Nat) (k : Rat) : (qset q v k).length ≤ q.length + 1 := by
  unfold qset; have := qdel_length q v; simp only [List.length_cons]; omega

theorem qdel_mem_length {q : List (Nat × Rat)} {p : Nat × Rat} (h : p ∈ q) : (qdel q p.1).length < q.length := by
  unfold qdel
  exact List.length_filter_lt_length_iff_exists.2 ⟨p, h, by simp⟩

theorem qset_mem_length {q : List (Nat × Rat)} {p : Nat × Rat} (h : p ∈ q) (k : Rat) : (qset q p.1 k).length ≤ q.length := by
  unfold qset; have := qdel_mem_length h; simp only [List.length_cons]; omega

def Uniq (q : List (Nat × Rat)) : Prop := ∀ x k k', (x, k) ∈ q → (x, k') ∈ q → k = k'

theorem Uniq.del {q : List (Nat × Rat)} (h : Uniq q) (v : Nat) : Uniq (qdel q v) := by
  intro x k k' h1 h2
  exact h x k k' (mem_qdel.1 h1).1 (mem_qdel.1 h2).1

theorem Uniq.set {q : List (Nat × Rat)} (h : Uniq q) (v : Nat) (k : Rat) : Uniq (qset q v k) := by
  intro x a b h1 h2
  rcases mem_qset.1 h1 with ⟨e1, e2⟩ | ⟨e1, e2⟩
  · rcases mem_qset.1 h2 with ⟨f1, f2⟩ | ⟨f1, f2⟩
    · rw [e2, f2]
    · exact absurd e1 f2
  · rcases mem_qset.1 h2 with ⟨f1, f2⟩ | ⟨f1, f2⟩
    · exact absurd f1 e2
    · exact h x a b e1 f1

/-- What `improve` does. -/
theorem improve_cases (ea : Rat) (y : Nat) (p : Nat × Nat) (s : Search) :
    (ea < s.dist y ∧ improve ea y p s = { s with dist := fupd s.dist y ea, queue := qset s.queue y (ea + s.lbt y), par := fupd s.par y p }) ∨
    (s.dist y ≤ ea ∧ improve ea y p s = s) ∨
    (s.dist y ≤ ea ∧ improve ea y p s = { s with queue := qset s.queue y (ea + s.lbt y) } ∧ ∃ k, (y, k) ∈ s.queue ∧ ea + s.lbt y ≤ k) := by
  unfold improve
  simp only
  split
  · next h => exact .inl ⟨h, rfl⟩
  · next h =>
    rw [not_lt] at h
    right
    split
    · next p hp =>
      have hp1 := List.mem_of_find?_eq_some hp
      have hp2 := List.find?_some hp
      simp only [beq_iff_eq] at hp2
      split
      · next hb =>
        right
        refine ⟨h, rfl, p.2, ?_, ?_⟩
        · rw [← hp2]; exact hp1
        · unfold before at hb
          simp only [Bool.or_eq_true, Bool.and_eq_true, decide_eq_true_eq] at hb
          rcases hb with hb | hb
          · exact le_of_lt hb
          · exact le_of_eq hb.1
      · exact .inl ⟨h, rfl⟩
    · exact .inl ⟨h, rfl⟩

theorem relaxStep_cases (eps latest d : Rat) (he : 0 ≤ eps) (s : Search) (i : Item) :
    ((latest < d + i.lo ∨ s.dist i.y < d + i.lo) ∧ relaxStep eps latest d s i = s) ∨ relaxStep eps latest d s i = improve (d + i.val) i.y i.par s := by
  unfold relaxStep
  split
  · next h =>
    left
    rw [flt_iff] at h
    refine ⟨?_, rfl⟩
    rcases min_choice latest (s.dist i.y) with e | e <;> rw [e] at h
    · left; linarith
    · right; linarith
  · exact .inr rfl

end
end Verif.Catchup
