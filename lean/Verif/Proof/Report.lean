import Verif.Model.Report
import Mathlib.Data.List.Nodup
/-
Helper lemmas for the reporter (C68).
-/
set_option linter.unusedSimpArgs false
set_option linter.unusedVariables false

namespace Verif.Rep

open Spec

variable {V : Type}

/-- Keys of a map. -/
abbrev keys (m : List (String × Json V)) : List String := m.map Prod.fst

theorem lt_of_not {a b : String} (h : ¬ a < b) (hne : a ≠ b) : b < a := by
  rcases String.le_total a b with h' | h'
  · exact absurd (String.le_antisymm h' (String.not_lt.1 h)) hne
  · exact String.not_le.1 (fun h2 => hne (String.le_antisymm h2 h'))

theorem insert_spec (k : String) (v : Json V) : ∀ (m : Obj V), k ∉ keys m → m.Pairwise (fun a b => a.1 < b.1) →
    (insert k v m).2 = false ∧ (insert k v m).1.Perm ((k, v) :: m) ∧
    (insert k v m).1.Pairwise (fun a b => a.1 < b.1) := by
  intro m
  induction m with
  | nil => intro _ _; simp [insert]
  | cons e m ih =>
    obtain ⟨k', v'⟩ := e
    intro hk hs
    simp only [keys, List.map_cons, List.mem_cons, not_or] at hk
    rw [List.pairwise_cons] at hs
    unfold insert
    by_cases h1 : k < k'
    · simp only [if_pos h1]
      refine ⟨trivial, List.Perm.refl _, ?_⟩
      rw [List.pairwise_cons]
      refine ⟨?_, List.pairwise_cons.2 hs⟩
      intro x hx
      rcases List.mem_cons.1 hx with rfl | hx
      · exact h1
      · exact String.lt_trans h1 (hs.1 x hx)
    · simp only [if_neg h1, if_neg hk.1]
      obtain ⟨i1, i2, i3⟩ := ih hk.2 hs.2
      refine ⟨i1, ?_, ?_⟩
      · exact (List.Perm.cons _ i2).trans (List.Perm.swap _ _ _)
      · rw [List.pairwise_cons]
        refine ⟨?_, i3⟩
        intro x hx
        rcases List.mem_cons.1 (i2.mem_iff.1 hx) with rfl | hx
        · exact lt_of_not h1 hk.1
        · exact hs.1 x hx

/-- The map after adding entries. -/
def insertAll (m : Obj V) (es : List (String × Json V)) : Obj V := es.foldl (fun m e => (insert e.1 e.2 m).1) m

theorem insertAll_append (m : Obj V) (a b : List (String × Json V)) :
    insertAll m (a ++ b) = insertAll (insertAll m a) b := by simp [insertAll, List.foldl_append]

/-- A map in order. -/
abbrev Ord (m : Obj V) : Prop := m.Pairwise (fun a b => a.1 < b.1)

theorem insertAll_spec : ∀ (es : List (String × Json V)) (m : Obj V), (keys m ++ keys es).Nodup → Ord m →
    (insertAll m es).Perm (m ++ es) ∧ Ord (insertAll m es) := by
  intro es
  induction es with
  | nil => intro m _ h; simp [insertAll, h]
  | cons e es ih =>
    intro m hn hs
    have hk : e.1 ∉ keys m := by
      rw [List.nodup_append] at hn
      intro hm
      exact hn.2.2 _ hm e.1 (by simp [keys]) rfl
    obtain ⟨_, i2, i3⟩ := insert_spec e.1 e.2 m hk hs
    have hp : (keys (insert e.1 e.2 m).1 ++ keys es).Perm (keys m ++ keys (e :: es)) := by
      refine ((i2.map Prod.fst).append_right _).trans ?_
      simp only [keys, List.map_cons, List.cons_append]
      exact (List.perm_middle).symm
    obtain ⟨j1, j2⟩ := ih (insert e.1 e.2 m).1 (hp.nodup_iff.2 hn) i3
    refine ⟨?_, j2⟩
    refine j1.trans ?_
    refine (i2.append_right _).trans ?_
    simp only [List.cons_append]
    exact (List.perm_middle).symm

theorem insertAll_byKey (es : List (String × Json V)) (hn : (keys es).Nodup) : insertAll [] es = byKey es := by
  obtain ⟨h1, h2⟩ := insertAll_spec es [] (by simpa [keys] using hn) List.Pairwise.nil
  refine List.Perm.eq_of_pairwise (le := fun a b => (decide (a.1 ≤ b.1)) = true) ?_ ?_ ?_ ?_
  · intro a b ha hb h3 h4
    have ha' : a ∈ es := by simpa using h1.mem_iff.1 ha
    have hb' : b ∈ es := (List.mergeSort_perm _ _).mem_iff.1 hb
    simp only [decide_eq_true_eq] at h3 h4
    exact List.inj_on_of_nodup_map hn ha' hb' (String.le_antisymm h3 h4)
  · refine h2.imp ?_
    intro a b h
    simp only [decide_eq_true_eq]
    exact String.not_lt.1 (String.lt_asymm h)
  · refine List.pairwise_mergeSort ?_ ?_ es
    · intro a b c h h'
      simp only [decide_eq_true_eq] at *
      exact String.le_trans h h'
    · intro a b
      have := String.le_total a.1 b.1
      simpa using this
  · simpa [byKey] using h1.trans (List.mergeSort_perm _ _).symm

theorem insertChecked_fresh (allow : Bool) (k : String) (v : Json V) (m : Obj V) (hk : k ∉ keys m) (hs : Ord m) :
    insertChecked allow k v m = some (insertAll m [(k, v)]) := by
  obtain ⟨h, _, _⟩ := insert_spec k v m hk hs
  simp [insertChecked, h, insertAll]

/-- The current context at a place. -/
def curAt : Place → Obj V → List (Json V) → Cur V
  | .object, m, _ => .obj m
  | .list, _, l => .coll l
  | .capture, m, _ => .capture m
  | .blocked, _, _ => .throwaway

theorem run_append (allow : Bool) (s : Sess V) (a b : List (Op V)) :
    Sess.run allow s (a ++ b) = (Sess.run allow s a).bind (fun s => Sess.run allow s b) := by
  simp only [Sess.run, List.foldlM_append]; rfl

theorem run_cons (allow : Bool) (s : Sess V) (a : Op V) (b : List (Op V)) :
    Sess.run allow s (a :: b) = (Sess.step allow s a).bind (fun s => Sess.run allow s b) := by
  simp only [Sess.run, List.foldlM_cons]; rfl

theorem run_nil (allow : Bool) (s : Sess V) : Sess.run allow s [] = some s := rfl

/-- The keys that matter at a place are different. -/
def KeysOK (p : Place) (m : Obj V) (es : List (String × Json V)) : Prop :=
  (p = .object ∨ p = .capture) → (keys m ++ keys es).Nodup ∧ Ord m

theorem keysOK_nil (p : Place) {es : List (String × Json V)} (h : (keys es).Nodup) : KeysOK p ([] : Obj V) es :=
  fun _ => ⟨by simpa [keys] using h, List.Pairwise.nil⟩

theorem keysOK_trivial {p : Place} (h1 : p ≠ .object) (h2 : p ≠ .capture) (m : Obj V) (es : List (String × Json V)) :
    KeysOK p m es := fun h => by rcases h with h | h <;> contradiction

theorem KeysOK.left {p : Place} {m : Obj V} {a b : List (String × Json V)} (h : KeysOK p m (a ++ b)) : KeysOK p m a := by
  intro hp
  obtain ⟨h1, h2⟩ := h hp
  refine ⟨?_, h2⟩
  simp only [keys, List.map_append, ← List.append_assoc] at h1
  exact (List.nodup_append.1 h1).1

theorem KeysOK.right {p : Place} {m : Obj V} {a b : List (String × Json V)} (h : KeysOK p m (a ++ b)) :
    KeysOK p (insertAll m a) b := by
  intro hp
  obtain ⟨h1, h2⟩ := h hp
  obtain ⟨h3, h4⟩ := h.left hp
  obtain ⟨h5, h6⟩ := insertAll_spec a m h3 h4
  refine ⟨?_, h6⟩
  simp only [keys, List.map_append, ← List.append_assoc] at h1
  refine ((h5.map Prod.fst).append_right _).nodup_iff.2 ?_
  simpa [keys] using h1

theorem KeysOK.fresh {p : Place} {m : Obj V} {k : String} {v : Json V} (h : KeysOK p m [(k, v)])
    (hp : p = .object ∨ p = .capture) : k ∉ keys m ∧ Ord m := by
  obtain ⟨h1, h2⟩ := h hp
  refine ⟨?_, h2⟩
  rw [List.nodup_append] at h1
  intro hm
  exact h1.2.2 k hm k (by simp [keys]) rfl

/-- The outcome of running the calls `os` at place `p`: the entries and items are added if `ok` holds, a panic otherwise. -/
def Out (allow : Bool) (p : Place) (m : Obj V) (l : List (Json V)) (st : List (Item V)) (rep : List (Option (Obj V)))
    (os : List (Op V)) (ok : Prop) (es : List (String × Json V)) (is : List (Json V)) (cs : List (Obj V)) : Prop :=
  (ok ∧ Sess.run allow ⟨some ⟨curAt p m l, st⟩, rep⟩ os =
    some ⟨some ⟨curAt p (insertAll m es) (l ++ is), st⟩, rep ++ cs.map some⟩) ∨
  (¬ ok ∧ Sess.run allow ⟨some ⟨curAt p m l, st⟩, rep⟩ os = none)

mutual
theorem fits_object_capture : ∀ (l : List (Act V)), Act.FitsAll true .object l → Act.FitsAll true .capture l
  | [], _ => by simp [Act.FitsAll]
  | a :: l, h => by
    simp only [Act.FitsAll] at h ⊢
    refine ⟨?_, fits_object_capture l h.2⟩
    have h := h.1
    cases a <;> simp_all [Act.Fits]
end

mutual
theorem act_out (allow : Bool) : ∀ (a : Act V) (p : Place) (m : Obj V) (l : List (Json V)) (st : List (Item V))
    (rep : List (Option (Obj V))), Act.Fits true p a → KeysOK p m a.entries →
    Out allow p m l st rep (ops a) (Act.Fits false p a) a.entries a.itemOf a.captures
  | .report k v, p, m, l, st, rep, hf, hk => by
    refine Or.inl ?_
    cases p
    case list => simp [Act.Fits] at hf
    case blocked => simp [Act.Fits, ops, run_cons, run_nil, Sess.step, curAt, Reporter.report, Act.captures]
    all_goals
      obtain ⟨h1, h2⟩ := KeysOK.fresh hk (by simp)
      simp [Act.Fits, ops, run_cons, run_nil, Sess.step, curAt, Reporter.report, insertChecked_fresh allow k _ m h1 h2,
        Act.captures, Act.entries]
  | .context k b, p, m, l, st, rep, hf, hk => by
    cases p
    case list => simp [Act.Fits] at hf
    case blocked =>
      simp only [Act.Fits] at hf
      have ih := acts_out allow b .blocked m l st rep hf (keysOK_trivial (by simp) (by simp) _ _)
      simp only [Out, Act.Fits, ops, run_cons, run_append, Sess.step, curAt, Reporter.createObject,
        Act.captures] at ih ⊢
      rcases ih with ⟨h1, h2⟩ | ⟨h1, h2⟩
      · exact Or.inl ⟨h1, by simp [h2, run_cons, run_nil, Sess.step, Reporter.pop]⟩
      · exact Or.inr ⟨h1, by simp [h2]⟩
    case object =>
      simp only [Act.Fits] at hf
      obtain ⟨hk1, hk2⟩ := KeysOK.fresh hk (by simp)
      have ih := acts_out allow b .object [] [] (.key k :: .obj m :: st) rep hf.1 (keysOK_nil _ hf.2)
      simp only [Out, Act.Fits, ops, run_cons, run_append, Sess.step, curAt, Reporter.createObject,
        Act.captures] at ih ⊢
      rcases ih with ⟨h1, h2⟩ | ⟨h1, h2⟩
      · refine Or.inl ⟨⟨h1, hf.2⟩, ?_⟩
        simp [h2, run_cons, run_nil, Sess.step, Reporter.pop, insertAll_byKey _ hf.2,
          insertChecked_fresh allow k _ m hk1 hk2, Act.entries, Act.itemOf]
      · exact Or.inr ⟨fun h => h1 h.1, by simp [h2]⟩
    case capture =>
      simp only [Act.Fits] at hf
      have ih := acts_out allow b .capture [] [] (.key k :: .capture m :: st) rep
        (fits_object_capture b hf.2.1) (keysOK_nil _ hf.2.2)
      simp only [Out, Act.Fits, ops, run_cons, run_append, Sess.step, curAt, Reporter.createObject,
        Act.captures] at ih ⊢
      refine Or.inr ⟨by simp, ?_⟩
      rcases ih with ⟨h1, h2⟩ | ⟨h1, h2⟩
      · simp [h2, run_cons, run_nil, Sess.step, Reporter.pop]
      · simp [h2]
  | .collection k b, p, m, l, st, rep, hf, hk => by
    cases p
    case list => simp [Act.Fits] at hf
    case blocked =>
      simp only [Act.Fits] at hf
      have ih := acts_out allow b .blocked m l st rep hf (keysOK_trivial (by simp) (by simp) _ _)
      simp only [Out, Act.Fits, ops, run_cons, run_append, Sess.step, curAt, Reporter.createCollection,
        Act.captures] at ih ⊢
      rcases ih with ⟨h1, h2⟩ | ⟨h1, h2⟩
      · exact Or.inl ⟨h1, by simp [h2, run_cons, run_nil, Sess.step, Reporter.pop]⟩
      · exact Or.inr ⟨h1, by simp [h2]⟩
    case object =>
      simp only [Act.Fits] at hf
      obtain ⟨hk1, hk2⟩ := KeysOK.fresh hk (by simp)
      have ih := acts_out allow b .list [] [] (.key k :: .obj m :: st) rep hf (keysOK_trivial (by simp) (by simp) _ _)
      simp only [Out, Act.Fits, ops, run_cons, run_append, Sess.step, curAt, Reporter.createCollection,
        Act.captures] at ih ⊢
      rcases ih with ⟨h1, h2⟩ | ⟨h1, h2⟩
      · refine Or.inl ⟨h1, ?_⟩
        simp [h2, run_cons, run_nil, Sess.step, Reporter.pop,
          insertChecked_fresh allow k _ m hk1 hk2, Act.entries, Act.itemOf]
      · exact Or.inr ⟨h1, by simp [h2]⟩
    case capture =>
      simp only [Act.Fits] at hf
      have ih := acts_out allow b .list [] [] (.key k :: .capture m :: st) rep hf.2
        (keysOK_trivial (by simp) (by simp) _ _)
      simp only [Out, Act.Fits, ops, run_cons, run_append, Sess.step, curAt, Reporter.createCollection,
        Act.captures] at ih ⊢
      refine Or.inr ⟨by simp, ?_⟩
      rcases ih with ⟨h1, h2⟩ | ⟨h1, h2⟩
      · simp [h2, run_cons, run_nil, Sess.step, Reporter.pop]
      · simp [h2]
  | .item b, p, m, l, st, rep, hf, hk => by
    cases p
    case object => simp [Act.Fits] at hf
    case capture => simp [Act.Fits] at hf
    case blocked =>
      simp only [Act.Fits] at hf
      have ih := acts_out allow b .blocked m l st rep hf (keysOK_trivial (by simp) (by simp) _ _)
      simp only [Out, Act.Fits, ops, run_cons, run_append, Sess.step, curAt, Reporter.createItem,
        Act.captures] at ih ⊢
      rcases ih with ⟨h1, h2⟩ | ⟨h1, h2⟩
      · exact Or.inl ⟨h1, by simp [h2, run_cons, run_nil, Sess.step, Reporter.pop]⟩
      · exact Or.inr ⟨h1, by simp [h2]⟩
    case list =>
      simp only [Act.Fits] at hf
      have ih := acts_out allow b .object [] [] (.coll l :: st) rep hf.1 (keysOK_nil _ hf.2)
      simp only [Out, Act.Fits, ops, run_cons, run_append, Sess.step, curAt, Reporter.createItem,
        Act.captures] at ih ⊢
      rcases ih with ⟨h1, h2⟩ | ⟨h1, h2⟩
      · refine Or.inl ⟨⟨h1, hf.2⟩, ?_⟩
        simp [h2, run_cons, run_nil, Sess.step, Reporter.pop, insertAll_byKey _ hf.2, Act.entries, Act.itemOf]
      · exact Or.inr ⟨fun h => h1 h.1, by simp [h2]⟩
  | .blocked b, p, m, l, st, rep, hf, hk => by
    have hf' : Act.FitsAll true .blocked b := by cases p <;> simpa only [Act.Fits] using hf
    have hr : Act.Fits false p (.blocked b) ↔ Act.FitsAll false .blocked b := by cases p <;> simp only [Act.Fits]
    have ih := acts_out allow b .blocked [] [] ((curAt p m l).save :: st) rep hf' (keysOK_trivial (by simp) (by simp) _ _)
    simp only [Out, hr] at ih ⊢
    simp only [ops, run_cons, run_append, Sess.step, Reporter.block, Act.captures, Option.bind_some]
    rcases ih with ⟨h1, h2⟩ | ⟨h1, h2⟩
    · refine Or.inl ⟨h1, ?_⟩
      simp only [curAt] at h2
      cases p <;> simp only [curAt, Cur.save] at h2 ⊢ <;>
        simp [h2, run_cons, run_nil, Sess.step, Reporter.restore, Act.entries, Act.itemOf, insertAll]
    · refine Or.inr ⟨h1, ?_⟩
      simp only [curAt] at h2
      cases p <;> simp only [curAt, Cur.save] at h2 ⊢ <;> simp [h2]
  | .captured b, p, m, l, st, rep, hf, hk => by
    have hf' : Act.FitsAll true .capture b ∧ (keys (Act.entriesAll b)).Nodup := by
      cases p <;> simpa only [Act.Fits] using hf
    have hr : Act.Fits false p (.captured b) ↔ (Act.FitsAll false .capture b ∧ (keys (Act.entriesAll b)).Nodup) := by
      cases p <;> simp only [Act.Fits]
    have ih := acts_out allow b .capture [] [] ((curAt p m l).save :: st) rep hf'.1 (keysOK_nil _ hf'.2)
    simp only [Out, hr] at ih ⊢
    simp only [ops, run_cons, run_append, Sess.step, Reporter.capture, Act.captures, Option.bind_some]
    rcases ih with ⟨h1, h2⟩ | ⟨h1, h2⟩
    · refine Or.inl ⟨⟨h1, hf'.2⟩, ?_⟩
      simp only [curAt] at h2
      cases p <;> simp only [curAt, Cur.save] at h2 ⊢ <;>
        simp [h2, run_cons, run_nil, Sess.step, Reporter.restore, Act.entries, Act.itemOf, insertAll_byKey _ hf'.2] <;>
        simp [insertAll]
    · refine Or.inr ⟨fun h => h1 h.1, ?_⟩
      simp only [curAt] at h2
      cases p <;> simp only [curAt, Cur.save] at h2 ⊢ <;> simp [h2]
theorem acts_out (allow : Bool) : ∀ (a : List (Act V)) (p : Place) (m : Obj V) (l : List (Json V)) (st : List (Item V))
    (rep : List (Option (Obj V))), Act.FitsAll true p a → KeysOK p m (Act.entriesAll a) →
    Out allow p m l st rep (opsAll a) (Act.FitsAll false p a) (Act.entriesAll a) (Act.items a) (Act.capturesAll a)
  | [], p, m, l, st, rep, _, _ => by
    refine Or.inl ⟨by simp [Act.FitsAll], ?_⟩
    simp [opsAll, run_nil, Act.entriesAll, Act.items, Act.capturesAll, insertAll]
  | a :: as, p, m, l, st, rep, hf, hk => by
    simp only [Act.FitsAll] at hf
    simp only [Act.entriesAll] at hk
    have h1 := act_out allow a p m l st rep hf.1 hk.left
    simp only [Out, Act.FitsAll, opsAll, run_append] at h1 ⊢
    rcases h1 with ⟨h1, h2⟩ | ⟨h1, h2⟩
    · have h3 := acts_out allow as p (insertAll m a.entries) (l ++ a.itemOf) st (rep ++ a.captures.map some) hf.2 hk.right
      simp only [Out] at h3
      rcases h3 with ⟨h3, h4⟩ | ⟨h3, h4⟩
      · refine Or.inl ⟨⟨h1, h3⟩, ?_⟩
        simp [h2, h4, Act.entriesAll, Act.items, Act.capturesAll, insertAll_append]
      · exact Or.inr ⟨fun h => h3 h.2, by simp [h2, h4]⟩
    · exact Or.inr ⟨fun h => h1 h.1, by simp [h2]⟩
end

mutual
theorem fits_mono : ∀ (a : Act V) (p : Place), Act.Fits false p a → Act.Fits true p a
  | .report _ _, p, h => by cases p <;> simp_all [Act.Fits]
  | .context _ b, p, h => by
    cases p <;> simp only [Act.Fits] at h ⊢
    · exact ⟨fits_mono_all b _ h.1, h.2⟩
    · exact absurd h.1 (by simp)
    · exact fits_mono_all b _ h
  | .collection _ b, p, h => by
    cases p <;> simp only [Act.Fits] at h ⊢
    · exact fits_mono_all b _ h
    · exact absurd h.1 (by simp)
    · exact fits_mono_all b _ h
  | .item b, p, h => by
    cases p <;> simp only [Act.Fits] at h ⊢
    · exact ⟨fits_mono_all b _ h.1, h.2⟩
    · exact fits_mono_all b _ h
  | .blocked b, p, h => by
    cases p <;> simp only [Act.Fits] at h ⊢ <;> exact fits_mono_all b _ h
  | .captured b, p, h => by
    cases p <;> simp only [Act.Fits] at h ⊢ <;> exact ⟨fits_mono_all b _ h.1, h.2⟩
theorem fits_mono_all : ∀ (l : List (Act V)) (p : Place), Act.FitsAll false p l → Act.FitsAll true p l
  | [], _, _ => by simp [Act.FitsAll]
  | a :: l, p, h => by
    simp only [Act.FitsAll] at h ⊢
    exact ⟨fits_mono a p h.1, fits_mono_all l p h.2⟩
end

theorem session_out (allow : Bool) (p : List (Act V)) (h : Act.Program true p) :
    (Act.Program false p → session allow (opsAll p) =
      some ((Act.capturesAll p).map some, some (byKey (Act.entriesAll p)))) ∧
    (¬ Act.Program false p → session allow (opsAll p) = none) := by
  have := acts_out allow p .object [] [] [] [] h.1 (keysOK_nil _ h.2)
  simp only [Out, curAt, Act.Program] at this ⊢
  constructor
  · intro hp
    rcases this with ⟨h1, h2⟩ | ⟨h1, h2⟩
    · simp [session, Reporter.new, h2, Sess.finish, insertAll_byKey _ h.2]
    · exact absurd hp.1 h1
  · intro hp
    rcases this with ⟨h1, h2⟩ | ⟨h1, h2⟩
    · exact absurd ⟨h1, h.2⟩ hp
    · simp [session, Reporter.new, h2]

end Verif.Rep
