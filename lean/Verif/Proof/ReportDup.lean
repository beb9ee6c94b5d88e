import Verif.Proof.Report
/-
Keys that are reported twice (C68).
-/
set_option linter.unusedSimpArgs false
set_option linter.unusedVariables false

namespace Verif.Rep

open Spec

variable {V : Type}

theorem insert_dup (k : String) (v : Json V) : ∀ (m : Obj V), k ∈ keys m → Ord m → (insert k v m).2 = true := by
  intro m
  induction m with
  | nil => intro h; simp at h
  | cons e m ih =>
    obtain ⟨k', v'⟩ := e
    intro hk hs
    rw [Ord, List.pairwise_cons] at hs
    simp only [keys, List.map_cons, List.mem_cons] at hk
    unfold insert
    rcases hk with rfl | hk
    · simp [String.lt_irrefl]
    · obtain ⟨x, hx, e⟩ := List.mem_map.1 hk
      have hlt : k' < k := e ▸ hs.1 x hx
      have h1 : ¬ k < k' := String.lt_asymm hlt
      have h2 : k ≠ k' := fun e => by rw [e] at hlt; exact String.lt_irrefl _ hlt
      simp only [if_neg h1, if_neg h2]
      exact ih hk hs.2

theorem insertChecked_dup (k : String) (v : Json V) (m : Obj V) (hk : k ∈ keys m) (hs : Ord m) : insertChecked false k v m = none := by
  simp [insertChecked, insert_dup k v m hk hs]

/-- the entry an action makes cannot be added twice -/
theorem act_dup (a : Act V) (m : Obj V) (l : List (Json V)) (st : List (Item V)) (rep : List (Option (Obj V))) (hf : Act.Fits true .object a) (hs : Ord m)
    (hd : ¬ (keys m ++ keys a.entries).Nodup) (hm : (keys m).Nodup) : Sess.run false ⟨some ⟨.obj m, st⟩, rep⟩ (ops a) = none := by
  have single : ∀ (k : String) (j : Json V), ¬ (keys m ++ keys [(k, j)]).Nodup → k ∈ keys m := by
    intro k j h
    by_contra hc
    refine h (List.nodup_append.2 ⟨hm, by simp [keys], ?_⟩)
    intro x hx y hy e
    simp [keys] at hy
    subst hy
    exact hc (e ▸ hx)
  cases a with
  | report k v =>
    have := single k _ hd
    simp [ops, run_cons, run_nil, Sess.step, Reporter.report, insertChecked_dup _ _ _ this hs]
  | context k b =>
    have hk := single k _ hd
    simp only [Act.Fits] at hf
    have ih := acts_out false b .object [] [] (.key k :: .obj m :: st) rep hf.1 (keysOK_nil _ hf.2)
    simp only [Out, curAt] at ih
    simp only [ops, run_cons, run_append, Sess.step, Reporter.createObject]
    rcases ih with ⟨h1, h2⟩ | ⟨h1, h2⟩
    · simp [h2, run_cons, run_nil, Sess.step, Reporter.pop, insertChecked_dup _ _ _ hk hs]
    · simp [h2]
  | collection k b =>
    have hk := single k _ hd
    simp only [Act.Fits] at hf
    have ih := acts_out false b .list [] [] (.key k :: .obj m :: st) rep hf (keysOK_trivial (by simp) (by simp) _ _)
    simp only [Out, curAt] at ih
    simp only [ops, run_cons, run_append, Sess.step, Reporter.createCollection]
    rcases ih with ⟨h1, h2⟩ | ⟨h1, h2⟩
    · simp [h2, run_cons, run_nil, Sess.step, Reporter.pop, insertChecked_dup _ _ _ hk hs]
    · simp [h2]
  | item b => simp [Act.Fits] at hf
  | blocked b => simp [Act.entries, keys] at hd; exact absurd hm (by simpa [keys] using hd)
  | captured b => simp [Act.entries, keys] at hd; exact absurd hm (by simpa [keys] using hd)

theorem acts_dup : ∀ (p : List (Act V)) (m : Obj V) (l : List (Json V)) (st : List (Item V)) (rep : List (Option (Obj V))), Act.FitsAll true .object p → Ord m →
    ¬ (keys m ++ keys (Act.entriesAll p)).Nodup → (keys m).Nodup → Sess.run false ⟨some ⟨.obj m, st⟩, rep⟩ (opsAll p) = none
  | [], m, l, st, rep, _, _, hd, hm => by simp [Act.entriesAll, keys] at hd; exact absurd hm (by simpa [keys] using hd)
  | a :: p, m, l, st, rep, hf, hs, hd, hm => by
    simp only [Act.FitsAll] at hf
    simp only [opsAll, run_append]
    by_cases hk : (keys m ++ keys a.entries).Nodup
    · have h1 := act_out false a .object m l st rep hf.1 (fun _ => ⟨hk, hs⟩)
      simp only [Out, curAt] at h1
      rcases h1 with ⟨h1, h2⟩ | ⟨h1, h2⟩
      · rw [h2]
        obtain ⟨i1, i2⟩ := insertAll_spec a.entries m hk hs
        have hp : (keys (insertAll m a.entries)).Perm (keys m ++ keys a.entries) := by
          have := i1.map Prod.fst
          simpa [keys] using this
        refine acts_dup p (insertAll m a.entries) [] st _ hf.2 i2 ?_ (hp.nodup_iff.2 hk)
        intro h
        refine hd ?_
        have h3 := (hp.append_right (keys (Act.entriesAll p))).nodup_iff.1 h
        simpa [Act.entriesAll, keys] using h3
      · rw [h2]; rfl
    · rw [act_dup a m l st rep hf.1 hs hk hm]; rfl

/-! ### Overriding is allowed -/

theorem insert_over (k : String) (v : Json V) : ∀ (m : Obj V), Ord m → Ord (insert k v m).1 ∧
    ∀ k' j, (k', j) ∈ (insert k v m).1 ↔ (k' = k ∧ j = v) ∨ (k' ≠ k ∧ (k', j) ∈ m) := by
  intro m
  induction m with
  | nil => intro _; simp [insert, Ord]
  | cons e m ih =>
    obtain ⟨k1, v1⟩ := e
    intro hs
    have hs0 := hs
    rw [Ord, List.pairwise_cons] at hs
    unfold insert
    by_cases h1 : k < k1
    · simp only [if_pos h1]
      refine ⟨?_, ?_⟩
      · rw [Ord, List.pairwise_cons]
        refine ⟨?_, hs0⟩
        intro x hx
        rcases List.mem_cons.1 hx with rfl | hx
        · exact h1
        · exact String.lt_trans h1 (hs.1 x hx)
      · intro k' j
        rw [List.mem_cons]
        constructor
        · rintro (h | h)
          · simp at h; exact .inl h
          · refine .inr ⟨?_, h⟩
            intro e
            subst e
            rcases List.mem_cons.1 h with h | h
            · simp at h; rw [h.1] at h1; exact String.lt_irrefl _ h1
            · exact String.lt_irrefl _ (String.lt_trans h1 (hs.1 _ h))
        · rintro (⟨rfl, rfl⟩ | ⟨_, h⟩)
          · simp
          · exact .inr h
    · by_cases h2 : k = k1
      · subst h2
        simp only [if_neg h1, if_true]
        refine ⟨List.pairwise_cons.2 hs, ?_⟩
        intro k' j
        rw [List.mem_cons, List.mem_cons]
        constructor
        · rintro (h | h)
          · simp at h; exact .inl h
          · refine .inr ⟨?_, .inr h⟩
            intro e
            have := hs.1 _ h
            rw [e] at this
            exact String.lt_irrefl _ this
        · rintro (⟨rfl, rfl⟩ | ⟨h, h' | h'⟩)
          · simp
          · simp at h'; exact absurd h'.1 h
          · exact .inr h'
      · simp only [if_neg h1, if_neg h2]
        obtain ⟨i1, i2⟩ := ih hs.2
        refine ⟨?_, ?_⟩
        · rw [Ord, List.pairwise_cons]
          refine ⟨?_, i1⟩
          rintro ⟨x, y⟩ hx
          rcases (i2 x y).1 hx with ⟨rfl, rfl⟩ | ⟨_, hx⟩
          · exact lt_of_not h1 h2
          · exact hs.1 _ hx
        · intro k' j
          rw [List.mem_cons, List.mem_cons, i2]
          constructor
          · rintro (h | h | h)
            · simp at h; exact .inr ⟨by rw [h.1]; exact fun e => h2 e.symm, .inl (by simp [h])⟩
            · exact .inl h
            · exact .inr ⟨h.1, .inr h.2⟩
          · rintro (h | ⟨h, h' | h'⟩)
            · exact .inr (.inl h)
            · exact .inl h'
            · exact .inr (.inr ⟨h, h'⟩)

/-- reports one after the other -/
theorem reports_over : ∀ (l : List (String × V)) (m : Obj V) (rep : List (Option (Obj V))), Ord m →
    ∃ m', Sess.run true ⟨some ⟨.obj m, []⟩, rep⟩ (opsAll (l.map (fun e => Act.report e.1 e.2))) = some ⟨some ⟨.obj m', []⟩, rep⟩ ∧ Ord m' ∧
      ∀ k j, (k, j) ∈ m' ↔ (∃ A v B, l = A ++ (k, v) :: B ∧ k ∉ B.map Prod.fst ∧ j = .val v) ∨ (k ∉ l.map Prod.fst ∧ (k, j) ∈ m)
  | [], m, rep, hs => ⟨m, rfl, hs, by simp⟩
  | (k0, v0) :: l, m, rep, hs => by
    obtain ⟨i1, i2⟩ := insert_over k0 (.val v0) m hs
    obtain ⟨m', h1, h2, h3⟩ := reports_over l (insert k0 (.val v0) m).1 rep i1
    refine ⟨m', ?_, h2, ?_⟩
    · simp only [List.map_cons, opsAll, ops, run_append, run_cons, run_nil, Sess.step, Reporter.report, insertChecked]
      simpa using h1
    · intro k j
      rw [h3, i2]
      constructor
      · rintro (⟨A, v, B, e, h, hj⟩ | ⟨h, ⟨rfl, rfl⟩ | ⟨hk, hm⟩⟩)
        · exact .inl ⟨(k0, v0) :: A, v, B, by rw [e]; rfl, h, hj⟩
        · exact .inl ⟨[], v0, l, rfl, h, rfl⟩
        · exact .inr ⟨by rw [List.map_cons, List.mem_cons, not_or]; exact ⟨hk, h⟩, hm⟩
      · rintro (⟨A, v, B, e, h, hj⟩ | ⟨h, hm⟩)
        · cases A with
          | nil =>
            simp at e
            obtain ⟨⟨rfl, rfl⟩, rfl⟩ := e
            exact .inr ⟨h, .inl ⟨rfl, hj⟩⟩
          | cons x A =>
            simp at e
            exact .inl ⟨A, v, B, e.2, h, hj⟩
        · rw [List.map_cons, List.mem_cons, not_or] at h
          exact .inr ⟨h.2, .inr ⟨h.1, hm⟩⟩

end Verif.Rep
