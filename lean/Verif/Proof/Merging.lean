import Verif.Model.Merging
import Verif.Spec.Merging
import Mathlib.Data.List.Nodup
set_option linter.unusedSimpArgs false
set_option linter.unusedVariables false
/- Metric merging: the queue holds one entry per pair of groups, and after each round a smallest entry is complete. -/
namespace Verif.Merging
open Spec

theorem le_refl (a : Entry) : a.le a = true := by simp [Entry.le]

theorem le_trans {a b c : Entry} (h1 : a.le b = true) (h2 : b.le c = true) : a.le c = true := by
  simp only [Entry.le, decide_eq_true_eq] at *; omega

theorem le_total (a b : Entry) : a.le b = true ∨ b.le a = true := by
  simp only [Entry.le, decide_eq_true_eq] at *; omega

theorem foldl_min (q : List Entry) (e : Entry) :
    let r := q.foldl (fun a b => if a.le b then a else b) e
    (r = e ∨ r ∈ q) ∧ r.le e = true ∧ ∀ x ∈ q, r.le x = true := by
  induction q generalizing e with
  | nil => simp [le_refl]
  | cons y q ih =>
    simp only [List.foldl_cons]
    by_cases h : e.le y
    · rw [if_pos h]
      obtain ⟨h1, h2, h3⟩ := ih e
      refine ⟨?_, h2, ?_⟩
      · rcases h1 with h1 | h1
        · exact Or.inl h1
        · exact Or.inr (List.mem_cons_of_mem _ h1)
      · intro x hx
        rcases List.mem_cons.1 hx with rfl | hx
        · exact le_trans h2 h
        · exact h3 x hx
    · rw [if_neg h]
      obtain ⟨h1, h2, h3⟩ := ih y
      have h' : y.le e = true := by
        rcases le_total e y with h4 | h4
        · exact absurd h4 h
        · exact h4
      refine ⟨?_, le_trans h2 h', ?_⟩
      · rcases h1 with h1 | h1
        · exact Or.inr (by rw [h1]; exact List.mem_cons_self)
        · exact Or.inr (List.mem_cons_of_mem _ h1)
      · intro x hx
        rcases List.mem_cons.1 hx with rfl | hx
        · exact h2
        · exact h3 x hx

theorem peek_some {q : List Entry} {e : Entry} (h : peek q = some e) : e ∈ q ∧ ∀ x ∈ q, e.le x = true := by
  cases q with
  | nil => simp [peek] at h
  | cons y q =>
    simp only [peek, Option.some.injEq] at h
    obtain ⟨h1, h2, h3⟩ := foldl_min q y
    rw [h] at h1 h2 h3
    refine ⟨?_, ?_⟩
    · rcases h1 with h1 | h1
      · rw [h1]; exact List.mem_cons_self
      · exact List.mem_cons_of_mem _ h1
    · intro x hx
      rcases List.mem_cons.1 hx with rfl | hx
      · exact h2
      · exact h3 x hx

theorem peek_none {q : List Entry} (h : peek q = none) : q = [] := by
  cases q with
  | nil => rfl
  | cons y q => simp [peek] at h

/-! ### Entries -/

/-- An entry is sound: its key is the partial difference of its groups. -/
def EntOK (metrics merged : List (List Nat)) (m : Nat) (e : Entry) : Prop :=
  e.checked ≤ m ∧ e.key = partialDiff metrics (merged.getD e.i []) (merged.getD e.j []) e.checked

theorem partialDiff_succ (metrics : List (List Nat)) (a b : List Nat) (k : Nat) :
    partialDiff metrics a b (k + 1) = partialDiff metrics a b k + sqDiff metrics a b k := by
  simp [partialDiff, List.range_succ]

theorem partialDiff_mono (metrics : List (List Nat)) (a b : List Nat) {k l : Nat} (h : k ≤ l) :
    partialDiff metrics a b k ≤ partialDiff metrics a b l := by
  induction l with
  | zero => have : k = 0 := by omega
            subst this; exact Nat.le_refl _
  | succ l ih =>
    by_cases hk : k = l + 1
    · subst hk; exact Nat.le_refl _
    · rw [partialDiff_succ]; have := ih (by omega); omega

/-- Non-empty groups of valid indices. -/
def GroupsOK (n : Nat) (merged : List (List Nat)) : Prop := ∀ g ∈ merged, ∀ i ∈ g, i < n

/-- The metrics all have `m` weights, and no sum of squares of differences overflows. -/
structure MetricsOK (metrics : List (List Nat)) (m : Nat) : Prop where
  len : ∀ x ∈ metrics, x.length = m
  small : ∀ a b, a ≠ [] → b ≠ [] → (∀ i ∈ a, i < metrics.length) → (∀ i ∈ b, i < metrics.length) → partialDiff metrics a b m ≤ MAX64
  msmall : m < 2147483648

theorem groupMin_spec {metrics merged : List (List Nat)} {m g e : Nat} {a : List Nat} (hm : MetricsOK metrics m)
    (hg : GroupsOK metrics.length merged) (ha : merged[g]? = some a) (hne : a ≠ []) (he : e < m) :
    groupMin metrics merged g e = some (groupWeight metrics a e) := by
  have hall := hg a (List.mem_of_getElem? ha)
  have hmap : ∀ l : List Nat, (∀ i ∈ l, i < metrics.length) →
      l.mapM (fun i => do let metric ← metrics[i]?; metric[e]?) = some (l.map (fun i => (metrics.getD i []).getD e 0)) := by
    intro l hl
    induction l with
    | nil => rfl
    | cons x l ih =>
      have hx := hl x List.mem_cons_self
      have hlen := hm.len _ (List.getElem_mem hx)
      rw [List.mapM_cons, ih (fun i hi => hl i (List.mem_cons_of_mem _ hi))]
      have e1 : metrics[x]? = some metrics[x] := List.getElem?_eq_getElem hx
      have e2 : metrics[x][e]? = some (metrics[x][e]'(by rw [hlen]; exact he)) := List.getElem?_eq_getElem _
      simp [e1, e2, hx]
  have e0 : groupMin metrics merged g e =
      (a.mapM (fun i => do let metric ← metrics[i]?; metric[e]?)).bind (fun ws => ws.min?) := by
    rw [groupMin, ha]; rfl
  rw [e0, hmap a hall]
  simp only [Option.bind_some, groupWeight]
  cases a with
  | nil => exact absurd rfl hne
  | cons x l => simp [List.min?_cons']

/-- the two groups of an entry -/
abbrev pr (e : Entry) : Nat × Nat := (e.i, e.j)

/-- Entries are sound and correspond exactly to the pairs of groups. -/
structure QOK (metrics merged : List (List Nat)) (m : Nat) (q : List Entry) : Prop where
  ent : ∀ e ∈ q, EntOK metrics merged m e
  nodup : (q.map pr).Nodup
  mem : ∀ i j, (i, j) ∈ q.map pr ↔ IsPair merged i j

theorem QOK.perm {metrics merged : List (List Nat)} {m : Nat} {q q' : List Entry} (h : QOK metrics merged m q) (hp : q'.Perm q) :
    QOK metrics merged m q' :=
  ⟨fun e he => h.ent e (hp.mem_iff.1 he), (hp.map pr).nodup_iff.2 h.nodup,
    fun i j => by rw [(hp.map pr).mem_iff]; exact h.mem i j⟩

/-! ### Draining -/

theorem drain_spec (m : Nat) : ∀ (fuel : Nat) (q tc : List Entry), q.length < fuel → (∀ e ∈ tc, e.checked < m) →
    ∃ tc' q' F, drain m fuel q tc = (tc', q', F) ∧ (tc' ++ q').Perm (tc ++ q) ∧ (∀ e ∈ tc', e.checked < m) ∧
      ((q' = [] ∧ F = MAX64) ∨ ∃ e ∈ q', m ≤ e.checked ∧ e.key = F ∧ ∀ x ∈ q', e.le x = true)
  | 0, q, tc, h, _ => absurd h (Nat.not_lt_zero _)
  | fuel + 1, q, tc, h, htc => by
    rw [drain]
    cases hp : peek q with
    | none => exact ⟨tc, q, MAX64, rfl, .refl _, htc, Or.inl ⟨peek_none hp, rfl⟩⟩
    | some e =>
      obtain ⟨h1, h2⟩ := peek_some hp
      by_cases hc : m ≤ e.checked
      · refine ⟨tc, q, e.key, by simp [hc], .refl _, htc, Or.inr ⟨e, h1, hc, rfl, h2⟩⟩
      · have hlen : (q.erase e).length < fuel := by
          rw [List.length_erase_of_mem h1]
          have := List.length_pos_of_mem h1
          omega
        have htc' : ∀ x ∈ tc ++ [e], x.checked < m := by
          intro x hx
          rcases List.mem_append.1 hx with hx | hx
          · exact htc x hx
          · rw [List.mem_singleton.1 hx]; omega
        obtain ⟨tc', q', F, h3, h4, h5, h6⟩ := drain_spec m fuel (q.erase e) (tc ++ [e]) hlen htc'
        refine ⟨tc', q', F, by simp [hc, h3], ?_, h5, h6⟩
        refine h4.trans ?_
        rw [List.append_assoc, List.singleton_append]
        exact (List.Perm.append_left tc (List.perm_cons_erase h1).symm)

/-! ### One round -/

/-- The state of a round: what is queued or held by a task, and what `min_final_key` says. -/
structure RInv (metrics merged : List (List Nat)) (m : Nat) (tasks : List Task) (F : Nat) (q : List Entry) : Prop where
  ok : QOK metrics merged m (tasks.map Task.entry ++ q)
  /-- a settled entry is complete with a key of at least `F`, or it is larger than `F` -/
  settled : ∀ e, (e ∈ q ∨ ⟨e, true⟩ ∈ tasks) → (m ≤ e.checked ∧ F ≤ e.key) ∨ F < e.key
  /-- `F` is the key of a complete entry -/
  final : F = MAX64 ∨ ∃ e, (e ∈ q ∨ ⟨e, true⟩ ∈ tasks) ∧ m ≤ e.checked ∧ e.key = F

/-- the steps a task still has to make -/
def work (m : Nat) (t : Task) : Nat := if t.pushing then 1 else (m - t.entry.checked) + 2

theorem perm_erase_set {α : Type} (l : List α) (k : Nat) (x : α) (h : l[k]? = some x) : l.Perm (x :: l.eraseIdx k) := by
  induction l generalizing k with
  | nil => simp at h
  | cons y l ih =>
    cases k with
    | zero => simp at h; subst h; simp
    | succ k =>
      simp at h
      simpa using ((ih k h).cons y).trans (List.Perm.swap x y _)

theorem perm_set {α : Type} (l : List α) (k : Nat) (x y : α) (h : l[k]? = some x) : (l.set k y).Perm (y :: l.eraseIdx k) := by
  induction l generalizing k with
  | nil => simp at h
  | cons z l ih =>
    cases k with
    | zero => simp
    | succ k =>
      simp at h
      simpa using ((ih k h).cons z).trans (List.Perm.swap y z _)

theorem sum_erase (m : Nat) (l : List Task) (k : Nat) (x : Task) (h : l[k]? = some x) :
    (l.map (work m)).sum = work m x + ((l.eraseIdx k).map (work m)).sum := by
  have := ((perm_erase_set l k x h).map (work m)).sum_nat
  simpa using this

theorem sum_set (m : Nat) (l : List Task) (k : Nat) (x y : Task) (h : l[k]? = some x) :
    ((l.set k y).map (work m)).sum = work m y + ((l.eraseIdx k).map (work m)).sum := by
  have := ((perm_set l k x y h).map (work m)).sum_nat
  simpa using this

theorem taskStep_spec {metrics merged : List (List Nat)} {m F : Nat} {t : Task} (hm : MetricsOK metrics m)
    (hg : GroupsOK metrics.length merged) (hp : t.pushing = false) (he : EntOK metrics merged m t.entry)
    (hpair : IsPair merged t.entry.i t.entry.j) :
    ∃ t' F', taskStep metrics merged m F t = some (t', F') ∧ pr t'.entry = pr t.entry ∧ EntOK metrics merged m t'.entry ∧
      work m t' < work m t ∧
      ((t' = ⟨t.entry, true⟩ ∧ m ≤ t.entry.checked ∧ F' = min F t.entry.key) ∨
       (t' = ⟨t.entry, true⟩ ∧ F < t.entry.key ∧ F' = F) ∨ (t'.pushing = false ∧ F' = F)) := by
  obtain ⟨hc, hk⟩ := he
  by_cases h1 : m ≤ t.entry.checked
  · refine ⟨⟨t.entry, true⟩, min F t.entry.key, by simp [taskStep, h1], rfl, ⟨hc, hk⟩, ?_, Or.inl ⟨rfl, h1, rfl⟩⟩
    simp [work, hp]
  · by_cases h2 : F < t.entry.key
    · refine ⟨⟨t.entry, true⟩, F, by simp [taskStep, h1, h2], rfl, ⟨hc, hk⟩, ?_, Or.inr (Or.inl ⟨rfl, h2, rfl⟩)⟩
      simp [work, hp]
    · obtain ⟨hlt, a, b, ha, hb, hane, hbne⟩ := hpair
      have e1 := groupMin_spec hm hg ha hane (by omega : t.entry.checked < m)
      have e2 := groupMin_spec hm hg hb hbne (by omega : t.entry.checked < m)
      have ga : merged.getD t.entry.i [] = a := by simp [List.getD, ha]
      have gb : merged.getD t.entry.j [] = b := by simp [List.getD, hb]
      rw [ga, gb] at hk
      have hle : t.entry.key + sqDiff metrics a b t.entry.checked = partialDiff metrics a b (t.entry.checked + 1) := by
        rw [partialDiff_succ, hk]
      have hsm := hm.small a b hane hbne (hg a (List.mem_of_getElem? ha)) (hg b (List.mem_of_getElem? hb))
      have hmono := partialDiff_mono metrics a b (by omega : t.entry.checked + 1 ≤ m)
      have hms := hm.msmall
      have hs : t.entry.key + sqDiff metrics a b t.entry.checked ≤ MAX64 := by omega
      refine ⟨⟨{ t.entry with key := t.entry.key + sqDiff metrics a b t.entry.checked, checked := t.entry.checked + 1 }, false⟩, F, ?_, rfl,
        ⟨by simp only; omega, ?_⟩, ?_, Or.inr (Or.inr ⟨rfl, rfl⟩)⟩
      · have e3 : add64 t.entry.key (sqDiff metrics a b t.entry.checked) = some (t.entry.key + sqDiff metrics a b t.entry.checked) := by
          rw [add64, if_pos hs]
        have e4 : ¬ (2147483648 ≤ t.entry.checked + 1) := by omega
        rw [taskStep, if_neg h1, if_neg h2, e1, e2]
        simp only [Option.bind_eq_bind, Option.bind_some, Option.pure_def]
        rw [show (groupWeight metrics a t.entry.checked - groupWeight metrics b t.entry.checked +
            (groupWeight metrics b t.entry.checked - groupWeight metrics a t.entry.checked)) *
            (groupWeight metrics a t.entry.checked - groupWeight metrics b t.entry.checked +
            (groupWeight metrics b t.entry.checked - groupWeight metrics a t.entry.checked)) = sqDiff metrics a b t.entry.checked from rfl, e3]
        simp only [Option.bind_some]
        rw [if_neg e4]
      · simp only [ga, gb]; exact hle
      · simp only [work, hp]; simp only [Bool.false_eq_true, if_false]; omega

theorem QOK.pair {metrics merged : List (List Nat)} {m : Nat} {q : List Entry} (h : QOK metrics merged m q) {e : Entry} (he : e ∈ q) :
    IsPair merged e.i e.j := (h.mem e.i e.j).1 (List.mem_map.2 ⟨e, he, rfl⟩)

theorem mem_set_cases {α : Type} {l : List α} {k : Nat} {x y z : α} (h : l[k]? = some x) :
    z ∈ l.set k y ↔ z = y ∨ z ∈ l.eraseIdx k := by
  rw [(perm_set l k x y h).mem_iff, List.mem_cons]

theorem mem_erase_cases {α : Type} {l : List α} {k : Nat} {x z : α} (h : l[k]? = some x) :
    z ∈ l ↔ z = x ∨ z ∈ l.eraseIdx k := by
  rw [(perm_erase_set l k x h).mem_iff, List.mem_cons]

theorem round_spec (pick : Nat → Nat) {metrics merged : List (List Nat)} {m : Nat} (hm : MetricsOK metrics m)
    (hg : GroupsOK metrics.length merged) : ∀ (fuel clock : Nat) (tasks : List Task) (F : Nat) (q : List Entry),
    (tasks.map (work m)).sum < fuel → RInv metrics merged m tasks F q →
    ∃ q' clock' F', round pick metrics merged m fuel clock tasks F q = some (q', clock') ∧ RInv metrics merged m [] F' q'
  | 0, _, _, _, _, h, _ => absurd h (Nat.not_lt_zero _)
  | fuel + 1, clock, tasks, F, q, h, hi => by
    rw [round]
    by_cases hem : tasks = []
    · subst hem; exact ⟨q, clock, F, by simp, hi⟩
    · have hpos : 0 < tasks.length := List.length_pos_of_ne_nil hem
      have hk : pick clock % tasks.length < tasks.length := Nat.mod_lt _ hpos
      generalize pick clock % tasks.length = k at hk ⊢
      obtain ⟨t, ht⟩ : ∃ t, tasks[k]? = some t := ⟨tasks[k], List.getElem?_eq_getElem hk⟩
      have hne : tasks.isEmpty = false := by simpa using hem
      have htm : t ∈ tasks := List.mem_of_getElem? ht
      simp only [hne, ht, Option.bind_eq_bind, Option.bind_some, Bool.false_eq_true, if_false]
      by_cases hp : t.pushing = true
      · simp only [hp, if_true]
        have ht' : t = ⟨t.entry, true⟩ := by cases t; simp_all
        have hw := sum_erase m tasks k t ht
        have hwt : work m t = 1 := by simp [work, hp]
        refine round_spec pick hm hg fuel (clock + 1) (tasks.eraseIdx k) F (q ++ [t.entry]) (by omega) ⟨?_, ?_, ?_⟩
        · refine hi.ok.perm ?_
          have p1 := (perm_erase_set tasks k t ht).map Task.entry
          refine List.Perm.trans ?_ (p1.symm.append_right q)
          simp only [List.map_cons, List.cons_append]
          rw [← List.append_assoc]
          exact List.perm_append_comm
        · intro e he
          apply hi.settled e
          rcases he with he | he
          · rcases List.mem_append.1 he with he | he
            · exact Or.inl he
            · rw [List.mem_singleton.1 he]; exact Or.inr (ht' ▸ htm)
          · exact Or.inr (List.mem_of_mem_eraseIdx he)
        · rcases hi.final with h1 | ⟨e, he, h1, h2⟩
          · exact Or.inl h1
          · refine Or.inr ⟨e, ?_, h1, h2⟩
            rcases he with he | he
            · exact Or.inl (List.mem_append_left _ he)
            · rcases (mem_erase_cases ht).1 he with he | he
              · left; rw [← he]; exact List.mem_append_right _ List.mem_cons_self
              · exact Or.inr he
      · have hpf : t.pushing = false := by simpa using hp
        have hq : t.entry ∈ tasks.map Task.entry ++ q := List.mem_append_left _ (List.mem_map.2 ⟨t, htm, rfl⟩)
        obtain ⟨t', F', hs, hpr, hent, hwk, hcase⟩ := taskStep_spec (F := F) hm hg hpf (hi.ok.ent _ hq) (hi.ok.pair hq)
        simp only [hpf, hs, Option.bind_some, Bool.false_eq_true, if_false]
        have hw1 := sum_erase m tasks k t ht
        have hw2 := sum_set m tasks k t t' ht
        have hFle : F' ≤ F := by rcases hcase with ⟨_, _, h3⟩ | ⟨_, _, h3⟩ | ⟨_, h3⟩ <;> omega
        have hFkeep : ∀ e : Entry, (⟨e, true⟩ : Task) ∈ tasks → (⟨e, true⟩ : Task) ∈ tasks.eraseIdx k := by
          intro e he
          rcases (mem_erase_cases ht).1 he with he | he
          · rw [← he] at hpf; cases hpf
          · exact he
        refine round_spec pick hm hg fuel (clock + 1) (tasks.set k t') F' q (by omega) ⟨?_, ?_, ?_⟩
        · have p1 := (perm_erase_set tasks k t ht)
          have p2 := (perm_set tasks k t t' ht)
          have q1 : (tasks.map Task.entry ++ q).Perm (t.entry :: ((tasks.eraseIdx k).map Task.entry ++ q)) := by
            simpa using (p1.map Task.entry).append_right q
          have q2 : ((tasks.set k t').map Task.entry ++ q).Perm (t'.entry :: ((tasks.eraseIdx k).map Task.entry ++ q)) := by
            simpa using (p2.map Task.entry).append_right q
          have h0 := hi.ok.perm q1.symm
          refine QOK.perm ⟨?_, ?_, ?_⟩ q2
          · intro e he
            rcases List.mem_cons.1 he with rfl | he
            · exact hent
            · exact h0.ent e (List.mem_cons_of_mem _ he)
          · have := h0.nodup
            simp only [List.map_cons] at this ⊢
            rw [hpr]; exact this
          · intro i j
            have := h0.mem i j
            simp only [List.map_cons] at this ⊢
            rw [hpr]; exact this
        · intro e he
          have hold : (e ∈ q ∨ (⟨e, true⟩ : Task) ∈ tasks) → (m ≤ e.checked ∧ F' ≤ e.key) ∨ F' < e.key := by
            intro h
            rcases hi.settled e h with ⟨h1, h2⟩ | h1
            · exact Or.inl ⟨h1, by omega⟩
            · exact Or.inr (by omega)
          rcases he with he | he
          · exact hold (Or.inl he)
          · rcases (mem_set_cases ht).1 he with he | he
            · rcases hcase with ⟨h2, h3, h4⟩ | ⟨h2, h3, h4⟩ | ⟨h2, h4⟩
              · rw [h2] at he
                have : e = t.entry := by injection he
                subst this
                exact Or.inl ⟨h3, by omega⟩
              · rw [h2] at he
                have : e = t.entry := by injection he
                subst this
                exact Or.inr (by omega)
              · rw [← he] at h2; cases h2
            · exact hold (Or.inr (List.mem_of_mem_eraseIdx he))
        · have hkeep : (F = MAX64 ∨ ∃ e, (e ∈ q ∨ (⟨e, true⟩ : Task) ∈ tasks.set k t') ∧ m ≤ e.checked ∧ e.key = F) := by
            rcases hi.final with h1 | ⟨e, he, h1, h2⟩
            · exact Or.inl h1
            · refine Or.inr ⟨e, ?_, h1, h2⟩
              rcases he with he | he
              · exact Or.inl he
              · exact Or.inr ((mem_set_cases ht).2 (Or.inr (hFkeep e he)))
          rcases hcase with ⟨h2, h3, h4⟩ | ⟨h2, h3, h4⟩ | ⟨h2, h4⟩
          · by_cases hmin : F ≤ t.entry.key
            · rw [show F' = F by omega]; exact hkeep
            · refine Or.inr ⟨t.entry, Or.inr ((mem_set_cases ht).2 (Or.inl h2.symm)), h3, by omega⟩
          · rw [h4]; exact hkeep
          · rw [h4]; exact hkeep

/-- After a round, a smallest entry is complete. -/
theorem RInv.head {metrics merged : List (List Nat)} {m F : Nat} {q : List Entry} {e : Entry} (hm : MetricsOK metrics m)
    (hg : GroupsOK metrics.length merged) (h : RInv metrics merged m [] F q) (hp : peek q = some e) : m ≤ e.checked := by
  obtain ⟨h1, h2⟩ := peek_some hp
  rcases h.settled e (Or.inl h1) with h3 | h3
  · exact h3.1
  · rcases h.final with h4 | ⟨x, hx, h4, h5⟩
    · exfalso
      have hok : QOK metrics merged m q := by simpa using h.ok
      obtain ⟨_, a, b, ha, hb, hane, hbne⟩ := hok.pair h1
      obtain ⟨hc, hk⟩ := hok.ent e h1
      have ga : merged.getD e.i [] = a := by simp [List.getD, ha]
      have gb : merged.getD e.j [] = b := by simp [List.getD, hb]
      rw [ga, gb] at hk
      have hsm := hm.small a b hane hbne (hg a (List.mem_of_getElem? ha)) (hg b (List.mem_of_getElem? hb))
      have hmono := partialDiff_mono metrics a b hc
      omega
    · have hx' : x ∈ q := by simpa using hx
      have := h2 x hx'
      simp only [Entry.le, decide_eq_true_eq] at this
      omega

/-- The start of a round. -/
theorem rinv_start {metrics merged : List (List Nat)} {m F : Nat} {q tc q' : List Entry} (hq : QOK metrics merged m q)
    (hperm : (tc ++ q').Perm q)
    (h : (q' = [] ∧ F = MAX64) ∨ ∃ e ∈ q', m ≤ e.checked ∧ e.key = F ∧ ∀ x ∈ q', e.le x = true) :
    RInv metrics merged m (tc.map (⟨·, false⟩)) F q' := by
  have hno : ∀ e : Entry, (⟨e, true⟩ : Task) ∈ tc.map (fun x => (⟨x, false⟩ : Task)) → False := by
    intro e he
    obtain ⟨x, _, hx⟩ := List.mem_map.1 he
    cases hx
  refine ⟨?_, ?_, ?_⟩
  · rw [List.map_map, show (Task.entry ∘ fun x => (⟨x, false⟩ : Task)) = id from rfl, List.map_id]
    exact hq.perm hperm
  · intro e he
    rcases he with he | he
    · rcases h with ⟨h1, h2⟩ | ⟨x, hx, h1, h2, h3⟩
      · rw [h1] at he; simp at he
      · have := h3 e he
        simp only [Entry.le, decide_eq_true_eq] at this
        have := (hq.ent e (hperm.mem_iff.1 (List.mem_append_right _ he))).1
        omega
    · exact absurd he (hno e)
  · rcases h with ⟨h1, h2⟩ | ⟨x, hx, h1, h2, h3⟩
    · exact Or.inl h2
    · exact Or.inr ⟨x, Or.inl hx, h1, h2⟩

/-! ### Joining -/

theorem present_eq (l : List (List Nat)) : (present l).length = l.countP (fun g => !g.isEmpty) := by
  rw [present, List.countP_eq_length_filter]

theorem countP_set' {α : Type} (p : α → Bool) : ∀ (l : List α) (k : Nat) (x y : α), l[k]? = some x →
    (l.set k y).countP p + (if p x then 1 else 0) = l.countP p + (if p y then 1 else 0)
  | [], k, x, y, h => by simp at h
  | z :: l, 0, x, y, h => by
    simp at h; subst h
    simp only [List.set_cons_zero, List.countP_cons]; omega
  | z :: l, k + 1, x, y, h => by
    simp at h
    have := countP_set' p l k x y h
    simp only [List.set_cons_succ, List.countP_cons]; omega

theorem pair_two {groups : List (List Nat)} {i j : Nat} (h : IsPair groups i j) : 2 ≤ (present groups).length := by
  obtain ⟨hij, a, b, ha, hb, hane, hbne⟩ := h
  rw [present_eq]
  have h1 := countP_set' (fun g : List Nat => !g.isEmpty) groups i a [] ha
  have hb' : (groups.set i [])[j]? = some b := by rw [List.getElem?_set_ne (by omega)]; exact hb
  have h2 := countP_set' (fun g : List Nat => !g.isEmpty) (groups.set i []) j b [] hb'
  have e1 : (!a.isEmpty) = true := by simpa using hane
  have e2 : (!b.isEmpty) = true := by simpa using hbne
  simp [e1, e2] at h1 h2
  omega

theorem exists_pair {groups : List (List Nat)} (h : 2 ≤ (present groups).length) : ∃ i j, IsPair groups i j := by
  induction groups with
  | nil => simp [present] at h
  | cons g l ih =>
    by_cases hg : g = []
    · subst hg
      obtain ⟨i, j, h1, a, b, h2, h3, h4, h5⟩ := ih (by simpa [present] using h)
      exact ⟨i + 1, j + 1, by omega, a, b, by simpa using h2, by simpa using h3, h4, h5⟩
    · have hl : 1 ≤ (present l).length := by
        simp only [present, List.filter_cons] at h
        have : (!g.isEmpty) = true := by simpa using hg
        rw [if_pos this] at h
        simp at h; exact h
      obtain ⟨b, hb⟩ := List.exists_mem_of_length_pos hl
      obtain ⟨hb1, hb2⟩ := List.mem_filter.1 hb
      obtain ⟨k, hk⟩ := List.getElem?_of_mem hb1
      exact ⟨0, k + 1, by omega, g, b, by simp, by simpa using hk, hg, by simpa using hb2⟩

theorem joinGroups_get {groups : List (List Nat)} {i j : Nat} {a b : List Nat} (hij : i < j) (ha : groups[i]? = some a)
    (hb : groups[j]? = some b) (k : Nat) :
    (joinGroups groups i j)[k]? = if k = j then some [] else if k = i then some (a ++ b) else groups[k]? := by
  have hi : i < groups.length := (List.getElem?_eq_some_iff.1 ha).1
  have hj : j < groups.length := (List.getElem?_eq_some_iff.1 hb).1
  rw [joinGroups, show groups.getD i [] = a by simp [List.getD, ha], show groups.getD j [] = b by simp [List.getD, hb]]
  by_cases h1 : k = j
  · subst h1; simp [hj]
  · rw [List.getElem?_set_ne (Ne.symm h1), if_neg h1]
    by_cases h2 : k = i
    · subst h2; simp [hi]
    · rw [List.getElem?_set_ne (Ne.symm h2), if_neg h2]

theorem present_join {groups : List (List Nat)} {i j : Nat} (h : IsPair groups i j) :
    (present (joinGroups groups i j)).length + 1 = (present groups).length := by
  obtain ⟨hij, a, b, ha, hb, hane, hbne⟩ := h
  rw [present_eq, present_eq, joinGroups, show groups.getD i [] = a by simp [List.getD, ha], show groups.getD j [] = b by simp [List.getD, hb]]
  have h1 := countP_set' (fun g : List Nat => !g.isEmpty) groups i a (a ++ b) ha
  have hb' : (groups.set i (a ++ b))[j]? = some b := by rw [List.getElem?_set_ne (by omega)]; exact hb
  have h2 := countP_set' (fun g : List Nat => !g.isEmpty) (groups.set i (a ++ b)) j b [] hb'
  have e1 : (!a.isEmpty) = true := by simpa using hane
  have e2 : (!b.isEmpty) = true := by simpa using hbne
  have e3 : (!(a ++ b).isEmpty) = true := by simpa using fun h => absurd h hane
  simp [e1, e2, e3] at h1 h2
  omega

theorem groupsOK_join {n : Nat} {groups : List (List Nat)} {i j : Nat} (h : IsPair groups i j) (hg : GroupsOK n groups) :
    GroupsOK n (joinGroups groups i j) := by
  obtain ⟨hij, a, b, ha, hb, _, _⟩ := h
  intro g hgm x hx
  obtain ⟨k, hk⟩ := List.getElem?_of_mem hgm
  rw [joinGroups_get hij ha hb] at hk
  split at hk
  · injection hk with hk; subst hk; simp at hx
  · split at hk
    · injection hk with hk; subst hk
      rcases List.mem_append.1 hx with hx | hx
      · exact hg a (List.mem_of_getElem? ha) x hx
      · exact hg b (List.mem_of_getElem? hb) x hx
    · exact hg g (List.mem_of_getElem? hk) x hx

theorem mem_newEntries {merged : List (List Nat)} {i : Nat} {x : Entry} : x ∈ newEntries merged i ↔
    ∃ k g, merged[k]? = some g ∧ g ≠ [] ∧ k ≠ i ∧ x = if i < k then ⟨0, 0, i, k⟩ else ⟨0, 0, k, i⟩ := by
  rw [newEntries, List.mem_filterMap]
  constructor
  · rintro ⟨⟨g, k⟩, h1, h2⟩
    have h1' := List.mk_mem_zipIdx_iff_getElem?.1 h1
    simp only at h2
    split at h2
    · cases h2
    · rename_i h3
      simp only [not_or] at h3
      refine ⟨k, g, h1', by simpa using h3.2, h3.1, ?_⟩
      split at h2
      · rename_i h5
        injection h2 with h2; rw [← h2, if_pos h5]
      · rename_i h5
        injection h2 with h2; rw [← h2, if_neg h5]
  · rintro ⟨k, g, h1, h2, h3, h4⟩
    refine ⟨(g, k), List.mk_mem_zipIdx_iff_getElem?.2 h1, ?_⟩
    have : ¬ (k = i ∨ g.isEmpty = true) := by simp [h2, h3]
    simp only [this, if_false]
    rw [h4]; split <;> rfl

theorem newEntries_nodup (merged : List (List Nat)) (i : Nat) : ((newEntries merged i).map pr).Nodup := by
  rw [newEntries, List.Nodup, List.pairwise_map, List.pairwise_filterMap]
  have hz : merged.zipIdx.Pairwise (fun p q => p.2 ≠ q.2) := by
    rw [List.pairwise_iff_getElem]
    intro a b ha hb hab
    simp; omega
  refine hz.imp ?_
  rintro ⟨g, k⟩ ⟨g', k'⟩ hne x hx y hy
  simp only at hne hx hy
  split at hx
  · cases hx
  · split at hy
    · cases hy
    · rename_i h1 h2
      simp only [not_or] at h1 h2
      split at hx <;> split at hy <;> (injection hx with hx; injection hy with hy; subst hx; subst hy; simp [pr]) <;> omega

theorem mergeEntry_spec {metrics merged : List (List Nat)} {m : Nat} {q : List Entry} {e : Entry} (hq : QOK metrics merged m q)
    (he : e ∈ q) : ∃ q', mergeEntry merged q e = some (joinGroups merged e.i e.j, q') ∧ QOK metrics (joinGroups merged e.i e.j) m q' := by
  have hpair := hq.pair he
  obtain ⟨hij, a, b, ha, hb, hane, hbne⟩ := hpair
  have hi : e.i < merged.length := (List.getElem?_eq_some_iff.1 ha).1
  have hj : e.j < merged.length := (List.getElem?_eq_some_iff.1 hb).1
  have hget := joinGroups_get hij ha hb
  have e1 : upd merged e.j [] = some (merged.set e.j []) := upd_of_lt _ hj
  have e2 : (merged.set e.j [])[e.i]? = some a := by rw [List.getElem?_set_ne (by omega)]; exact ha
  have e3 : upd (merged.set e.j []) e.i (a ++ b) = some ((merged.set e.j []).set e.i (a ++ b)) := upd_of_lt _ (by simpa using hi)
  have e4 : (merged.set e.j []).set e.i (a ++ b) = joinGroups merged e.i e.j := by
    rw [joinGroups, show merged.getD e.i [] = a by simp [List.getD, ha], show merged.getD e.j [] = b by simp [List.getD, hb],
      List.set_comm _ _ (by omega)]
  refine ⟨(q.erase e).filter (fun x => x.i ≠ e.i && x.i ≠ e.j && x.j ≠ e.i && x.j ≠ e.j) ++ newEntries (joinGroups merged e.i e.j) e.i,
    by simp only [mergeEntry, hb, e1, e2, e3, e4, Option.bind_eq_bind, Option.bind_some, Option.pure_def], ?_⟩
  generalize hJ : joinGroups merged e.i e.j = J at hget ⊢
  have hkept : ∀ x, x ∈ (q.erase e).filter (fun x => x.i ≠ e.i && x.i ≠ e.j && x.j ≠ e.i && x.j ≠ e.j) ↔
      x ∈ q ∧ x.i ≠ e.i ∧ x.i ≠ e.j ∧ x.j ≠ e.i ∧ x.j ≠ e.j := by
    intro x
    rw [List.mem_filter]
    constructor
    · rintro ⟨h1, h2⟩
      simp at h2
      exact ⟨List.mem_of_mem_erase h1, h2.1.1.1, h2.1.1.2, h2.1.2, h2.2⟩
    · rintro ⟨h1, h2, h3, h4, h5⟩
      refine ⟨(List.mem_erase_of_ne (by rintro rfl; exact h2 rfl)).2 h1, by simp [h2, h3, h4, h5]⟩
  have hgetD : ∀ k, k ≠ e.i → k ≠ e.j → J.getD k [] = merged.getD k [] := by
    intro k h1 h2
    simp only [List.getD]
    rw [hget k, if_neg h2, if_neg h1]
  refine ⟨?_, ?_, ?_⟩
  · intro x hx
    rcases List.mem_append.1 hx with hx | hx
    · obtain ⟨h1, h2, h3, h4, h5⟩ := (hkept x).1 hx
      obtain ⟨h6, h7⟩ := hq.ent x h1
      exact ⟨h6, by rw [h7, hgetD _ h2 h3, hgetD _ h4 h5]⟩
    · obtain ⟨k, g, h1, h2, h3, h4⟩ := mem_newEntries.1 hx
      rw [h4]
      split <;> exact ⟨Nat.zero_le _, by simp [partialDiff]⟩
  · rw [List.map_append, List.nodup_append']
    refine ⟨?_, newEntries_nodup _ _, ?_⟩
    · exact hq.nodup.sublist ((List.filter_sublist.trans List.erase_sublist).map pr)
    · intro p hp1 hp2
      obtain ⟨x, hx, rfl⟩ := List.mem_map.1 hp1
      obtain ⟨y, hy, hxy⟩ := List.mem_map.1 hp2
      obtain ⟨h1, h2, h3, h4, h5⟩ := (hkept x).1 hx
      obtain ⟨k, g, h6, h7, h8, h9⟩ := mem_newEntries.1 hy
      rw [h9] at hxy
      split at hxy
      · simp [pr] at hxy; exact h2 hxy.1.symm
      · simp [pr] at hxy; exact h4 hxy.2.symm
  · intro i j
    rw [List.map_append, List.mem_append]
    constructor
    · rintro (h | h)
      · obtain ⟨x, hx, hxe⟩ := List.mem_map.1 h
        obtain ⟨h1, h2, h3, h4, h5⟩ := (hkept x).1 hx
        obtain ⟨h6, c, d, h7, h8, h9, h10⟩ := hq.pair h1
        simp only [pr, Prod.mk.injEq] at hxe
        obtain ⟨rfl, rfl⟩ := hxe
        refine ⟨h6, c, d, ?_, ?_, h9, h10⟩
        · rw [hget, if_neg h3, if_neg h2]; exact h7
        · rw [hget, if_neg h5, if_neg h4]; exact h8
      · obtain ⟨x, hx, hxe⟩ := List.mem_map.1 h
        obtain ⟨k, g, h1, h2, h3, h4⟩ := mem_newEntries.1 hx
        have hii : J[e.i]? = some (a ++ b) := by rw [hget, if_neg (by omega), if_pos rfl]
        have hab : a ++ b ≠ [] := by simp [hane]
        rw [h4] at hxe
        split at hxe
        · simp only [pr, Prod.mk.injEq] at hxe
          obtain ⟨rfl, rfl⟩ := hxe
          rename_i h5
          exact ⟨h5, a ++ b, g, hii, h1, hab, h2⟩
        · simp only [pr, Prod.mk.injEq] at hxe
          obtain ⟨rfl, rfl⟩ := hxe
          exact ⟨by omega, g, a ++ b, h1, hii, h2, hab⟩
    · rintro ⟨h1, c, d, h2, h3, h4, h5⟩
      have hij' : i ≠ e.j := by
        rintro rfl
        rw [hget, if_pos rfl] at h2; injection h2 with h2; exact h4 h2.symm
      have hjj' : j ≠ e.j := by
        rintro rfl
        rw [hget, if_pos rfl] at h3; injection h3 with h3; exact h5 h3.symm
      by_cases hii : i = e.i
      · right
        refine List.mem_map.2 ⟨⟨0, 0, i, j⟩, mem_newEntries.2 ⟨j, d, h3, h5, by omega, ?_⟩, rfl⟩
        rw [if_pos (by omega), hii]
      · by_cases hjj : j = e.i
        · right
          refine List.mem_map.2 ⟨⟨0, 0, i, j⟩, mem_newEntries.2 ⟨i, c, h2, h4, hii, ?_⟩, rfl⟩
          rw [if_neg (by omega), hjj]
        · left
          rw [hget, if_neg hij', if_neg hii] at h2
          rw [hget, if_neg hjj', if_neg hjj] at h3
          have := (hq.mem i j).2 ⟨h1, c, d, h2, h3, h4, h5⟩
          obtain ⟨x, hx, hxe⟩ := List.mem_map.1 this
          simp only [pr, Prod.mk.injEq] at hxe
          obtain ⟨rfl, rfl⟩ := hxe
          exact List.mem_map.2 ⟨x, (hkept x).2 ⟨hx, hii, hij', hjj, hjj'⟩, rfl⟩

/-- A complete smallest entry is the best pair. -/
theorem best_of_head {metrics merged : List (List Nat)} {m : Nat} {q : List Entry} {e : Entry} (hq : QOK metrics merged m q)
    (hp : peek q = some e) (hf : m ≤ e.checked) : BestPair metrics merged m e.i e.j := by
  obtain ⟨h1, h2⟩ := peek_some hp
  refine ⟨hq.pair h1, ?_⟩
  intro i' j' hpair
  obtain ⟨x, hx, hxe⟩ := List.mem_map.1 ((hq.mem i' j').2 hpair)
  simp only [pr, Prod.mk.injEq] at hxe
  obtain ⟨rfl, rfl⟩ := hxe
  have hle := h2 x hx
  obtain ⟨h3, h4⟩ := hq.ent e h1
  obtain ⟨h5, h6⟩ := hq.ent x hx
  have hc : e.checked = m := by omega
  rw [hc] at h4
  rw [← h4]
  simp only [Entry.le, decide_eq_true_eq] at hle
  unfold lexLe
  have hmono := partialDiff_mono metrics (merged.getD x.i []) (merged.getD x.j []) h5
  by_cases hxc : x.checked = m
  · rw [hxc] at h6
    rw [← h6]
    omega
  · omega

/-! ### The main loop -/

theorem loop_spec (pick : Nat → Nat) {metrics : List (List Nat)} {m : Nat} (target : Nat) (hm : MetricsOK metrics m) :
    ∀ (fuel clock : Nat) (merged : List (List Nat)) (q : List Entry) (remaining : Nat), GroupsOK metrics.length merged →
    QOK metrics merged m q → remaining = (present merged).length →
    (2 * remaining + 2 ≤ fuel ∨ (2 * remaining + 1 ≤ fuel ∧ ∀ e, peek q = some e → m ≤ e.checked)) →
    ∃ out, loop pick metrics m target fuel clock merged q remaining = some out ∧ Greedy metrics m target merged (present out)
  | 0, _, _, _, _, _, _, _, h => by omega
  | fuel + 1, clock, merged, q, remaining, hg, hq, hr, hf => by
    rw [loop]
    by_cases h1 : remaining ≤ target
    · rw [if_pos h1]
      exact ⟨merged, rfl, .stop (by omega)⟩
    · rw [if_neg h1]
      cases hp : peek q with
      | none =>
        refine ⟨merged, rfl, .stop ?_⟩
        by_cases h2 : 2 ≤ (present merged).length
        · obtain ⟨i, j, hpair⟩ := exists_pair h2
          have := (hq.mem i j).2 hpair
          rw [peek_none hp] at this
          simp at this
        · omega
      | some e =>
        obtain ⟨he, _⟩ := peek_some hp
        have htwo := pair_two (hq.pair he)
        by_cases h2 : m ≤ e.checked
        · have hb := best_of_head hq hp h2
          obtain ⟨q', h3, h4⟩ := mergeEntry_spec hq he
          have h5 := present_join hb.1
          obtain ⟨out, h6, h7⟩ := loop_spec pick target hm fuel clock (joinGroups merged e.i e.j) q' (remaining - 1)
            (groupsOK_join hb.1 hg) h4 (by omega) (by omega)
          refine ⟨out, by simp only [h2, if_true, h3, Option.bind_eq_bind, Option.bind_some]; exact h6, .join (by omega) hb h7⟩
        · obtain ⟨tc, q', F, h3, h4, h5, h6⟩ := drain_spec m (q.length + 1) q [] (by omega) (by simp)
          have h7 := rinv_start hq (by simpa using h4) h6
          have hwork : ((tc.map (fun x => (⟨x, false⟩ : Task))).map (work m)).sum < tc.length * (m + 2) + 1 := by
            have : ∀ l : List Entry, ((l.map (fun x => (⟨x, false⟩ : Task))).map (work m)).sum ≤ l.length * (m + 2) := by
              intro l
              induction l with
              | nil => simp
              | cons x l ih =>
                have hw : work m ⟨x, false⟩ ≤ m + 2 := by
                  simp only [work, Bool.false_eq_true, if_false]; omega
                rw [List.map_cons, List.map_cons, List.sum_cons, List.length_cons, Nat.add_mul]
                omega
            have := this tc
            omega
          obtain ⟨q'', clock', F', h8, h9⟩ := round_spec pick hm hg _ clock _ F q' hwork h7
          have hq'' : QOK metrics merged m q'' := by simpa using h9.ok
          obtain ⟨out, h10, h11⟩ := loop_spec pick target hm fuel clock' merged q'' remaining hg hq'' hr
            (Or.inr ⟨by rcases hf with hf | hf
                        · omega
                        · exact absurd (hf.2 e hp) h2, fun x hx => h9.head hm hg hx⟩)
          refine ⟨out, ?_, h11⟩
          simp only [h2, if_false, h3, h8, Option.bind_eq_bind, Option.bind_some]
          exact h10

/-! ### The start, and facts about the specification -/

theorem start_get (n k : Nat) : ((List.range n).map (fun i => [i]))[k]? = if k < n then some [k] else none := by
  by_cases h : k < n
  · simp [h]
  · simp [h]

theorem start_ok (metrics : List (List Nat)) (m : Nat) :
    QOK metrics ((List.range metrics.length).map (fun i => [i])) m (allPairs metrics.length) := by
  generalize metrics.length = n
  have hmem : ∀ x, x ∈ allPairs n ↔ x.i < x.j ∧ x.j < n ∧ x.key = 0 ∧ x.checked = 0 := by
    intro x
    simp only [allPairs, List.mem_flatMap, List.mem_map, List.mem_filter, List.mem_range]
    constructor
    · rintro ⟨i, h1, j, ⟨h2, h3⟩, rfl⟩
      simp at h3; exact ⟨h3, h2, rfl, rfl⟩
    · rintro ⟨h1, h2, h3, h4⟩
      refine ⟨x.i, by omega, x.j, ⟨h2, by simpa using h1⟩, ?_⟩
      cases x; simp_all
  refine ⟨?_, ?_, ?_⟩
  · intro e he
    obtain ⟨h1, h2, h3, h4⟩ := (hmem e).1 he
    exact ⟨by omega, by rw [h3, h4]; simp [partialDiff]⟩
  · rw [allPairs, List.map_flatMap, List.nodup_flatMap]
    refine ⟨?_, ?_⟩
    · intro i _
      rw [List.map_map]
      refine List.Nodup.map ?_ (List.nodup_range.filter _)
      intro x y hxy
      simpa [pr] using hxy
    · refine List.nodup_range.imp ?_
      intro a b hab p hp1 hp2
      simp only [List.map_map, List.mem_map] at hp1 hp2
      obtain ⟨x, _, rfl⟩ := hp1
      obtain ⟨y, _, hy⟩ := hp2
      simp [pr] at hy; exact hab hy.1.symm
  · intro i j
    constructor
    · intro h
      obtain ⟨x, hx, hxe⟩ := List.mem_map.1 h
      obtain ⟨h1, h2, h3, h4⟩ := (hmem x).1 hx
      simp only [pr, Prod.mk.injEq] at hxe
      obtain ⟨rfl, rfl⟩ := hxe
      refine ⟨h1, [x.i], [x.j], ?_, ?_, by simp, by simp⟩
      · rw [start_get, if_pos (by omega)]
      · rw [start_get, if_pos (by omega)]
    · rintro ⟨h1, a, b, h2, h3, _, _⟩
      rw [start_get] at h3
      split at h3
      · rename_i h4
        exact List.mem_map.2 ⟨⟨0, 0, i, j⟩, (hmem _).2 ⟨h1, h4, rfl, rfl⟩, rfl⟩
      · cases h3

theorem present_start (n : Nat) : present ((List.range n).map (fun i => [i])) = (List.range n).map (fun i => [i]) := by
  rw [present, List.filter_eq_self]
  intro g hg
  obtain ⟨i, _, rfl⟩ := List.mem_map.1 hg
  rfl

theorem best_unique {metrics groups : List (List Nat)} {m i j i' j' : Nat} (h : BestPair metrics groups m i j)
    (h' : BestPair metrics groups m i' j') : i = i' ∧ j = j' := by
  have h1 := h.2 i' j' h'.1
  have h2 := h'.2 i j h.1
  simp only [lexLe] at h1 h2
  omega

theorem greedy_unique {metrics : List (List Nat)} {m target : Nat} {groups out out' : List (List Nat)}
    (h : Greedy metrics m target groups out) (h' : Greedy metrics m target groups out') : out = out' := by
  induction h with
  | stop h1 =>
    cases h' with
    | stop _ => rfl
    | join h2 _ _ => omega
  | join h1 hb hr ih =>
    cases h' with
    | stop h2 => omega
    | join h2 hb' hr' =>
      obtain ⟨rfl, rfl⟩ := best_unique hb hb'
      exact ih hr'

theorem greedy_length {metrics : List (List Nat)} {m target : Nat} {groups out : List (List Nat)}
    (h : Greedy metrics m target groups out) : out.length = min (present groups).length (max target 1) := by
  induction h with
  | stop h => omega
  | join h hb hr ih =>
    have := present_join hb.1
    omega

theorem greedy_nonempty {metrics : List (List Nat)} {m target : Nat} {groups out : List (List Nat)}
    (h : Greedy metrics m target groups out) : ∀ g ∈ out, g ≠ [] := by
  induction h with
  | stop h => intro g hg; simpa using (List.mem_filter.1 hg).2
  | join h hb hr ih => exact ih

theorem flatten_set_append (l : List (List Nat)) (k : Nat) (a b : List Nat) (h : l[k]? = some a) :
    (l.set k (a ++ b)).flatten.Perm (l.flatten ++ b) := by
  have p1 := (perm_set l k a (a ++ b) h).flatten
  have p2 := (perm_erase_set l k a h).flatten
  refine p1.trans (List.Perm.trans ?_ (p2.symm.append_right b))
  simp only [List.flatten_cons, List.append_assoc]
  exact List.Perm.append_left a List.perm_append_comm

theorem flatten_join {groups : List (List Nat)} {i j : Nat} (h : IsPair groups i j) :
    (joinGroups groups i j).flatten.Perm groups.flatten := by
  obtain ⟨hij, a, b, ha, hb, _, _⟩ := h
  rw [joinGroups, show groups.getD i [] = a by simp [List.getD, ha], show groups.getD j [] = b by simp [List.getD, hb]]
  have hb' : (groups.set i (a ++ b))[j]? = some b := by rw [List.getElem?_set_ne (by omega)]; exact hb
  have h1 := flatten_set_append groups i a b ha
  have h2 : (((groups.set i (a ++ b)).set j []).set j ([] ++ b)).flatten.Perm (((groups.set i (a ++ b)).set j []).flatten ++ b) := by
    refine flatten_set_append _ j [] b ?_
    have : j < groups.length := (List.getElem?_eq_some_iff.1 hb).1
    simp [this]
  have h3 : ((groups.set i (a ++ b)).set j []).set j ([] ++ b) = groups.set i (a ++ b) := by
    rw [List.set_set, List.nil_append]
    have hl := (List.getElem?_eq_some_iff.1 hb')
    obtain ⟨hlt, he⟩ := hl
    generalize groups.set i (a ++ b) = L at hlt he ⊢
    subst he
    exact List.set_getElem_self hlt
  rw [h3] at h2
  exact (List.perm_append_right_iff b).1 (h2.symm.trans h1)

theorem flatten_present (groups : List (List Nat)) : (present groups).flatten = groups.flatten := by
  induction groups with
  | nil => rfl
  | cons g l ih =>
    cases g with
    | nil => simpa [present] using ih
    | cons x g =>
      simp only [present] at ih
      simp [present, ih]

theorem greedy_flatten {metrics : List (List Nat)} {m target : Nat} {groups out : List (List Nat)}
    (h : Greedy metrics m target groups out) : out.flatten.Perm groups.flatten := by
  induction h with
  | stop h => rw [flatten_present]
  | join h hb hr ih => exact ih.trans (flatten_join hb.1)

/-- Small weights: nothing overflows. -/
theorem metricsOK_of_bound {metrics : List (List Nat)} {m W : Nat} (hl : ∀ x ∈ metrics, x.length = m) (hw : ∀ x ∈ metrics, ∀ w ∈ x, w ≤ W)
    (hW : m * (W * W) < 18446744073709551616) (hm : m < 2147483648) : MetricsOK metrics m := by
  refine ⟨hl, ?_, hm⟩
  intro a b _ _ ha hb
  have hbound : ∀ c : List Nat, (∀ i ∈ c, i < metrics.length) → ∀ e, groupWeight metrics c e ≤ W := by
    intro c hc e
    rw [groupWeight]
    cases hmin : (c.map (fun i => (metrics.getD i []).getD e 0)).min? with
    | none => simp
    | some x =>
      have hx := List.min?_mem hmin
      obtain ⟨i, hi, hix⟩ := List.mem_map.1 hx
      have hlt := hc i hi
      have e1 : metrics.getD i [] = metrics[i] := by simp [List.getD, hlt]
      rw [e1] at hix
      simp only [Option.getD_some]
      rw [← hix]
      by_cases he : e < metrics[i].length
      · rw [show metrics[i].getD e 0 = metrics[i][e] by simp [List.getD, he]]
        exact hw _ (List.getElem_mem hlt) _ (List.getElem_mem he)
      · simp [List.getD, List.getElem?_eq_none (Nat.le_of_not_lt he)]
  have hsq : ∀ e, sqDiff metrics a b e ≤ W * W := by
    intro e
    have h1 := hbound a ha e
    have h2 := hbound b hb e
    exact Nat.mul_le_mul (by omega) (by omega)
  have : ∀ k, partialDiff metrics a b k ≤ k * (W * W) := by
    intro k
    induction k with
    | zero => simp [partialDiff]
    | succ k ih =>
      rw [partialDiff_succ, Nat.add_mul]
      have := hsq k
      omega
  have := this m
  simp only [MAX64]
  omega

end Verif.Merging
