import Verif.Proof.Sequences
set_option linter.unusedSimpArgs false
set_option linter.unusedVariables false
/- Properties C50 and C51: `filter_covered` and the merging iterators. -/
namespace Verif
open Spec Seq

/-- **C50.** For every list of ranges that do not end before they start, and every sort by the comparison function: the result
contains exactly the ranges that contain no other range of the list, each once, sorted by start and end. -/
theorem C50_filter_covered (srt : List Rng → List Rng) (hsrt : ∀ l, (srt l).Perm l ∧
      (srt l).Pairwise (fun a b => a.start < b.start ∨ a.start = b.start ∧ b.stop ≤ a.stop))
    (ranges : List Rng) (hwf : ∀ r ∈ ranges, r.start ≤ r.stop) :
    ∃ out, filterCovered srt ranges = some out ∧ (∀ r, r ∈ out ↔ MinimalIn ranges r) ∧
      out.Pairwise (fun a b => a.start < b.start ∧ a.stop < b.stop) :=
  filterCovered_spec (hsrt ranges).1 (hsrt ranges).2 hwf

/-- a sort that qualifies -/
def rngSort (l : List Rng) : List Rng := l.mergeSort (fun a b => decide (a.start < b.start ∨ a.start = b.start ∧ b.stop ≤ a.stop))

theorem rngSort_ok (l : List Rng) : (rngSort l).Perm l ∧
    (rngSort l).Pairwise (fun a b => a.start < b.start ∨ a.start = b.start ∧ b.stop ≤ a.stop) := by
  refine ⟨List.mergeSort_perm _ _, ?_⟩
  have := List.pairwise_mergeSort (le := fun a b : Rng => decide (a.start < b.start ∨ a.start = b.start ∧ b.stop ≤ a.stop))
    (by intro a b c; simp only [decide_eq_true_eq]; omega) (by intro a b; simp only [Bool.or_eq_true, decide_eq_true_eq]; omega) l
  exact this.imp (fun h => by simpa using h)

example : filterCovered (fun l => l) [⟨0, 3⟩, ⟨1, 3⟩, ⟨1, 2⟩, ⟨2, 3⟩, ⟨2, 3⟩, ⟨5, 9⟩] = some [⟨1, 2⟩, ⟨2, 3⟩, ⟨5, 9⟩] := by decide +kernel

/-- **C50**, why ranges have to end after they start: the range 3..1 lies within 0..2 numerically, but 0..2 is kept. -/
theorem C50_needs_ordered_ranges : filterCovered (fun l => l) [⟨0, 2⟩, ⟨3, 1⟩] = some [⟨0, 2⟩, ⟨3, 1⟩] := by decide +kernel

/-- **C51**, `Interleave`: for all sequences the iteration ends and yields the elements in turn, until both run out; so it yields all
elements of both, each in its order. The size hint is exact. -/
theorem C51_interleave {α : Type} (a b : List α) : ∃ out, Seq.collect Interleave.next (a.length + b.length + 1) (Interleave.new a b) = some out ∧
    out = alternate a b ∧ out.Perm (a ++ b) ∧ a.Sublist out ∧ b.Sublist out ∧
    (Interleave.new a b).sizeHint = (out.length, some out.length) := by
  refine ⟨alternate a b, ?_, rfl, alternate_perm _ a b rfl, (alternate_sublist _ a b rfl).1, (alternate_sublist _ a b rfl).2, ?_⟩
  · have := interleave_collect (a.length + b.length + 1) a b false (by omega)
    simpa [Interleave.new] using this
  · have := (alternate_perm _ a b rfl).length_eq
    simp [Interleave.sizeHint, Interleave.new, this]

/-- **C51**, `CoordinateSweepIter`: for all sequences the iteration ends, yields the elements of each side in order, pairs only equal
elements and never yields an empty pair. If both are strictly sorted, the keys are strictly sorted: every key comes once, so both
sides are present exactly if both sequences contain the key. -/
theorem C51_sweep (a b : List Nat) : ∃ out, Seq.collect sweepNext (a.length + b.length + 1) (a, b) = some out ∧
    out.filterMap Prod.fst = a ∧ out.filterMap Prod.snd = b ∧
    (∀ p ∈ out, p ≠ (none, none) ∧ ∀ x y, p = (some x, some y) → x = y) ∧
    (a.Pairwise (· < ·) → b.Pairwise (· < ·) → (out.filterMap sweepKey).Pairwise (· < ·) ∧
      ∀ x, ((some x, some x) ∈ out ↔ x ∈ a ∧ x ∈ b) ∧ ((some x, none) ∈ out ↔ x ∈ a ∧ x ∉ b) ∧ ((none, some x) ∈ out ↔ x ∉ a ∧ x ∈ b)) := by
  obtain ⟨out, h1, h2, h3, h4, h5, h6⟩ := sweep_collect (a.length + b.length + 1) a b (by omega)
  refine ⟨out, h1, h2, h3, h4, ?_⟩
  intro ha hb
  have hs := h6 ha hb
  refine ⟨hs, ?_⟩
  -- entries with the same key are equal
  have huniq : ∀ p ∈ out, ∀ q ∈ out, sweepKey p = sweepKey q → p = q := by
    clear h1 h2 h3 h5 h6
    induction out with
    | nil => intro p hp; simp at hp
    | cons p0 out ih =>
      have hk0 : ∃ k, sweepKey p0 = some k := by
        have := (h4 p0 (by simp)).1
        rcases p0 with ⟨_ | x, _ | y⟩
        · exact absurd rfl this
        · exact ⟨y, rfl⟩
        · exact ⟨x, rfl⟩
        · exact ⟨x, rfl⟩
      obtain ⟨k, hk⟩ := hk0
      rw [List.filterMap_cons_some hk, List.pairwise_cons] at hs
      have hne : ∀ q ∈ out, sweepKey q ≠ some k := by
        intro q hq hqk
        have := hs.1 k (List.mem_filterMap.2 ⟨q, hq, hqk⟩)
        omega
      intro p hp q hq hpq
      rcases List.mem_cons.1 hp with hp1 | hp1 <;> rcases List.mem_cons.1 hq with hq1 | hq1
      · rw [hp1, hq1]
      · subst hp1; exact absurd (hpq ▸ hk) (hne q hq1)
      · subst hq1; exact absurd (hpq.trans hk) (hne p hp1)
      · exact ih (fun p hp => h4 p (by simp [hp])) hs.2 p hp1 q hq1 hpq
  intro x
  have hina : x ∈ a ↔ ∃ y, (some x, y) ∈ out := by
    rw [← h2, List.mem_filterMap]
    constructor
    · rintro ⟨⟨x', y⟩, h, he⟩; exact ⟨y, by simp at he; subst he; exact h⟩
    · rintro ⟨y, h⟩; exact ⟨_, h, rfl⟩
  have hinb : x ∈ b ↔ ∃ y, (y, some x) ∈ out := by
    rw [← h3, List.mem_filterMap]
    constructor
    · rintro ⟨⟨y, x'⟩, h, he⟩; exact ⟨y, by simp at he; subst he; exact h⟩
    · rintro ⟨y, h⟩; exact ⟨_, h, rfl⟩
  have hkey : ∀ y, (y, some x) ∈ out → sweepKey (y, some x) = some x := by
    intro y h
    cases y with
    | none => rfl
    | some y => have := (h4 _ h).2 y x rfl; subst this; rfl
  refine ⟨?_, ?_, ?_⟩
  · constructor
    · intro h; exact ⟨hina.2 ⟨_, h⟩, hinb.2 ⟨_, h⟩⟩
    · rintro ⟨ha', hb'⟩
      obtain ⟨y, hy⟩ := hina.1 ha'
      obtain ⟨z, hz⟩ := hinb.1 hb'
      have := huniq _ hy _ hz (by rw [hkey z hz]; rfl)
      simp at this; rw [this.2] at hy; exact hy
  · constructor
    · intro h
      refine ⟨hina.2 ⟨_, h⟩, fun hb' => ?_⟩
      obtain ⟨z, hz⟩ := hinb.1 hb'
      have := huniq _ h _ hz (by rw [hkey z hz]; rfl)
      simp at this
    · rintro ⟨ha', hb'⟩
      obtain ⟨y, hy⟩ := hina.1 ha'
      cases y with
      | none => exact hy
      | some y => have := (h4 _ hy).2 x y rfl; subst this; exact absurd (hinb.2 ⟨_, hy⟩) hb'
  · constructor
    · intro h
      refine ⟨fun ha' => ?_, hinb.2 ⟨_, h⟩⟩
      obtain ⟨z, hz⟩ := hina.1 ha'
      have := huniq _ h _ hz (by rw [hkey none h]; rfl)
      simp at this
    · rintro ⟨ha', hb'⟩
      obtain ⟨y, hy⟩ := hinb.1 hb'
      cases y with
      | none => exact hy
      | some y => have := (h4 _ hy).2 y x rfl; subst this; exact absurd (hina.2 ⟨_, hy⟩) ha'

example : Seq.collect Interleave.next 8 (Interleave.new [1, 2] [10, 20, 30, 40]) = some [1, 10, 2, 20, 30, 40] := by decide +kernel
example : Seq.collect sweepNext 8 ([1, 2, 5], [0, 2, 7]) =
    some [(none, some 0), (some 1, none), (some 2, some 2), (some 5, none), (none, some 7)] := by decide +kernel

end Verif
