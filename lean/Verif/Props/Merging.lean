import Verif.Proof.Merging
/-
C49: merging metrics. Whatever the schedule of the concurrent tasks, the result is that of joining, again and again, the two groups
with the smallest difference. `pick` is the schedule.
-/
namespace Verif
open Spec

/-- C49. All metrics have `m` weights of at most `W`, and `m * W²` fits a `u64`. -/
theorem C49_merge (pick : Nat → Nat) (metrics : List (List Nat)) (m W target : Nat) (hne : metrics ≠ [])
    (hl : ∀ x ∈ metrics, x.length = m) (hw : ∀ x ∈ metrics, ∀ w ∈ x, w ≤ W)
    (hW : m * (W * W) < 18446744073709551616) (hm : m < 2147483648) :
    ∃ out, Merging.merge pick metrics target = some out
      -- every metric is in exactly one group, no group is empty
      ∧ out.flatten.Perm (List.range metrics.length) ∧ (∀ g ∈ out, g ≠ [])
      -- the number of groups
      ∧ out.length = min metrics.length (max target 1)
      -- the groups are those of the greedy strategy
      ∧ Greedy metrics m target ((List.range metrics.length).map (fun i => [i])) out := by
  obtain ⟨first, rest, rfl⟩ := List.exists_cons_of_ne_nil hne
  have hok := Merging.metricsOK_of_bound hl hw hW hm
  have hlen : first.length = m := hl first List.mem_cons_self
  have hg : Merging.GroupsOK (first :: rest).length ((List.range (first :: rest).length).map (fun i => [i])) := by
    intro g hgm i hi
    obtain ⟨k, hk, rfl⟩ := List.mem_map.1 hgm
    rw [List.mem_singleton.1 hi]; exact List.mem_range.1 hk
  obtain ⟨out, h1, h2⟩ := Merging.loop_spec pick target hok (2 * (first :: rest).length + 2) 0 _ _ (first :: rest).length hg
    (Merging.start_ok (first :: rest) m) (by rw [Merging.present_start]; simp) (Or.inl (Nat.le_refl _))
  refine ⟨present out, ?_, ?_, Merging.greedy_nonempty h2, ?_, h2⟩
  · have hany : ((first :: rest).any (fun x => x.length ≠ m)) = false := by
      rw [List.any_eq_false]
      intro x hx
      simp [hl x hx]
    have e0 : (first :: rest)[0]? = some first := rfl
    simp only [Merging.merge, e0, Option.bind_eq_bind, Option.bind_some, hlen, hany, Bool.false_eq_true, if_false, h1, Option.pure_def]
    rfl
  · refine (Merging.greedy_flatten h2).trans ?_
    rw [List.flatten_eq_flatMap, List.flatMap_map]
    simp
  · rw [Merging.greedy_length h2, Merging.present_start]
    simp

/-- C49: the schedule does not matter. -/
theorem C49_schedule_independent (pick pick' : Nat → Nat) (metrics : List (List Nat)) (m W target : Nat) (hne : metrics ≠ [])
    (hl : ∀ x ∈ metrics, x.length = m) (hw : ∀ x ∈ metrics, ∀ w ∈ x, w ≤ W)
    (hW : m * (W * W) < 18446744073709551616) (hm : m < 2147483648) :
    Merging.merge pick metrics target = Merging.merge pick' metrics target := by
  obtain ⟨out, h1, _, _, _, h2⟩ := C49_merge pick metrics m W target hne hl hw hW hm
  obtain ⟨out', h1', _, _, _, h2'⟩ := C49_merge pick' metrics m W target hne hl hw hW hm
  rw [h1, h1', Merging.greedy_unique h2 h2']

/-- C49 needs the bound: two metrics of five arcs, one open and one closed (`INFINITY`), overflow the `u64` sum. -/
theorem C49_needs_bound : ∀ pick : Nat → Nat,
    Merging.merge pick [[0, 0, 0, 0, 0], [INFINITY, INFINITY, INFINITY, INFINITY, INFINITY]] 1 = none := by
  intro pick
  have h : Merging.merge (fun _ => 0) [[0, 0, 0, 0, 0], [INFINITY, INFINITY, INFINITY, INFINITY, INFINITY]] 1 = none := by decide +kernel
  rw [← h]
  -- there is one task only, so the schedule makes no difference
  have hr : ∀ (fuel clock clock' : Nat) (t : Merging.Task) (F : Nat) (q : List Merging.Entry) (metrics merged : List (List Nat)) (m : Nat),
      (Merging.round pick metrics merged m fuel clock [t] F q).map Prod.fst = (Merging.round (fun _ => 0) metrics merged m fuel clock' [t] F q).map Prod.fst := by
    intro fuel
    induction fuel with
    | zero => intros; rfl
    | succ fuel ih =>
      intro clock clock' t F q metrics merged m
      rw [Merging.round, Merging.round]
      simp only [List.length_singleton, Nat.mod_one, List.isEmpty_cons, Bool.false_eq_true, if_false, List.getElem?_cons_zero,
        Option.bind_eq_bind, Option.bind_some, List.eraseIdx_cons_zero, List.set_cons_zero]
      by_cases hp : t.pushing = true
      · simp only [hp, if_true]
        cases fuel with
        | zero => rfl
        | succ fuel => rfl
      · simp only [hp, if_false]
        cases Merging.taskStep metrics merged m F t with
        | none => rfl
        | some r => exact ih _ _ _ _ _ _ _ _
  have h0 : (Merging.round (fun _ => 0) [[0, 0, 0, 0, 0], [INFINITY, INFINITY, INFINITY, INFINITY, INFINITY]] [[0], [1]] 5 8 0
      [⟨⟨0, 0, 0, 1⟩, false⟩] Merging.MAX64 []) = none := by decide +kernel
  have h1 : (Merging.round pick [[0, 0, 0, 0, 0], [INFINITY, INFINITY, INFINITY, INFINITY, INFINITY]] [[0], [1]] 5 8 0
      [⟨⟨0, 0, 0, 1⟩, false⟩] Merging.MAX64 []) = none := by
    have := hr 8 0 0 ⟨⟨0, 0, 0, 1⟩, false⟩ Merging.MAX64 [] [[0, 0, 0, 0, 0], [INFINITY, INFINITY, INFINITY, INFINITY, INFINITY]] [[0], [1]] 5
    rw [h0] at this
    simpa using this
  rw [h]
  have hrun : Merging.merge pick [[0, 0, 0, 0, 0], [INFINITY, INFINITY, INFINITY, INFINITY, INFINITY]] 1 =
      ((Merging.round pick [[0, 0, 0, 0, 0], [INFINITY, INFINITY, INFINITY, INFINITY, INFINITY]] [[0], [1]] 5 8 0
        [⟨⟨0, 0, 0, 1⟩, false⟩] Merging.MAX64 []).bind (fun r => Merging.loop pick [[0, 0, 0, 0, 0], [INFINITY, INFINITY, INFINITY, INFINITY, INFINITY]] 5 1 5 r.2 [[0], [1]] r.1 2)).bind
        (fun merged => some (merged.filter (fun g => !g.isEmpty))) := by rfl
  rw [hrun, h1]
  rfl

example : [[1, 2, 3], [1, 2, 4], [10, 20, 30], [9, 20, 30]] ≠ [] ∧ (∀ x ∈ [[1, 2, 3], [1, 2, 4], [10, 20, 30], [9, 20, 30]], x.length = 3) ∧
    (∀ x ∈ [[1, 2, 3], [1, 2, 4], [10, 20, 30], [9, 20, 30]], ∀ w ∈ x, w ≤ 30) ∧ 3 * (30 * 30) < 18446744073709551616 := by decide

example : Merging.merge (fun t => 3 * t + 1) [[1, 2, 3], [1, 2, 4], [10, 20, 30], [9, 20, 30]] 2 = some [[0, 1], [2, 3]] := by decide +kernel

end Verif
