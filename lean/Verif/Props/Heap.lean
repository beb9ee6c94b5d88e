import Verif.Proof.Heap
/- Property C12: the two-part heap. -/
namespace Verif
open Spec

/-- **C12.** Every history of calls succeeds, with results as described by `TailHeapHistory`: `pop` returns the largest waiting element.
Afterwards `peek` is a largest waiting element and agrees with the next `pop`, and `popped()` holds the popped elements. -/
theorem C12_heap_pops_in_order {α : Type} {le : α → α → Bool} (hle : TotalPreorder le) (ops : List (TailHeapOp α)) :
    ∃ outs h waiting taken, (Heap.new : Heap α).run le ops = some (outs, h) ∧ TailHeapHistory le ops outs waiting taken ∧ h.popped.Perm taken ∧
      (waiting = [] → h.peek = none) ∧ (waiting ≠ [] → ∃ x, h.peek = some x ∧ x ∈ waiting ∧ ∀ y ∈ waiting, le y x = true) ∧
      (h.pop le).map (·.1) = some h.peek := by
  obtain ⟨outs, h, w, t, h1, h2, h3⟩ := (Heap.Rep.new (le := le)).run hle .start ops
  obtain ⟨p1, p2, p3⟩ := h2.peek hle
  exact ⟨outs, h, w, t, h1, h3, h2.taken, p1, p2, p3⟩

/-- **C12, the specification has one answer.** What `pop` returns and what remains is determined by the history, up to order. -/
theorem C12_history_determines_results {α : Type} {le : α → α → Bool} (hle : TotalOrder le) (ops : List (TailHeapOp α)) (o1 o2 : List (Option α))
    (w1 w2 t1 t2 : List α) (h1 : TailHeapHistory le ops o1 w1 t1) (h2 : TailHeapHistory le ops o2 w2 t2) : o1 = o2 ∧ w1.Perm w2 ∧ t1.Perm t2 := by
  induction h1 generalizing o2 w2 t2 with
  | start =>
    generalize he : ([] : List (TailHeapOp α)) = ops at h2
    cases h2 with
    | start => exact ⟨rfl, .refl _, .refl _⟩
    | _ => simp at he
  | push x _ ih =>
    generalize he : _ ++ [TailHeapOp.push x] = ops at h2
    cases h2 with
    | start => simp at he
    | push y g =>
      obtain ⟨rfl, hx⟩ := List.append_inj' he rfl
      simp at hx; subst hx
      obtain ⟨rfl, a, b⟩ := ih _ _ _ g
      exact ⟨rfl, a.cons _, b⟩
    | _ => obtain ⟨_, hx⟩ := List.append_inj' he rfl; simp at hx
  | popEmpty _ ih =>
    generalize he : _ ++ [TailHeapOp.pop] = ops at h2
    cases h2 with
    | start => simp at he
    | popEmpty g =>
      obtain ⟨rfl, _⟩ := List.append_inj' he rfl
      obtain ⟨rfl, a, b⟩ := ih _ _ _ g
      exact ⟨rfl, a, b⟩
    | pop x w' g hp hm =>
      obtain ⟨rfl, _⟩ := List.append_inj' he rfl
      obtain ⟨_, a, b⟩ := ih _ _ _ g
      exact absurd (a.trans hp).symm.eq_nil (by simp)
    | _ => obtain ⟨_, hx⟩ := List.append_inj' he rfl; simp at hx
  | pop x w' _ hp hm ih =>
    generalize he : _ ++ [TailHeapOp.pop] = ops at h2
    cases h2 with
    | start => simp at he
    | popEmpty g =>
      obtain ⟨rfl, _⟩ := List.append_inj' he rfl
      obtain ⟨_, a, b⟩ := ih _ _ _ g
      exact absurd (hp.symm.trans a).eq_nil (by simp)
    | pop y v' g hq hn =>
      obtain ⟨rfl, _⟩ := List.append_inj' he rfl
      obtain ⟨rfl, a, b⟩ := ih _ _ _ g
      have hperm := (hp.symm.trans a).trans hq
      have hxy : x = y := by
        refine hle.antisymm _ _ ?_ ?_
        · rcases List.mem_cons.1 (hperm.mem_iff.1 (List.mem_cons_self)) with h | h
          · rw [h]; exact Heap.le_refl hle.toTotalPreorder _
          · exact hn x h
        · rcases List.mem_cons.1 (hperm.mem_iff.2 (List.mem_cons_self)) with h | h
          · rw [h]; exact Heap.le_refl hle.toTotalPreorder _
          · exact hm y h
      subst hxy
      exact ⟨rfl, hperm.cons_inv, b.cons _⟩
    | _ => obtain ⟨_, hx⟩ := List.append_inj' he rfl; simp at hx
  | retain keep _ ih =>
    generalize he : _ ++ [TailHeapOp.retain keep] = ops at h2
    cases h2 with
    | start => simp at he
    | retain k g =>
      obtain ⟨rfl, hx⟩ := List.append_inj' he rfl
      simp at hx; subst hx
      obtain ⟨rfl, a, b⟩ := ih _ _ _ g
      exact ⟨rfl, a.filter _, b.filter _⟩
    | _ => obtain ⟨_, hx⟩ := List.append_inj' he rfl; simp at hx
  | clear _ ih =>
    generalize he : _ ++ [TailHeapOp.clear] = ops at h2
    cases h2 with
    | start => simp at he
    | clear g =>
      obtain ⟨rfl, _⟩ := List.append_inj' he rfl
      obtain ⟨rfl, a, b⟩ := ih _ _ _ g
      exact ⟨rfl, .refl _, .refl _⟩
    | _ => obtain ⟨_, hx⟩ := List.append_inj' he rfl; simp at hx

/-- `u32` is totally ordered. -/
theorem natOrder : TotalOrder (fun a b : Nat => decide (a ≤ b)) :=
  ⟨⟨fun a b => by simpa using Nat.le_total a b, fun a b c => by simp only [decide_eq_true_eq]; exact Nat.le_trans⟩, fun a b => by simpa using Nat.le_antisymm⟩

example : ((Heap.new : Heap Nat).run (fun a b => decide (a ≤ b)) [.push 3, .push 9, .push 5, .pop, .push 7, .push 1, .retain (· ≠ 5), .pop, .pop]).map
    (fun r => (r.1, r.2.peek, r.2.popped)) = some ([none, none, none, some 9, none, none, none, some 7, some 3], some 1, [3, 7, 9]) := by decide +kernel

end Verif
