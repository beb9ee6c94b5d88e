import Verif.Spec.PriorityMap
import Verif.Proof.IndexHeap
/- Properties C10 and C11: the indexed priority queue. -/
namespace Verif
open Spec HeapElem

namespace IHeap
variable {α : Type} [HeapElem α]

/-- Executes one API call on the model of `IndexdMinHeap`; `none` is a panic. -/
def exec (h : IHeap α) : HeapOp α → Option (HeapOut α × IHeap α)
  | .push x => (h.push x).map fun h' => (.unit, h')
  | .pushUnlessContained x => (h.pushUnlessContained x).map fun h' => (.unit, h')
  | .pop => h.pop.map fun (o, h') => (.elem o, h')
  | .peek => some (.elem h.peek, h)
  | .get id => (h.get id).map fun o => (.elem o, h)
  | .contains id => (h.containsIndex id).map fun b => (.bool b, h)
  | .decreaseKey x => (h.decreaseKey x).map fun h' => (.unit, h')
  | .increaseKey x => (h.increaseKey x).map fun h' => (.unit, h')
  | .updateKey x => (h.updateKey x).map fun h' => (.unit, h')
  | .clear => h.clear.map fun h' => (.unit, h')

/-- Executes a history. -/
def run (h : IHeap α) : List (HeapOp α) → Option (List (HeapOut α) × IHeap α)
  | [] => some ([], h)
  | op :: ops =>
    match h.exec op with
    | none => none
    | some (out, h') =>
      match run h' ops with
      | none => none
      | some (outs, h'') => some (out :: outs, h'')

theorem exec_spec [LawfulHeapElem α] {n : Nat} {h : IHeap α} {m : Nat → Option α} (hr : Rep n h m) (op : HeapOp α)
    (hl : op.Legal n m) : ∃ out h' m', h.exec op = some (out, h') ∧ HeapStep m op out m' ∧ Rep n h' m' := by
  cases op with
  | push x =>
    obtain ⟨h', h1, h2⟩ := rep_push hr hl.1 hl.2
    exact ⟨_, h', _, by simp [exec, h1], .push, h2⟩
  | pushUnlessContained x =>
    have hc := rep_containsIndex hr (id := idx x) hl
    cases hm : m (idx x) with
    | none =>
      obtain ⟨h', h1, h2⟩ := rep_push hr hl hm
      exact ⟨_, h', _, by simp [exec, pushUnlessContained, hc, hm, h1], .pushNew hm, h2⟩
    | some y => exact ⟨_, h, _, by simp [exec, pushUnlessContained, hc, hm], .pushOld hm, hr⟩
  | pop =>
    rcases rep_pop hr with ⟨h1, h2⟩ | ⟨x, h', h1, h2, h3, h4⟩
    · exact ⟨_, h, _, by simp [exec, h1], .popEmpty h2, hr⟩
    · exact ⟨_, h', _, by simp [exec, h1], .pop ⟨h2, h3⟩, h4⟩
  | peek =>
    rcases rep_peek hr with ⟨h1, h2⟩ | ⟨x, h1, h2, h3⟩
    · exact ⟨_, h, _, by simp only [exec, h1], .peekEmpty h2, hr⟩
    · exact ⟨_, h, _, by simp only [exec, h1], .peek ⟨h2, h3⟩, hr⟩
  | get id => exact ⟨_, h, _, by simp [exec, rep_get hr hl], .get, hr⟩
  | contains id => exact ⟨_, h, _, by simp [exec, rep_containsIndex hr hl], .contains, hr⟩
  | decreaseKey x =>
    obtain ⟨y, hy, hle⟩ := hl
    obtain ⟨h', h1, h2⟩ := rep_decreaseKey hr hy hle
    exact ⟨_, h', _, by simp [exec, h1], .decreaseKey, h2⟩
  | increaseKey x =>
    obtain ⟨y, hy, hle⟩ := hl
    obtain ⟨h', h1, h2⟩ := rep_increaseKey hr hy hle
    exact ⟨_, h', _, by simp [exec, h1], .increaseKey, h2⟩
  | updateKey x =>
    obtain ⟨y, hy⟩ := hl
    obtain ⟨h', h1, h2⟩ := rep_updateKey hr hy
    exact ⟨_, h', _, by simp [exec, h1], .updateKey, h2⟩
  | clear =>
    obtain ⟨h', h1, h2⟩ := rep_clear hr
    exact ⟨_, h', _, by simp [exec, h1], .clear, h2⟩

theorem run_spec [LawfulHeapElem α] {n : Nat} (ops : List (HeapOp α)) {h : IHeap α} {m : Nat → Option α}
    (hr : Rep n h m) (hl : LegalHistory n m ops) :
    ∃ outs h' m', h.run ops = some (outs, h') ∧ HeapRun m ops outs m' ∧ Rep n h' m' := by
  induction ops generalizing h m with
  | nil => exact ⟨[], h, m, rfl, .nil, hr⟩
  | cons op ops ih =>
    obtain ⟨out, h', m', h1, h2, h3⟩ := exec_spec hr op (hl [] op ops rfl [] m .nil)
    obtain ⟨outs, h'', m'', h4, h5, h6⟩ := ih h3 (by
      intro pre op' post he outs m'' hrun
      exact hl (op :: pre) op' post (by simp [he]) (out :: outs) m'' (.cons h2 hrun))
    exact ⟨out :: outs, h'', m'', by simp [run, h1, h4], .cons h2 h5, h6⟩

end IHeap

/-- **C10.** For every id space, every totally ordered element type and every history of legal calls, the indexed heap
never panics and returns exactly what the abstract priority queue returns. -/
theorem C10_indexed_heap_refines_priority_map {α : Type} [HeapElem α] [LawfulHeapElem α] (n : Nat)
    (ops : List (HeapOp α)) (hl : LegalHistory n (fun _ => none) ops) :
    ∃ outs h m, (IHeap.new n : IHeap α).run ops = some (outs, h) ∧ HeapRun (fun _ => none) ops outs m := by
  obtain ⟨outs, h, m, h1, h2, _⟩ := IHeap.run_spec ops (IHeap.rep_new n) hl
  exact ⟨outs, h, m, h1, h2⟩

/-- **C10** (the specification is deterministic, so the previous theorem pins the results down uniquely). -/
theorem C10_priority_map_deterministic {α : Type} [HeapElem α] [LawfulHeapElem α] {m m₁ m₂ : Nat → Option α}
    {op : HeapOp α} {o₁ o₂ : HeapOut α}
    (h1 : HeapStep m op o₁ m₁) (h2 : HeapStep m op o₂ m₂) : o₁ = o₂ ∧ m₁ = m₂ := by
  have huniq : ∀ x y, IsMin m x → IsMin m y → x = y := by
    intro x y hx hy
    exact LawfulHeapElem.total x y (hy.2 _ _ hx.1) (hx.2 _ _ hy.1)
  have hempty : ∀ x, (∀ id, m id = none) → ¬ IsMin m x := by
    intro x h0 hx; have := hx.1; rw [h0] at this; simp at this
  cases h1 <;> cases h2 <;> first
    | (simp_all; done)
    | (exact absurd ‹IsMin m _› (hempty _ ‹∀ id, m id = none›))
    | (have := huniq _ _ ‹IsMin m _› ‹IsMin m _›; skip
       rename_i hx _ hy
       have := huniq _ _ hx hy
       subst this; exact ⟨rfl, rfl⟩)

/-- Non-vacuity: a history with pushes, a decrease, an increase and pops is legal, and the heap executes it. -/
example : ((IHeap.new 3 : IHeap QState).run
    [.push ⟨42, 0⟩, .push ⟨23, 1⟩, .push ⟨50000, 2⟩, .peek, .decreaseKey ⟨1, 0⟩, .pop, .increaseKey ⟨60000, 1⟩, .pop, .pop, .pop]).map
      (fun r => r.1.length) = some 10 := by decide

/-- The claim of the comment at `index_heap.rs:148-149` for `decrease_key`: nothing happens if the new key is larger. -/
def DecreaseKeyIgnoresLarger : Prop :=
  ∀ (n : Nat) (h : IHeap QState) (m : Nat → Option QState), IHeap.Rep n h m →
    ∀ x y, m x.node = some y → HeapElem.lt y x = true → h.decreaseKey x = some h

/-- The claim of the comment at `index_heap.rs:156-157` for `increase_key`. -/
def IncreaseKeyIgnoresSmaller : Prop :=
  ∀ (n : Nat) (h : IHeap QState) (m : Nat → Option QState), IHeap.Rep n h m →
    ∀ x y, m x.node = some y → HeapElem.lt x y = true → h.increaseKey x = some h

private def w0 : IHeap QState := ⟨[some 0, some 1], [⟨1, 0⟩, ⟨2, 1⟩]⟩

private theorem w0_reach : (IHeap.new 2 : IHeap QState).run [.push ⟨1, 0⟩, .push ⟨2, 1⟩] = some ([.unit, .unit], w0) := rfl

private theorem w0_rep : ∃ m, IHeap.Rep 2 w0 m ∧ m 0 = some ⟨1, 0⟩ ∧ m 1 = some ⟨2, 1⟩ := by
  obtain ⟨h1, e1, r1⟩ := IHeap.rep_push (IHeap.rep_new (α := QState) 2) (x := ⟨1, 0⟩) (by decide) rfl
  obtain ⟨h2, e2, r2⟩ := IHeap.rep_push r1 (x := ⟨2, 1⟩) (by decide) (by simp [fupd, HeapElem.idx])
  have : h2 = w0 := by
    have a1 : (IHeap.new 2 : IHeap QState).push ⟨1, 0⟩ = some ⟨[some 0, none], [⟨1, 0⟩]⟩ := rfl
    rw [a1] at e1; simp at e1; subst e1
    have a2 : (⟨[some 0, none], [⟨1, 0⟩]⟩ : IHeap QState).push ⟨2, 1⟩ = some w0 := rfl
    rw [a2] at e2; simpa using e2.symm
  subst this
  exact ⟨_, r2, by simp [fupd, HeapElem.idx], by simp [fupd, HeapElem.idx]⟩

/-- **C11 is false of the code**: `decrease_key` with a larger key overwrites the element. -/
theorem C11_decrease_key_does_not_ignore_larger : ¬ DecreaseKeyIgnoresLarger := by
  intro h
  obtain ⟨m, hr, h0, _⟩ := w0_rep
  have := h 2 w0 m hr ⟨5, 0⟩ ⟨1, 0⟩ h0 (by decide)
  revert this; decide

/-- **C11 is false of the code**: `increase_key` with a smaller key overwrites the element. -/
theorem C11_increase_key_does_not_ignore_smaller : ¬ IncreaseKeyIgnoresSmaller := by
  intro h
  obtain ⟨m, hr, _, h1⟩ := w0_rep
  have := h 2 w0 m hr ⟨0, 1⟩ ⟨2, 1⟩ h1 (by decide)
  revert this; decide

/-- **C11**, consequence: after a `decrease_key` in the wrong direction the next `pop` returns an element which is not
the smallest one (element 0 has key 5, element 1 has key 2). -/
theorem C11_wrong_direction_breaks_pop :
    ∃ h₁ h₂, w0.decreaseKey ⟨5, 0⟩ = some h₁ ∧ h₁.pop = some (some ⟨5, 0⟩, h₂) ∧
      h₁.get 1 = some (some ⟨2, 1⟩) := ⟨_, _, rfl, rfl, rfl⟩

/-- **C11**, the part that holds: in the documented direction the key is updated and nothing else changes. -/
theorem C11_key_moves_in_direction_partial {α : Type} [HeapElem α] [LawfulHeapElem α] {n : Nat} {h : IHeap α}
    {m : Nat → Option α} (hr : IHeap.Rep n h m) (x y : α) (hy : m (HeapElem.idx x) = some y) :
    (HeapElem.lt y x = false → ∃ h', h.decreaseKey x = some h' ∧ IHeap.Rep n h' (fupd m (HeapElem.idx x) (some x))) ∧
    (HeapElem.lt x y = false → ∃ h', h.increaseKey x = some h' ∧ IHeap.Rep n h' (fupd m (HeapElem.idx x) (some x))) ∧
    (∃ h', h.updateKey x = some h' ∧ IHeap.Rep n h' (fupd m (HeapElem.idx x) (some x))) :=
  ⟨IHeap.rep_decreaseKey hr hy, IHeap.rep_increaseKey hr hy, IHeap.rep_updateKey hr hy⟩

end Verif
