import Verif.Model.IndexHeap
/-
Specification of a priority queue whose elements are identified by an id: the abstract state is a partial
map from ids to pending elements. Nothing here mentions arrays, positions or trees; from the model only the
comparison and id of elements (`HeapElem`) are used.
-/
namespace Verif.Spec
open HeapElem
variable {α : Type} [HeapElem α]

/-- API calls. -/
inductive HeapOp (α : Type)
  | push (x : α) | pushUnlessContained (x : α) | pop | peek
  | get (id : Nat) | contains (id : Nat)
  | decreaseKey (x : α) | increaseKey (x : α) | updateKey (x : α) | clear

/-- What a call returns. -/
inductive HeapOut (α : Type)
  | unit | bool (b : Bool) | elem (o : Option α)

/-- Which calls a client may make when `m` holds the pending elements and ids range over `0..n`:
no id is pushed twice, keys only move in the direction of the call. -/
def HeapOp.Legal (n : Nat) (m : Nat → Option α) : HeapOp α → Prop
  | .push x => idx x < n ∧ m (idx x) = none
  | .pushUnlessContained x => idx x < n
  | .pop | .peek | .clear => True
  | .get id | .contains id => id < n
  | .decreaseKey x => ∃ y, m (idx x) = some y ∧ lt y x = false
  | .increaseKey x => ∃ y, m (idx x) = some y ∧ lt x y = false
  | .updateKey x => ∃ y, m (idx x) = some y

/-- `x` is pending and no pending element is smaller. -/
def IsMin (m : Nat → Option α) (x : α) : Prop :=
  m (idx x) = some x ∧ ∀ id y, m id = some y → lt y x = false

/-- One call: pending elements before, call, result, pending elements after. -/
inductive HeapStep : (Nat → Option α) → HeapOp α → HeapOut α → (Nat → Option α) → Prop
  | push {m x} : HeapStep m (.push x) .unit (fupd m (idx x) (some x))
  | pushNew {m x} : m (idx x) = none → HeapStep m (.pushUnlessContained x) .unit (fupd m (idx x) (some x))
  | pushOld {m x y} : m (idx x) = some y → HeapStep m (.pushUnlessContained x) .unit m
  | popEmpty {m} : (∀ id, m id = none) → HeapStep m .pop (.elem none) m
  | pop {m x} : IsMin m x → HeapStep m .pop (.elem (some x)) (fupd m (idx x) none)
  | peekEmpty {m} : (∀ id, m id = none) → HeapStep m .peek (.elem none) m
  | peek {m x} : IsMin m x → HeapStep m .peek (.elem (some x)) m
  | get {m id} : HeapStep m (.get id) (.elem (m id)) m
  | contains {m id} : HeapStep m (.contains id) (.bool (m id).isSome) m
  | decreaseKey {m x} : HeapStep m (.decreaseKey x) .unit (fupd m (idx x) (some x))
  | increaseKey {m x} : HeapStep m (.increaseKey x) .unit (fupd m (idx x) (some x))
  | updateKey {m x} : HeapStep m (.updateKey x) .unit (fupd m (idx x) (some x))
  | clear {m} : HeapStep m .clear .unit (fun _ => none)

/-- A history of calls with their results. -/
inductive HeapRun : (Nat → Option α) → List (HeapOp α) → List (HeapOut α) → (Nat → Option α) → Prop
  | nil {m} : HeapRun m [] [] m
  | cons {m m' m'' op out ops outs} : HeapStep m op out m' → HeapRun m' ops outs m'' →
      HeapRun m (op :: ops) (out :: outs) m''

/-- Every call of the history is legal at the moment it is made. -/
def LegalHistory (n : Nat) (m : Nat → Option α) (ops : List (HeapOp α)) : Prop :=
  ∀ pre op post, ops = pre ++ op :: post → ∀ outs m', HeapRun m pre outs m' → op.Legal n m'

end Verif.Spec
