/-
Specification of the two-part heap: a multiset of waiting elements and a multiset of elements that were taken out.
-/
namespace Verif.Spec
variable {α : Type}

/-- a total preorder, given by `≤` -/
structure TotalPreorder (le : α → α → Bool) : Prop where
  total : ∀ a b, le a b = true ∨ le b a = true
  trans : ∀ a b c, le a b = true → le b c = true → le a c = true

/-- `Ord`: a total order, given by `≤` -/
structure TotalOrder (le : α → α → Bool) : Prop extends TotalPreorder le where
  antisymm : ∀ a b, le a b = true → le b a = true → a = b

inductive TailHeapOp (α : Type) where
  | push (x : α)
  | pop
  | retain (keep : α → Bool)
  | clear

/-- `TailHeapHistory le ops outs waiting taken`: after the calls `ops`, which returned `outs` (only `pop` returns something), `waiting` are
the elements in the heap and `taken` those popped. Lists stand for multisets. -/
inductive TailHeapHistory (le : α → α → Bool) : List (TailHeapOp α) → List (Option α) → List α → List α → Prop
  | start : TailHeapHistory le [] [] [] []
  | push {ops outs w t} (x : α) : TailHeapHistory le ops outs w t → TailHeapHistory le (ops ++ [.push x]) (outs ++ [none]) (x :: w) t
  | popEmpty {ops outs t} : TailHeapHistory le ops outs [] t → TailHeapHistory le (ops ++ [.pop]) (outs ++ [none]) [] t
  | pop {ops outs w t} (x : α) (w' : List α) : TailHeapHistory le ops outs w t → w.Perm (x :: w') → (∀ y ∈ w', le y x = true) →
      TailHeapHistory le (ops ++ [.pop]) (outs ++ [some x]) w' (x :: t)
  | retain {ops outs w t} (keep : α → Bool) : TailHeapHistory le ops outs w t →
      TailHeapHistory le (ops ++ [.retain keep]) (outs ++ [none]) (w.filter keep) (t.filter keep)
  | clear {ops outs w t} : TailHeapHistory le ops outs w t → TailHeapHistory le (ops ++ [.clear]) (outs ++ [none]) [] []

end Verif.Spec
