import Verif.Proof.IntervalMin
import Verif.Props.IntervalMin
/- Property C90: the unchecked reads of the interval potential. -/
namespace Verif
open IntervalMin

/-- **C90**: if the head of each upward arc is a proper ancestor of its tail in the elimination tree, then for every history of queries and
questions the results are the same whatever an unchecked read of a missing estimate would yield (`unset`), also if it were a panic (`none`):
no such read takes place. -/
theorem C90_no_missing_estimate_is_read (d : Data)
    (up : ∀ v a b e h, d.fwFirst[v]? = some a → d.fwFirst[v + 1]? = some b → a ≤ e → e < b → d.fwHead[e]? = some h →
      Relation.TransGen (fun x y => d.tree[x]? = some (some y)) v h)
    (n : Nat) (unset : Option (Nat × Nat)) (history : List ((Nat × Nat × Nat) × List (Nat × Nat))) :
    sessions d unset (IState.new n) history = sessions d none (IState.new n) history :=
  sessions_eq up unset none history inv_new

/-- The hierarchy of C89 meets the condition. -/
theorem IntervalMinExample.upward : ∀ v a b e h, IntervalMinExample.d.fwFirst[v]? = some a → IntervalMinExample.d.fwFirst[v + 1]? = some b → a ≤ e → e < b →
    IntervalMinExample.d.fwHead[e]? = some h → Relation.TransGen (fun x y => IntervalMinExample.d.tree[x]? = some (some y)) v h := by
  intro v a b e h h1 h2 h3 h4 h5
  have hv : v < 6 := by
    have := (List.getElem?_eq_some_iff.1 h2).1
    simp only [IntervalMinExample.d, List.length_cons, List.length_nil] at this; omega
  have c : (v = 0 ∨ v = 1 ∨ v = 2 ∨ v = 3 ∨ v = 4 ∨ v = 5) := by omega
  rcases c with rfl | rfl | rfl | rfl | rfl | rfl <;> simp [IntervalMinExample.d] at h1 h2 <;> subst h1 <;> subst h2
  · have : e = 0 := by omega
    subst this; simp [IntervalMinExample.d] at h5; subst h5
    exact .tail (b := 2) (.single (by simp [IntervalMinExample.d])) (by simp [IntervalMinExample.d])
  · omega
  · have : e = 1 := by omega
    subst this; simp [IntervalMinExample.d] at h5; subst h5
    exact .single (by simp [IntervalMinExample.d])
  · have : e = 2 := by omega
    subst this; simp [IntervalMinExample.d] at h5; subst h5
    exact .single (by simp [IntervalMinExample.d])
  · omega
  · omega

/-- Two queries on one potential, with answers. -/
example : sessions IntervalMinExample.d none (IState.new 6) [((5, 1, 0), [(5, 0), (0, 4 * IntervalMinExample.H)]), ((2, 1, 0), [(2, 0)])] =
    some [[some (7 * IntervalMinExample.H), some (3 * IntervalMinExample.H)], [some (3 * IntervalMinExample.H)]] := by decide +kernel

end Verif
