import Verif.Spec.Sources
import Verif.Spec.TravelTime
/- Specification: how an arc of a hierarchy is driven, if what it stands for depends on the time of departure. -/
namespace Verif.Spec

/-- A list of times of day with what an arc stands for from then on; `v` is the one at time `t`. The last one holds until the first one of the
next day. -/
def ActiveAt (l : List (Rat × Via)) (t : Rat) (v : Via) : Prop :=
  ∃ (i k : Nat) (s : Rat), l[i]? = some (s, v) ∧ s + k * day ≤ t ∧
    ((∃ s' v', l[i + 1]? = some (s', v') ∧ t < s' + k * day) ∨ (i + 1 = l.length ∧ ∃ s' v', l[0]? = some (s', v') ∧ t < s' + (k + 1) * day))

/-- Driving the arc `e` (upwards or downwards), leaving at `t` and arriving at `t'`. The list says which original edges are entered when.
`travel o t t'`: one can enter the original edge `o` at `t` and leave it at `t'`. -/
inductive Drive (src : Bool → Nat → List (Rat × Via)) (travel : Nat → Rat → Rat → Prop) : Bool → Nat → Rat → Rat → List (Nat × Rat) → Prop
  | edge {up : Bool} {e o : Nat} {t t' : Rat} : ActiveAt (src up e) t (.edge o) → travel o t t' → Drive src travel up e t t' [(o, t)]
  | pair {up : Bool} {e a b : Nat} {t t' t'' : Rat} {l l' : List (Nat × Rat)} : ActiveAt (src up e) t (.pair a b) → Drive src travel false a t t' l →
      Drive src travel true b t' t'' l' → Drive src travel up e t t'' (l ++ l')

/-- The original edge is somewhere in what the arc stands for, at whatever time. -/
inductive Within (src : Bool → Nat → List (Rat × Via)) : Via → Nat → Prop
  | edge (o : Nat) : Within src (.edge o) o
  | left {a b o : Nat} {t : Rat} {v : Via} : (t, v) ∈ src false a → Within src v o → Within src (.pair a b) o
  | right {a b o : Nat} {t : Rat} {v : Via} : (t, v) ∈ src true b → Within src v o → Within src (.pair a b) o

/-- The `i`-th entry on day `k` holds from `from'` to `stop`. -/
def EntryHolds (l : List (Rat × Via)) (i k : Nat) (v : Via) (from' stop : Rat) : Prop :=
  ∃ s s' v', l[i]? = some (s, v) ∧ from' = s + k * day ∧
    ((l[i + 1]? = some (s', v') ∧ stop = s' + k * day) ∨ (i + 1 = l.length ∧ l[0]? = some (s', v') ∧ stop = s' + (k + 1) * day))

/-- What `slice::binary_search_by` promises for a slice that is sorted with respect to the comparison. -/
def SearchesBy {α : Type} (bs : (α → Ordering) → List α → Except Nat Nat) : Prop :=
  ∀ (cmp : α → Ordering) (l : List α), l.Pairwise (fun a b => (cmp b = .lt → cmp a = .lt) ∧ (cmp a = .gt → cmp b = .gt)) →
    (∀ i, bs cmp l = .ok i → ∃ x, l[i]? = some x ∧ cmp x = .eq) ∧
    (∀ i, bs cmp l = .error i → i ≤ l.length ∧ (∀ (j : Nat) x, j < i → l[j]? = some x → cmp x = .lt) ∧
      (∀ (j : Nat) x, i ≤ j → l[j]? = some x → cmp x = .gt))

/-- Sources of an arc as the customization stores them: the first one from the start of the day on, the others later, in order. -/
structure SortedSources (l : List (Rat × Via)) : Prop where
  first : ∀ s v, l[0]? = some (s, v) → s = 0
  sorted : l.Pairwise fun a b => a.1 < b.1
  day : ∀ x ∈ l, x.1 < day

end Verif.Spec
