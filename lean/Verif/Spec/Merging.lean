/- Specification of metric merging: repeatedly join the two most similar groups. -/
namespace Verif.Spec

/-- the weight of arc `e` in a group of metrics: the smallest weight of its members -/
def groupWeight (metrics : List (List Nat)) (group : List Nat) (e : Nat) : Nat :=
  ((group.map (fun i => (metrics.getD i []).getD e 0)).min?).getD 0

/-- the squared difference of two groups on arc `e` -/
def sqDiff (metrics : List (List Nat)) (a b : List Nat) (e : Nat) : Nat :=
  let x := groupWeight metrics a e
  let y := groupWeight metrics b e
  ((x - y) + (y - x)) * ((x - y) + (y - x))

/-- the sum of the squared differences on the first `k` arcs -/
def partialDiff (metrics : List (List Nat)) (a b : List Nat) (k : Nat) : Nat := ((List.range k).map (sqDiff metrics a b)).sum

/-- two groups that are there: `i < j`, none of them empty -/
def IsPair (groups : List (List Nat)) (i j : Nat) : Prop :=
  i < j ∧ ∃ a b, groups[i]? = some a ∧ groups[j]? = some b ∧ a ≠ [] ∧ b ≠ []

/-- `(d, i, j)` is lexicographically at most `(d', i', j')` -/
def lexLe (d i j d' i' j' : Nat) : Prop := d < d' ∨ d = d' ∧ (i < i' ∨ i = i' ∧ j ≤ j')

/-- the pair of groups with the smallest difference; ties are broken by index -/
def BestPair (metrics groups : List (List Nat)) (m i j : Nat) : Prop :=
  IsPair groups i j ∧ ∀ i' j', IsPair groups i' j' →
    lexLe (partialDiff metrics (groups.getD i []) (groups.getD j []) m) i j (partialDiff metrics (groups.getD i' []) (groups.getD j' []) m) i' j'

/-- group `j` joins group `i` -/
def joinGroups (groups : List (List Nat)) (i j : Nat) : List (List Nat) :=
  (groups.set i (groups.getD i [] ++ groups.getD j [])).set j []

/-- the groups that are there -/
def present (groups : List (List Nat)) : List (List Nat) := groups.filter (fun g => !g.isEmpty)

/-- Joining the best pair until at most `target` groups are left, or only one. -/
inductive Greedy (metrics : List (List Nat)) (m target : Nat) : List (List Nat) → List (List Nat) → Prop
  | stop {groups} (h : (present groups).length ≤ max target 1) : Greedy metrics m target groups (present groups)
  | join {groups i j out} (h : max target 1 < (present groups).length) (hb : BestPair metrics groups m i j)
      (hr : Greedy metrics m target (joinGroups groups i j) out) : Greedy metrics m target groups out

end Verif.Spec
