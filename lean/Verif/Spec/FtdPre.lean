import Verif.Spec.FtdInput
/- What shortcuts of a hierarchy can stand for. -/
namespace Verif.Ftd
open Spec Catchup

/-- where one leaves and where one arrives on an arc, upwards (`dir`) or downwards -/
def a0 (dir : Bool) (a : Nat × Nat) : Nat := if dir then a.1 else a.2
def a1 (dir : Bool) (a : Nat × Nat) : Nat := if dir then a.2 else a.1

/-- the arcs of each node are sorted by their heads -/
def HeadsSorted (arcs : List (Nat × Nat)) : Prop := ∀ (i j : Nat) (a b : Nat × Nat), i < j → arcs[i]? = some a → arcs[j]? = some b → a.1 = b.1 → a.2 < b.2

/-- What the arc `i` can stand for, upwards or downwards, with departure and arrival: the road of the arc, or what an arc down to a lower node `z` stands
for, followed by what an arc up from there stands for. -/
inductive StandsFor (roads : List (Nat × Nat × (Rat → Rat))) (arcs : List (Nat × Nat)) (fwd bwd : List (List Nat)) : Bool → Nat → Rat → Rat → Prop where
  | up {i e : Nat} {es : List Nat} {r : Nat × Nat × (Rat → Rat)} {τ : Rat} : fwd[i]? = some es → e ∈ es → roads[e]? = some r →
    StandsFor roads arcs fwd bwd true i τ (τ + r.2.2 τ)
  | down {i e : Nat} {es : List Nat} {r : Nat × Nat × (Rat → Rat)} {τ : Rat} : bwd[i]? = some es → e ∈ es → roads[e]? = some r →
    StandsFor roads arcs fwd bwd false i τ (τ + r.2.2 τ)
  | triangle {dir : Bool} {i d u z : Nat} {a : Nat × Nat} {τ x y : Rat} : arcs[i]? = some a → arcs[d]? = some (z, a0 dir a) → arcs[u]? = some (z, a1 dir a) →
    StandsFor roads arcs fwd bwd false d τ x → StandsFor roads arcs fwd bwd true u x y → StandsFor roads arcs fwd bwd dir i τ y

/-- Nothing takes too long: `W` is above the travel times of the road of each arc and, for each arc, above the sum of those of the arcs of a triangle, and
below `lim`. -/
structure TimesBelow (lim : Rat) (ttf : Nat → Option (List Pt)) (arcs : List (Nat × Nat)) (fwd bwd : List (List Nat)) (W : Bool → Nat → Rat) : Prop where
  below : ∀ dir i, W dir i < lim
  upward : ∀ (i e : Nat) (es : List Nat) (p : List Pt), fwd[i]? = some es → e ∈ es → ttf e = some p → ∀ q ∈ p, q.v ≤ W true i
  downward : ∀ (i e : Nat) (es : List Nat) (p : List Pt), bwd[i]? = some es → e ∈ es → ttf e = some p → ∀ q ∈ p, q.v ≤ W false i
  triangle : ∀ (dir : Bool) (i d u z : Nat) (a : Nat × Nat), arcs[i]? = some a → arcs[d]? = some (z, a0 dir a) → arcs[u]? = some (z, a1 dir a) →
    W false d + W true u ≤ W dir i

/-- What the pre-customization needs, if it is done: the arcs of a node are sorted, and nothing takes too long. -/
def PreReady (pre : Bool) (ttf : Nat → Option (List Pt)) (arcs : List (Nat × Nat)) (fwd bwd : List (List Nat)) : Prop :=
  pre = true → HeadsSorted arcs ∧ ∃ W, TimesBelow INF ttf arcs fwd bwd W

end Verif.Ftd
