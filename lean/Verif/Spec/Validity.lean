/- Specification of upper bounds on travel times that hold only from some point in time on. -/
namespace Verif.Spec

/-- What the arrays of a hierarchy store about the way from `x` to `y`: for the arc between `tail[e]` and `head[e]` the bounds `up`, `down` for
the two directions, and from when on they hold. -/
def StoredBound (tail head up upFrom down downFrom : List Nat) (x y w v : Nat) : Prop :=
  ∃ e : Nat, (tail[e]? = some x ∧ head[e]? = some y ∧ up[e]? = some w ∧ upFrom[e]? = some v) ∨
    (tail[e]? = some y ∧ head[e]? = some x ∧ down[e]? = some w ∧ downFrom[e]? = some v)

/-- Bounds for ways along several arcs: the bounds add up, and the sum holds as soon as all parts do. -/
inductive AddedUp (bound : Nat → Nat → Nat → Nat → Prop) : Nat → Nat → Nat → Nat → Prop
  | one {x y w v : Nat} : bound x y w v → AddedUp bound x y w v
  | join {x y z w w' v v' : Nat} : AddedUp bound x y w v → AddedUp bound y z w' v' → AddedUp bound x z (w + w') (max v v')

/-- Traffic: `trip x y t a` means that leaving `x` at `t` one can be at `y` at `a`. -/
structure Traffic (trip : Nat → Nat → Nat → Nat → Prop) : Prop where
  forward : ∀ x y t a, trip x y t a → t ≤ a
  goOn : ∀ x y z t a b, trip x y t a → trip y z a b → trip x z t b

/-- From `v` on the way from `x` to `y` takes at most `w`. -/
def TakesAtMost (trip : Nat → Nat → Nat → Nat → Prop) (x y w v : Nat) : Prop := ∀ t, v ≤ t → ∃ a, trip x y t a ∧ a ≤ t + w

end Verif.Spec
