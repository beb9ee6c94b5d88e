import Verif.Spec.TravelTime
/- Bounds of travel time functions. -/
namespace Verif
namespace Spec

/-- Points from time 0 to the end of the day, in the order of time, with the same value at both ends; who leaves later does not arrive earlier.
Other than in `ValidTtf`, values may be negative. -/
def PeriodicTtf (pts : List Pt) : Prop :=
  (∃ v rest, pts = ⟨0, v⟩ :: rest ++ [⟨day, v⟩]) ∧ ∀ A p q B, pts = A ++ p :: q :: B → p.t < q.t ∧ p.t + p.v ≤ q.t + q.v

/-- Points for a part of a day. -/
def PartialTtf (pts : List Pt) : Prop := 2 ≤ pts.length ∧ ∀ A p q B, pts = A ++ p :: q :: B → p.t < q.t ∧ p.t + p.v ≤ q.t + q.v

/-- `lo` is nowhere above `f` and nowhere more than `d` below. -/
def LowerWithin (d : Rat) (lo f : List Pt) : Prop := ∀ t y, TravelTime f t y → ∃ z, TravelTime lo t z ∧ z ≤ y ∧ y - d ≤ z

/-- `up` is nowhere below `f` and nowhere more than `d` above. -/
def UpperWithin (d : Rat) (up f : List Pt) : Prop := ∀ t y, TravelTime f t y → ∃ z, TravelTime up t z ∧ y ≤ z ∧ z ≤ y + d

end Spec
end Verif
