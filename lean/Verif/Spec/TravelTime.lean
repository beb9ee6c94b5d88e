/- Travel time functions given by points, as a user of CATCHUp sees them: times and travel times are numbers of seconds.  -/
namespace Verif
namespace Spec

/-- A point: who leaves at time `t` needs `v`. -/
structure Pt where
  t : Rat
  v : Rat
deriving DecidableEq, Repr

/-- A day: 86400 s -/
def day : Rat := 86400

/-- `(t, y)` is on the straight line from `p` to `q`. -/
def OnSeg (p q : Pt) (t y : Rat) : Prop := p.t ≤ t ∧ t ≤ q.t ∧ (y - p.v) * (q.t - p.t) = (q.v - p.v) * (t - p.t)

/-- The function that connects the points has the value `y` at `t`. -/
def Interp (pts : List Pt) (t y : Rat) : Prop := ∃ A p q B, pts = A ++ p :: q :: B ∧ OnSeg p q t y

/-- Who leaves at `t` (on any day) needs `y`: one point is a constant, several points are repeated every day. -/
def TravelTime (pts : List Pt) (t y : Rat) : Prop :=
  (∃ p, pts = [p] ∧ y = p.v) ∨ ∃ k : Int, 0 ≤ t - k * day ∧ t - k * day < day ∧ Interp pts (t - k * day) y

/-- Travel time functions: one point at time 0, or points from time 0 to the end of the day, in the order of time, with the same
value at both ends, never negative, and who leaves later does not arrive earlier. -/
def ValidTtf (pts : List Pt) : Prop :=
  (∃ v, pts = [⟨0, v⟩] ∧ 0 ≤ v) ∨
  ((∃ v rest, pts = ⟨0, v⟩ :: rest ++ [⟨day, v⟩]) ∧ (∀ p ∈ pts, 0 ≤ p.v) ∧
    ∀ A p q B, pts = A ++ p :: q :: B → p.t < q.t ∧ p.t + p.v ≤ q.t + q.v)

end Spec
end Verif
