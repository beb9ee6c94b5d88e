/- Specification of travel time functions: what a valid one is, and what its value at a point in time is. -/
namespace Verif.Spec

/-- one day in milliseconds -/
def PERIOD : Nat := 86400000

/-- A valid periodic travel time function with break points `(dt[i], tt[i])`: the first break point is at 0 and the last one at the
end of the period with the same value (or there is only one break point), departures increase and arrivals do not decrease. -/
structure ValidPlf (dt tt : List Nat) : Prop where
  len : dt.length = tt.length
  zero : dt[0]? = some 0
  last : tt.getLast? = tt[0]?
  period : dt.length = 1 ∨ dt.getLast? = some PERIOD
  mono : dt.Pairwise (· < ·)
  fifo : ∀ (i x y a b : Nat), dt[i]? = some x → dt[i + 1]? = some y → tt[i]? = some a → tt[i + 1]? = some b → x + a ≤ y + b
  /-- arrivals are finite -/
  small : ∀ (i x a : Nat), dt[i]? = some x → tt[i]? = some a → x + a < 2147483647

/-- `v` is the linear interpolation at `t`, rounded down, between the break points `(x, a)` and `(y, b)`, `x ≤ t ≤ y`: the arrival
`t + v` is at most the exact arrival `x + a + (t - x) * (y + b - x - a) / (y - x)`, and less than one unit below it. -/
def Interpolates (x a y b t v : Nat) : Prop :=
  (t + v) * (y - x) ≤ (x + a) * (y - x) + (t - x) * ((y + b) - (x + a)) ∧
  (x + a) * (y - x) + (t - x) * ((y + b) - (x + a)) < (t + v + 1) * (y - x)

/-- `v` is the value of the function at `t`, a time within the period. -/
def PlfValue (dt tt : List Nat) (t v : Nat) : Prop :=
  (dt.length = 1 ∧ tt[0]? = some v) ∨
  (∃ (i x y a b : Nat), dt[i]? = some x ∧ dt[i + 1]? = some y ∧ tt[i]? = some a ∧ tt[i + 1]? = some b ∧ x ≤ t ∧ t ≤ y ∧ Interpolates x a y b t v)

/-- leaving later never means arriving earlier -/
def Fifo (f : Nat → Nat) : Prop := ∀ t t', t ≤ t' → t + f t ≤ t' + f t'

end Verif.Spec
