/- Specification of potentials as objects with a history of calls. -/
namespace Verif.Spec

/-- a call to a potential: set the target, or ask for a node -/
inductive PotCall where
  | init (t : Nat)
  | get (v : Nat)
deriving DecidableEq

/-- the node mentioned by a call -/
def PotCall.node : PotCall → Nat
  | .init t => t
  | .get v => v

/-- the questions asked in a history, each with the target that was set last; `t` is the target at the beginning -/
def asked : Nat → List PotCall → List (Nat × Nat)
  | _, [] => []
  | _, .init t :: cs => asked t cs
  | t, .get v :: cs => (t, v) :: asked t cs

/-- a history without the calls that set the target already set -/
def withoutRepeats : Nat → List PotCall → List PotCall
  | _, [] => []
  | t, .init t' :: cs => if t' = t then withoutRepeats t cs else .init t' :: withoutRepeats t' cs
  | t, .get v :: cs => .get v :: withoutRepeats t cs

end Verif.Spec
