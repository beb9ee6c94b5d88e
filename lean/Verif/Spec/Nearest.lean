import Verif.Spec.Graph
/- Specification of nearest neighbour queries. -/
namespace Verif.Spec

/-- `l` is a list of `k` nearest targets (or of all, if there are less): pairs of a distance and a target. `D v d` means that `v` can be
reached and is at distance `d`, `T v` that `v` is a target. -/
structure KNearest (D : Nat → Nat → Prop) (T : Nat → Prop) (k : Nat) (l : List (Nat × Nat)) : Prop where
  distinct : (l.map Prod.snd).Nodup
  exact : ∀ p ∈ l, T p.2 ∧ D p.2 p.1
  size : l.length ≤ k
  all : l.length < k → ∀ v d, T v → D v d → v ∈ l.map Prod.snd
  nearest : ∀ p ∈ l, ∀ v d, T v → D v d → v ∉ l.map Prod.snd → p.1 ≤ d

/-- `v` is at distance `d` from `s`, less than `INFINITY`. -/
def DistFrom (A : Nat → Nat → Nat → Prop) (s v d : Nat) : Prop := IsDist A s v d ∧ d < INFINITY

/-- a call on an object for nearest neighbour queries -/
inductive NNCall where
  | select (targets : List Nat)
  | query (source k : Nat)

/-- the queries in a history, each with the targets selected last (`ts` at the beginning) -/
def nnAsked : List Nat → List NNCall → List (List Nat × Nat × Nat)
  | _, [] => []
  | _, .select ts :: cs => nnAsked ts cs
  | ts, .query s k :: cs => (ts, s, k) :: nnAsked ts cs

/-- all ids in a call are below `n`, and at least one target is asked for -/
def NNCall.valid (n : Nat) : NNCall → Prop
  | .select ts => ∀ t ∈ ts, t < n
  | .query s k => s < n ∧ 1 ≤ k

end Verif.Spec
