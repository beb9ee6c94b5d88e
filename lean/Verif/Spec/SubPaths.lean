import Verif.Spec.Graph
import Verif.Spec.Sequences
/- Vocabulary for the search for subpaths that are much longer than necessary. -/
namespace Verif.Spec

/-- The part of a path from position `r.start` to position `r.stop`, both included. -/
def subPath (p : List Nat) (r : Rng) : List Nat := (p.drop r.start).take (r.stop - r.start + 1)

/-- The length of a node sequence, taking the cheapest of parallel arcs. -/
def CheapestLen (A : Nat → Nat → Nat → Prop) (p : List Nat) (len : Nat) : Prop := PathOf A p len ∧ ∀ len', PathOf A p len' → len ≤ len'

/-- The subpath is longer than the distance `d` of its ends by more than `thr d`. -/
def TooLong (A : Nat → Nat → Nat → Prop) (thr : Nat → Nat) (p : List Nat) (r : Rng) : Prop :=
  r.start < r.stop ∧ ∃ s t len d, p[r.start]? = some s ∧ p[r.stop]? = some t ∧ CheapestLen A (subPath p r) len ∧ IsDist A s t d ∧ d + thr d < len

/-- too long, and no part of it is -/
def MinimalTooLong (A : Nat → Nat → Nat → Prop) (thr : Nat → Nat) (p : List Nat) (r : Rng) : Prop :=
  TooLong A thr p r ∧ ∀ r', TooLong A thr p r' → r.Contains r' → r' = r

/-- The subpath comes back to its first node, for the first time. -/
def Loop (p : List Nat) (r : Rng) : Prop :=
  r.start < r.stop ∧ ∃ v, p[r.start]? = some v ∧ p[r.stop]? = some v ∧ ∀ i, r.start < i → i < r.stop → p[i]? ≠ some v

/-- What `find_ubs_violating_subpaths` has to answer: the minimal subpaths that are too long, or the loops if nodes repeat. -/
def UbsAnswer (A : Nat → Nat → Nat → Prop) (thr : Nat → Nat) (p : List Nat) (out : List Rng) : Prop :=
  (p.Nodup → (∀ r, r ∈ out ↔ MinimalTooLong A thr p r) ∧ out.Pairwise (fun a b => a.start < b.start ∧ a.stop < b.stop)) ∧
  (¬ p.Nodup → (∀ r, r ∈ out ↔ Loop p r) ∧ out.Pairwise (fun a b => a.stop < b.stop))

end Verif.Spec
