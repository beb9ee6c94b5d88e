import Verif.Spec.SubPaths
/- Vocabulary for the repair of paths. -/
namespace Verif.Spec

/-- The path visits no node twice and no part of it is too long. -/
def NoViolation (A : Nat → Nat → Nat → Prop) (thr : Nat → Nat) (p : List Nat) : Prop := p.Nodup ∧ ∀ r, ¬ TooLong A thr p r

/-- `q` leads from the first to the last node of `p` and is shorter. -/
def ShorterPath (A : Nat → Nat → Nat → Prop) (p q : List Nat) : Prop :=
  q.head? = p.head? ∧ q.getLast? = p.getLast? ∧ ∃ a b, CheapestLen A p a ∧ CheapestLen A q b ∧ b < a

end Verif.Spec

namespace Verif.Spec

/-- `len` is the length of the subpath and `d` the distance of its ends. -/
def SubLen (A : Nat → Nat → Nat → Prop) (p : List Nat) (r : Rng) (len d : Nat) : Prop :=
  r.start < r.stop ∧ ∃ s t, p[r.start]? = some s ∧ p[r.stop]? = some t ∧ CheapestLen A (subPath p r) len ∧ IsDist A s t d

/-- `lo` is the length of the shortest subpath that is not a shortest path, or `base`, the length of the whole path, if there is none. -/
def LocalOptimality (A : Nat → Nat → Nat → Prop) (p : List Nat) (base lo : Nat) : Prop :=
  (p = [] ∧ base = 0 ∨ CheapestLen A p base) ∧
  (lo = base ∨ ∃ r d, SubLen A p r lo d ∧ d < lo) ∧ lo ≤ base ∧ ∀ r len d, SubLen A p r len d → d < len → lo ≤ len

/-- `num / den` is the largest value of `(len - d) / d` over all subpaths (`len` is the length, `d` the distance), 0 if there is none. -/
def MaxDetour (A : Nat → Nat → Nat → Prop) (p : List Nat) (num den : Nat) : Prop :=
  0 < den ∧ (num = 0 ∨ ∃ r len, SubLen A p r len den ∧ len = den + num) ∧ ∀ r len d, SubLen A p r len d → 0 < d ∧ (len - d) * den ≤ num * d

end Verif.Spec
