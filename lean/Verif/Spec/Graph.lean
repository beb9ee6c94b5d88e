import Verif.Model.Base
/-
Specification of shortest paths. A graph is given by its arc relation: `A u v w` means "there is an arc from `u` to
`v` of weight `w`". Nothing here refers to the data structures of the code (only the constant `INFINITY`).
-/
namespace Verif.Spec

/-- `Walk A s t d`: there is a walk from `s` to `t` of total weight `d`. -/
inductive Walk (A : Nat → Nat → Nat → Prop) : Nat → Nat → Nat → Prop
  | nil (u : Nat) : Walk A u u 0
  | cons {u v t w d : Nat} : A u v w → Walk A v t d → Walk A u t (w + d)

/-- `d` is the shortest distance from `s` to `t`. -/
def IsDist (A : Nat → Nat → Nat → Prop) (s t d : Nat) : Prop :=
  Walk A s t d ∧ ∀ d', Walk A s t d' → d ≤ d'

/-- `PathOf A p d`: the node sequence `p` follows arcs of total weight `d`. -/
inductive PathOf (A : Nat → Nat → Nat → Prop) : List Nat → Nat → Prop
  | single (u : Nat) : PathOf A [u] 0
  | cons {u v w d : Nat} {p : List Nat} : A u v w → PathOf A (v :: p) d → PathOf A (u :: v :: p) (w + d)

/-- A walk given by edge ids, over the three arrays of a graph: the outgoing arcs of node `u` have the ids
`firstOut[u]..firstOut[u+1]`. -/
inductive EdgeWalk (firstOut head weight : List Nat) : Nat → List Nat → Nat → Nat → Prop
  | nil (u : Nat) : EdgeWalk firstOut head weight u [] u 0
  | cons {u a b e v w t d : Nat} {es : List Nat} : firstOut[u]? = some a → firstOut[u + 1]? = some b → a ≤ e → e < b →
      head[e]? = some v → weight[e]? = some w → EdgeWalk firstOut head weight v es t d →
      EdgeWalk firstOut head weight u (e :: es) t (w + d)

/-- The answer a shortest path query has to give: `some d` exactly for the shortest distance, provided it is less than
`INFINITY`; `none` otherwise. -/
def Answer (A : Nat → Nat → Nat → Prop) (s t : Nat) (r : Option Nat) : Prop :=
  ∀ d, r = some d ↔ IsDist A s t d ∧ d < INFINITY

/-- `x` is the distance from `s` to `v`, or `INFINITY` if there is none below. -/
def CappedDist (A : Nat → Nat → Nat → Prop) (s v x : Nat) : Prop :=
  x ≤ INFINITY ∧ Answer A s v (if x < INFINITY then some x else none)

/-- The answer to a query with a cap: a reported value is the length of a walk, and the shortest distance is reported
if it is below the cap. -/
def CapAnswer (A : Nat → Nat → Nat → Prop) (s t cap : Nat) (r : Option Nat) : Prop :=
  (∀ d, r = some d → Walk A s t d ∧ d < INFINITY) ∧ (∀ d, IsDist A s t d → d < INFINITY → d < cap → r = some d)

/-- Time-dependent walks: `F u v f` is an arc with arrival function `f` (departure ↦ arrival).
`TWalk F s τ v a`: departing at `s` at time `τ`, one can be at `v` at time `a`. -/
inductive TWalk (F : Nat → Nat → (Nat → Nat) → Prop) (s τ : Nat) : Nat → Nat → Prop
  | nil : TWalk F s τ s τ
  | snoc {u v a : Nat} {f : Nat → Nat} : TWalk F s τ u a → F u v f → TWalk F s τ v (f a)

/-- Earliest arrival. -/
def IsEarliest (F : Nat → Nat → (Nat → Nat) → Prop) (s τ t a : Nat) : Prop :=
  TWalk F s τ t a ∧ ∀ a', TWalk F s τ t a' → a ≤ a'

theorem TWalk.cons {F : Nat → Nat → (Nat → Nat) → Prop} {u a v t x : Nat} {f : Nat → Nat} (h1 : F u v f)
    (h2 : TWalk F v (f a) t x) : TWalk F u a t x := by
  induction h2 with
  | nil => exact .snoc .nil h1
  | snoc _ h ih => exact .snoc ih h

theorem TWalk.append {F : Nat → Nat → (Nat → Nat) → Prop} {u a v b t x : Nat} (h1 : TWalk F u a v b)
    (h2 : TWalk F v b t x) : TWalk F u a t x := by
  induction h2 with
  | nil => exact h1
  | snoc _ h ih => exact .snoc ih h

theorem Walk.append {A : Nat → Nat → Nat → Prop} {u v t d e : Nat} (h1 : Walk A u v d) (h2 : Walk A v t e) :
    Walk A u t (d + e) := by
  induction h1 with
  | nil => simpa using h2
  | cons ha _ ih => rw [Nat.add_assoc]; exact .cons ha (ih h2)

theorem Walk.snoc {A : Nat → Nat → Nat → Prop} {s u v d w : Nat} (h1 : Walk A s u d) (h2 : A u v w) :
    Walk A s v (d + w) := by
  have := h1.append (.cons h2 (.nil v))
  simpa using this

theorem PathOf.walk {A : Nat → Nat → Nat → Prop} {p : List Nat} {d : Nat} (h : PathOf A p d) :
    ∃ s t, p.head? = some s ∧ p.getLast? = some t ∧ Walk A s t d := by
  induction h with
  | single u => exact ⟨u, u, rfl, rfl, .nil u⟩
  | cons ha _ ih =>
    obtain ⟨s, t, h1, h2, h3⟩ := ih
    simp at h1; subst h1
    exact ⟨_, t, rfl, by simpa using h2, .cons ha h3⟩

theorem IsDist.unique {A : Nat → Nat → Nat → Prop} {s t d d' : Nat} (h : IsDist A s t d) (h' : IsDist A s t d') : d = d' :=
  Nat.le_antisymm (h.2 _ h'.1) (h'.2 _ h.1)

/-- The answer is unique. -/
theorem Answer.unique {A : Nat → Nat → Nat → Prop} {s t : Nat} {r r' : Option Nat} (h : Answer A s t r) (h' : Answer A s t r') :
    r = r' := by
  apply Option.ext; intro d; rw [h, h']

/-- A walk of length `d` gives a shortest distance. -/
theorem exists_isDist {A : Nat → Nat → Nat → Prop} {s t d : Nat} (h : Walk A s t d) : ∃ d', d' ≤ d ∧ IsDist A s t d' := by
  induction d using Nat.strongRecOn with
  | ind d ih =>
    by_cases hex : ∃ d', d' < d ∧ Walk A s t d'
    · obtain ⟨d', hlt, hw⟩ := hex
      obtain ⟨e, he, hd⟩ := ih d' hlt hw
      exact ⟨e, by omega, hd⟩
    · refine ⟨d, Nat.le_refl _, h, ?_⟩
      intro d' hw
      apply Classical.byContradiction
      intro hn
      exact hex ⟨d', by omega, hw⟩

/-- `none` means that there is no walk shorter than `INFINITY`. -/
theorem Answer.none_iff {A : Nat → Nat → Nat → Prop} {s t : Nat} {r : Option Nat} (h : Answer A s t r) :
    r = none ↔ ∀ d, Walk A s t d → INFINITY ≤ d := by
  constructor
  · intro hr d hd
    apply Classical.byContradiction
    intro hn
    obtain ⟨d', hle, hd'⟩ := exists_isDist hd
    have := (h d').2 ⟨hd', by omega⟩
    rw [hr] at this; simp at this
  · intro hall
    cases r with
    | none => rfl
    | some d =>
      obtain ⟨h1, h2⟩ := (h d).1 rfl
      have := hall d h1.1
      omega

end Verif.Spec
