import Verif.Spec.Graph
/- Specification of one to many queries on an object with a selected set of targets. -/
namespace Verif.Spec

/-- a call: select targets, or ask for the distances from a source to some targets -/
inductive ManyCall where
  | select (targets : List Nat)
  | query (source : Nat) (targets : List Nat)

/-- the single questions in a history -/
def manyAsked : List ManyCall → List (List (Nat × Nat))
  | [] => []
  | .select _ :: cs => manyAsked cs
  | .query s ts :: cs => ts.map (fun t => (s, t)) :: manyAsked cs

/-- all ids are below `n`, and only distances to selected targets are asked for (`sel` are the targets selected at the beginning) -/
def manyValid (n : Nat) : List Nat → List ManyCall → Prop
  | _, [] => True
  | _, .select ts :: cs => (∀ t ∈ ts, t < n) ∧ manyValid n ts cs
  | sel, .query s ts :: cs => s < n ∧ (∀ t ∈ ts, t ∈ sel) ∧ manyValid n sel cs

end Verif.Spec
