import Verif.Model.IntervalMin
import Verif.Spec.MinMaxBounds
import Verif.Spec.Graph
/- What the data of the interval potential means for roads with time-dependent travel times. -/
namespace Verif
namespace IntervalMin
open Spec MinMax

/-- The data fits the roads `F` (`F u v f`: whoever leaves `u` at `t` is at `v` at `f t`): the weights of upward arcs in the bucket of a
time of departure are lower bounds, and the bounds of the potential for the intervals hold at all times. -/
structure Fits (d : Data) (F : Nat → Nat → (Nat → Nat) → Prop) : Prop where
  periodic : ∀ u v f, F u v f → ∀ t, t ≤ f t ∧ f (t + PERIOD) = f t + PERIOD
  fifo : ∀ u v f, F u v f → ∀ t t', t ≤ t' → f t ≤ f t'
  weights : ∀ (u v e : Nat) ls, arcs d.fwFirst d.fwHead u = some ls → (v, e) ∈ ls →
    ∃ f, F u v f ∧ ∀ t w, bucketWeight d d.fwWeights d.fwHead.length (bucket d t) e = some w → t + w ≤ f t
  fw : ∀ u v b, BArc d.mmFw u v b → Means (fun x y t a => TWalk F x t y a) 0 u v b
  bw : ∀ u v b, BArc d.mmBw u v b → Means (fun x y t a => TWalk F x t y a) 0 v u b

end IntervalMin
end Verif
