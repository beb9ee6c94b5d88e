import Verif.Spec.TravelTime
/- Travel times on a road with a live report. -/
namespace Verif
namespace Spec

/-- `F` is the travel time on a road for which at `now` it is reported that it takes `live` until `until_`; the usual travel time is `usual`. Until then the road takes `live`. After that
there is a time `w` at which the usual travel time is back for good. If the report was faster than usual, drivers are faster than usual until `w`, and the travel time grows by a second
per second. If it was slower, the travel time shrinks by a second per second: all who leave from the end of the report until `w` arrive together. Before `w` the two differ, so `w` is the
first time at which they meet. -/
structure LiveTravelTime (usual : Rat → Rat) (now until_ live : Rat) (F : Rat → Rat) : Prop where
  /-- what is reported -/
  reported : ∀ t, now ≤ t → t ≤ until_ → F t = live
  /-- and then -/
  back : ∃ w, until_ ≤ w ∧ (∀ t, w ≤ t → F t = usual t) ∧
    (usual until_ ≤ live → ∀ t, until_ ≤ t → (t ≤ w → F t = live - (t - until_)) ∧ (t < w → usual t < F t)) ∧
    (live ≤ usual until_ → ∀ t, until_ ≤ t → (t ≤ w → F t = live + (t - until_)) ∧ (t < w → F t < usual t))

/-- When one arrives who leaves at `t` and drives along `es`; `F e t` is the travel time on `e` for who starts there at `t`. -/
def arrival (F : Nat → Rat → Rat) : List Nat → Rat → Rat
  | [], t => t
  | e :: es, t => arrival F es (t + F e t)

end Spec
end Verif
