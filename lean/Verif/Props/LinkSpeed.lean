import Verif.Proof.LinkSpeed
/-
C69: the speed estimation gives one estimate per link, in the order of the route.
-/
namespace Verif

open LinkSpeed

/-- A drive with its GPS positions: the links in the order in which they are used, each with the
positions measured on it.  No link is used twice; there are positions on the first and on the last link,
and two of them if that is the same link. -/
structure Drive {F32 : Type} (route : List (Link × List (Trace F32))) : Prop where
  some_link : route ≠ []
  positions : ∀ x ∈ route, ∀ t ∈ x.2, t.link = x.1.id
  once : (route.map (fun x => x.1.id)).Nodup
  first : ∀ x, route.head? = some x → x.2 ≠ []
  last : ∀ x, route.getLast? = some x → x.2 ≠ []
  two : ∀ x, route = [x] → 2 ≤ x.2.length

/-- For every drive, whatever the results of the floating point operations are, the estimation runs
through and gives exactly one estimate for each link, in the order of the drive, also for links without a position. -/
theorem C69_one_estimate_per_link {F32 F64 : Type} (F : Floats F32 F64) (route : List (Link × List (Trace F32)))
    (h : Drive route) :
    ∃ out, estimate F (route.map Prod.fst) (route.flatMap Prod.snd) = some (some out) ∧
      out.map Estimate.link = route.map (fun x => x.1.id) := by
  obtain ⟨out, h1, h2⟩ := run_route F route .init trivial (Or.inl rfl) (by simpa [pending] using h.once) h.positions
    (fun _ => h.first) (fun _ => h.two) (fun _ => h.some_link) h.last (fun h0 => absurd h0 h.some_link)
  refine ⟨out, ?_, by simpa [pending] using h2⟩
  have hlen := eventsOf_length route
  cases ht : route.flatMap Prod.snd with
  | nil => exact absurd ht (traces_ne_nil h.last h.some_link)
  | cons t traces =>
    have hc := collect_links route (route.length + (t :: traces).length + 2) t traces (by rw [hlen, ht]; omega) h.some_link ht.symm
      h.positions h.once h.last
    cases hr : route with
    | nil => exact absurd hr h.some_link
    | cons x rest =>
      rw [hr] at hc h1
      simp only [List.map_cons, List.head?_cons, List.tail_cons] at hc
      simp only [List.length_cons] at hc
      simp only [estimate, Events.new, List.map_cons, List.length_cons, List.length_map, hc, h1, Option.bind_eq_bind,
        Option.bind_some, Option.pure_def]

/-- Exactly the empty inputs are reported as errors. -/
theorem C69_errors {F32 F64 : Type} (F : Floats F32 F64) (links : List Link) (traces : List (Trace F32)) :
    estimate F links traces = some none ↔ links = [] ∨ traces = [] := by
  cases links with
  | nil => simp [estimate, Events.new]
  | cons l links =>
    cases traces with
    | nil => simp [estimate, Events.new]
    | cons t traces =>
      simp only [estimate, Events.new, reduceCtorEq, or_self, iff_false]
      cases Events.collect ((l :: links).length + (t :: traces).length + 2) ⟨links, traces, false, some l, t, false⟩ with
      | none => simp
      | some e => cases h : run F .init e <;> simp [h]

namespace LinkSpeedEx

/-- Floating point operations without information. -/
def F : Floats Unit Unit :=
  ⟨fun _ => (), fun _ => (), fun _ _ => (), fun _ => (), fun _ _ => (), fun _ _ => (), fun _ _ => (), fun _ _ => (),
   fun _ => 0, fun _ => 0, (), ()⟩

/-- Four links, the third one without a position. -/
def route : List (Link × List (Trace Unit)) :=
  [(⟨5, 100, 50⟩, [⟨10, 5, ()⟩]), (⟨6, 200, 50⟩, [⟨20, 6, ()⟩, ⟨25, 6, ()⟩]), (⟨7, 10, 30⟩, []), (⟨8, 50, 100⟩, [⟨40, 8, ()⟩])]

example : Drive route := ⟨by decide, by decide, by decide, by decide, by decide, by simp [route]⟩

end LinkSpeedEx

/-- Both conditions on the links are needed.  If a link is used again after a link without positions, or if
the last link has no position, links get no estimate and there is no error. -/
theorem C69_links_lost :
    (estimate LinkSpeedEx.F [⟨1, 10, 50⟩, ⟨2, 10, 50⟩, ⟨1, 10, 50⟩] [⟨10, 1, ()⟩, ⟨50, 1, ()⟩]).map (Option.map (List.map Estimate.link))
      = some (some [1]) ∧
    (estimate LinkSpeedEx.F [⟨1, 10, 50⟩, ⟨2, 10, 50⟩] [⟨10, 1, ()⟩, ⟨50, 1, ()⟩]).map (Option.map (List.map Estimate.link))
      = some (some [1]) := by
  decide

end Verif
