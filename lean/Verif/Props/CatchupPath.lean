import Verif.Proof.CatchupParents
import Verif.Props.Ftd
/- C77: the paths of CATCHUp. -/
namespace Verif
open Spec Fl Catchup Ftd

/-- The path of CATCHUp without lazy relaxation: after any earlier queries on the same server, retrieving the path ends without a panic, and the path is one
that can be driven: from the source at the departure, over roads, with the arrivals it states, to the target at the earliest arrival, which is also what the
query has returned. `R` and `G` as in `C75_exact_partial`; in addition the arcs can be unpacked and leaving them later is not faster (`C77_customized_partial`:
the customization establishes this). Partial: exact arithmetic; the default configuration (lazy) is refuted by `C77_lazy_panics`. -/
theorem C77_path_partial {G : Graph} {R : Network} {heads : List Nat} {depth : Nat} {eps : Rat} (hR : NoOvertaking R) (hG : BoundsOK G R) (hE : EvalOK G R depth)
    (hF : ArcsFifo G depth) (hU : UnpackOK G R heads depth)
    (hS : Serves (G.net depth true) (G.net depth false) R INF) (he : 0 < eps) {S : Server} (hu : Used G eps S) {s t : Nat} (hs : s < G.n) (ht : t < G.n)
    {dep : Rat} (hd : 0 ≤ dep) (hI : dep < INF) {fuel : Nat} (hf : enough G ≤ fuel) :
    ∃ d S', distance false eps G depth fuel S s t dep = some (d, S') ∧ ∀ Y, EarliestTrip R s dep t Y → Y + eps < INF →
      d = some (Y - dep) ∧ ∃ k P, (∀ rounds, k ≤ rounds → path G depth heads S' rounds = some P) ∧ Itinerary R s dep P t Y := by
  obtain ⟨h1, h2⟩ := used_left hR hG (le_of_lt he) hu
  obtain ⟨d, S', g1, g2, g3⟩ := distance_spec hR hG hE he hs ht hd hI h1 h2 hf
  refine ⟨d, S', g1, ?_⟩
  intro Y hY hYI
  have hdY := g3 Y hS hY hYI
  obtain ⟨p1, p2, p3, p4, p5⟩ := distance_par hR hG hE hF he hs ht hd hI h1 h2 g1
  have hdt := p4 _ hdY
  obtain ⟨k, P, z, k1, k2, k3⟩ := pathLoop_ok (Y := Y) (t := t) hG hU (p5 Y hY hYI hdY) (tail := []) (fun a ha => ⟨a, by linarith, .last _ _⟩)
  refine ⟨hdY, k, P, ?_, ?_⟩
  · intro rounds hr
    simp only [path, p1, p2, Option.bind_eq_bind, Option.bind_some]
    exact k1 rounds hr
  · rw [p3] at k3
    obtain ⟨z', e1, e2⟩ := k3.trip hR
    have hz : z = Y := by have := hY.2 z' e2; linarith
    rw [← hz]; exact k3

/-- The same after the main customization: whatever the travel time functions of the roads, if there is a way, the path has the earliest arrival. -/
theorem C77_customized_partial {c : Cfg} (hbs : SearchBy c.bs) (htl : c.tl = Tol.exact) (hsrt : ∀ k l, (c.srt k l).Perm l) {arcs : List (Nat × Nat)} {n : Nat}
    {parent : Nat → Option Nat} (hT : HierarchyOK arcs n parent) {roads : List (Nat × Nat × (Rat → Rat))} {fwd bwd : List (List Nat)} (hr : RoadsOK roads c.ttf arcs fwd bwd) (hpre : PreReady c.pre c.ttf arcs fwd bwd) :
    ∃ G, customize c arcs n parent fwd bwd = some G ∧ ∀ {eps : Rat}, 0 < eps → ∀ {S : Server}, Used G eps S → ∀ {s t : Nat}, s < n → t < n → ∀ {dep : Rat}, 0 ≤ dep → dep < INF →
      ∀ {fuel : Nat}, enough G ≤ fuel →
      ∃ d S', distance false eps G n fuel S s t dep = some (d, S') ∧
        ((∃ y, Trip (roadNet roads) s dep t y) → ∃ Y, EarliestTrip (roadNet roads) s dep t Y ∧ (Y + eps < INF →
          d = some (Y - dep) ∧ ∃ k P, (∀ rounds, k ≤ rounds → path G n (roads.map (fun r => r.2.1)) S' rounds = some P) ∧ Itinerary (roadNet roads) s dep P t Y)) := by
  obtain ⟨G, h1, h2, h3, h4, h5, h6, h7⟩ := customize_ok hbs htl hsrt hT hr hpre
  refine ⟨G, h1, ?_⟩
  intro eps he S hu s t hs ht dep hd hI fuel hf
  have hR := no_overtaking hr
  have hS : Serves (G.net n true) (G.net n false) (roadNet roads) INF := by
    refine serves_roads hR h5 ?_ ?_
    · rintro u v τ y ⟨id, a, g1, rfl, rfl, x, g2, rfl⟩
      obtain ⟨v, g3, _, g4⟩ := h4 true id a g1 τ
      rw [g2] at g3; injection g3 with g3; subst g3; exact g4
    · rintro u v τ y ⟨id, a, g1, rfl, rfl, x, g2, rfl⟩
      obtain ⟨v, g3, _, g4⟩ := h4 false id a g1 τ
      rw [g2] at g3; injection g3 with g3; subst g3; exact g4
  obtain ⟨d, S', g1, g2⟩ := C77_path_partial hR h3 h4 h6 h7 hS he hu (by rw [h2]; exact hs) (by rw [h2]; exact ht) hd hI hf
  refine ⟨d, S', g1, ?_⟩
  intro hw
  obtain ⟨Y, hY⟩ := earliest_exists hR s dep t hw
  exact ⟨Y, hY, g2 Y hY⟩

namespace FtdExample

/-- the theorem is about something -/
example : ∃ G, customize cfg arcs 3 parent fwd bwd = some G ∧ ∀ {eps : Rat}, 0 < eps → ∀ {S : Server}, Used G eps S → ∀ {s t : Nat}, s < 3 → t < 3 → ∀ {dep : Rat}, 0 ≤ dep → dep < INF →
      ∀ {fuel : Nat}, enough G ≤ fuel →
      ∃ d S', distance false eps G 3 fuel S s t dep = some (d, S') ∧
        ((∃ y, Trip (roadNet roads) s dep t y) → ∃ Y, EarliestTrip (roadNet roads) s dep t Y ∧ (Y + eps < INF →
          d = some (Y - dep) ∧ ∃ k P, (∀ rounds, k ≤ rounds → path G 3 (roads.map (fun r => r.2.1)) S' rounds = some P) ∧ Itinerary (roadNet roads) s dep P t Y)) :=
  C77_customized_partial FlPlfExample.linear_ok rfl (fun _ _ => List.Perm.refl _) hierarchy_ok roads_ok (fun h => (nomatch h))

/-- at midnight the way over 0 is faster, at 1000 the road from 1 to 2 -/
def pathAt (dep : Rat) : Option (List (Nat × Rat)) := do
  let G ← customize cfg arcs 3 parent fwd bwd
  let r ← distance false (1/1000) G 3 100 .new 1 2 dep
  path G 3 [0, 2, 2] r.2 5

example : pathAt 0 = some [(1, 0), (0, 2), (2, 12)] := by decide +kernel
example : pathAt 1000 = some [(1, 1000), (2, 1005)] := by decide +kernel

end FtdExample

/-- With lazy relaxation, as in the default configuration, retrieving the path can panic: in the network of `C75_lazy_wrong` the query returns 221.500001
seconds without having set a parent of the target. On a new server its parent is then the node 4294967295, whose distance is looked up. -/
theorem C77_lazy_panics : ∃ S', distance true (1/1000000) CatchupLazy.W 5 30 .new 2 5 1005 = some (some (221500001/1000000), S') ∧
    ∀ heads rounds, path CatchupLazy.W 5 heads S' rounds = none := by
  have h : (distance true (1/1000000) CatchupLazy.W 5 30 .new 2 5 1005).map (fun r => (r.1, r.2.fo, r.2.bo, r.2.par 5)) =
      some (some (221500001/1000000), some 2, some 5, (4294967295, 4294967295)) := by decide +kernel
  rw [Option.map_eq_some_iff] at h
  obtain ⟨⟨d, S'⟩, h1, h2⟩ := h
  simp only [Prod.mk.injEq] at h2
  obtain ⟨e1, e2, e3, e4⟩ := h2
  refine ⟨S', by rw [h1, e1], ?_⟩
  intro heads rounds
  simp only [path, e2, e3, Option.bind_eq_bind, Option.bind_some]
  cases rounds with
  | zero => rfl
  | succ r =>
    have hp : (S'.par 5).1 = 4294967295 := by rw [e4]
    rw [pathLoop]
    simp [hp, CatchupLazy.W]

end Verif
