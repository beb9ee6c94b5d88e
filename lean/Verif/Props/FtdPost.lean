import Verif.Proof.FtdPost
import Verif.Props.FtdPre
import Verif.Props.CatchupPath
/- C82: the post-customization of CATCHUp. -/
namespace Verif
open Spec Fl Catchup Ftd

/-- The customization with post-customization, with or without pre-customization, does not panic, and the hierarchy it makes is one for which `C75_triangles_partial` holds: the shortcuts that
are kept have valid bounds, they can all be evaluated with the shortcuts that are kept and take as long as a trip, and the shortcuts that are switched off are needed by no fastest way. Partial: as
`C76_hierarchy_partial`, and only if it never happens on a road that a car that leaves later arrives at the same time. -/
theorem C82_hierarchy_partial {c : Cfg} (hbs : SearchBy c.bs) (htl : c.tl = Tol.exact) (hsrt : ∀ k l, (c.srt k l).Perm l) {arcs : List (Nat × Nat)} {n : Nat}
    {parent : Nat → Option Nat} (hT : HierarchyOK arcs n parent) {roads : List (Nat × Nat × (Rat → Rat))} {fwd bwd : List (List Nat)} (hr : RoadsOK roads c.ttf arcs fwd bwd)
    (hpre : PreReady c.pre c.ttf arcs fwd bwd) (hlater : LaterIsLater roads) :
    ∃ G, customizePost c arcs n parent fwd bwd = some G ∧ G.n = n ∧ BoundsOK G (roadNet roads) ∧ EvalOK G (roadNet roads) n ∧
      Triangulated (G.net n true) (G.net n false) (roadNet roads) INF := by
  obtain ⟨G, h1, h2, h3, h4, h5, _⟩ := customizePost_ok hbs htl hsrt hT hr hpre hlater
  exact ⟨G, h1, h2, h3, h4, h5⟩

/-- Customization with post-customization and queries together: after any earlier queries, CATCHUp (without lazy relaxation) returns nothing if there is no way, otherwise the earliest arrival, and
a path that can be driven to arrive then. -/
theorem C82_exact_partial {c : Cfg} (hbs : SearchBy c.bs) (htl : c.tl = Tol.exact) (hsrt : ∀ k l, (c.srt k l).Perm l) {arcs : List (Nat × Nat)} {n : Nat}
    {parent : Nat → Option Nat} (hT : HierarchyOK arcs n parent) {roads : List (Nat × Nat × (Rat → Rat))} {fwd bwd : List (List Nat)} (hr : RoadsOK roads c.ttf arcs fwd bwd)
    (hpre : PreReady c.pre c.ttf arcs fwd bwd) (hlater : LaterIsLater roads) :
    ∃ G, customizePost c arcs n parent fwd bwd = some G ∧ ∀ {eps : Rat}, 0 < eps → ∀ {S : Server}, Used G eps S → ∀ {s t : Nat}, s < n → t < n → ∀ {dep : Rat}, 0 ≤ dep → dep < INF →
      ∀ {fuel : Nat}, enough G ≤ fuel →
      ∃ d S', distance false eps G n fuel S s t dep = some (d, S') ∧ ((¬ ∃ y, Trip (roadNet roads) s dep t y) → d = none) ∧
        ((∃ y, Trip (roadNet roads) s dep t y) → ∃ Y, EarliestTrip (roadNet roads) s dep t Y ∧ (Y + eps < INF →
          d = some (Y - dep) ∧ ∃ k P, (∀ rounds, k ≤ rounds → path G n (roads.map (fun r => r.2.1)) S' rounds = some P) ∧ Itinerary (roadNet roads) s dep P t Y)) := by
  obtain ⟨G, h1, h2, h3, h4, h5, h6, h7⟩ := customizePost_ok hbs htl hsrt hT hr hpre hlater
  refine ⟨G, h1, ?_⟩
  intro eps he S hu s t hs ht dep hd hI fuel hf
  have hR := no_overtaking hr
  have hS : Serves (G.net n true) (G.net n false) (roadNet roads) INF := by
    refine serves_roads hR h5 ?_ ?_
    · rintro u v τ y ⟨id, a, g1, rfl, rfl, x, g2, rfl⟩
      obtain ⟨v, g3, _, g4⟩ := h4 true id a g1 τ
      rw [g2] at g3; injection g3 with g3; subst g3; exact g4
    · rintro u v τ y ⟨id, a, g1, rfl, rfl, x, g2, rfl⟩
      obtain ⟨v, g3, _, g4⟩ := h4 false id a g1 τ
      rw [g2] at g3; injection g3 with g3; subst g3; exact g4
  obtain ⟨d, S', g1, g2⟩ := C77_path_partial hR h3 h4 h6 h7 hS he hu (by rw [h2]; exact hs) (by rw [h2]; exact ht) hd hI hf
  obtain ⟨d', S'', f1, f2, _⟩ := C75_triangles_partial hR h3 h4 h5 he hu (s := s) (t := t) (by rw [h2]; exact hs) (by rw [h2]; exact ht) hd hI hf
  rw [g1] at f1; injection f1 with f1; injection f1 with f1 f1'
  subst f1
  refine ⟨d, S', g1, f2, ?_⟩
  intro hw
  obtain ⟨Y, hY⟩ := earliest_exists hR s dep t hw
  exact ⟨Y, hY, g2 Y hY⟩

/-- If even twice the travel times are such that who leaves later does not arrive earlier, who leaves later arrives later. -/
theorem Ftd.later_of_double {p : List Pt} (hv : ValidTtf p) (hd : ValidTtf (p.map (fun q => ⟨q.t, 2 * q.v⟩))) {τ τ' : Rat} (h : τ < τ') : τ + fn p τ < τ' + fn p τ' := by
  have key : ∀ t, fn (p.map (fun q => ⟨q.t, 2 * q.v⟩)) t = 2 * fn p t := by
    intro t
    refine ((fn_iff hd).1 ?_).symm
    rcases (fn_iff hv (t := t)).2 rfl with ⟨q, q1, q2⟩ | ⟨k, k1, k2, A, q, q', B, k3, k4, k5, k6⟩
    · left
      refine ⟨⟨q.t, 2 * q.v⟩, ?_, ?_⟩
      · rw [congrArg (List.map _) q1]; rfl
      · simp only; rw [q2]
    · right
      refine ⟨k, k1, k2, A.map (fun q => ⟨q.t, 2 * q.v⟩), ⟨q.t, 2 * q.v⟩, ⟨q'.t, 2 * q'.v⟩, B.map (fun q => ⟨q.t, 2 * q.v⟩), ?_, k4, k5, ?_⟩
      · rw [congrArg (List.map _) k3, List.map_append, List.map_cons, List.map_cons]
      · simp only
        linear_combination 2 * k6
  have := fn_fifo hd (le_of_lt h)
  rw [key, key] at this
  linarith

namespace FtdPostExample
open FlPlfExample

theorem later : LaterIsLater FtdPreExample.roads := by
  intro r hr τ τ' hlt
  obtain ⟨e, he⟩ := List.mem_iff_getElem?.1 hr
  obtain ⟨p, q1, q2, q3⟩ := roads_fn FtdPreExample.roads_ok e r he
  rw [q3, q3]
  refine later_of_double q2 ?_ hlt
  have hm : p ∈ FtdPreExample.functions := List.mem_of_getElem? q1
  simp only [FtdPreExample.functions, List.mem_cons, List.not_mem_nil, or_false] at hm
  rcases hm with rfl | rfl | rfl <;> exact valid_ok (by decide +kernel)

example := C82_hierarchy_partial linear_ok rfl (fun _ _ => .refl _) FtdExample.hierarchy_ok FtdPreExample.roads_ok FtdPreExample.pre_ready later
example := C82_exact_partial linear_ok rfl (fun _ _ => .refl _) FtdExample.hierarchy_ok FtdPreExample.roads_ok FtdPreExample.pre_ready later

/-! Four nodes: from 1 to 3 there is a road that is slow at midnight and a way over 0 that is slow at noon. One never needs more than 14, but only the main customization
finds out. Then the road from 1 to 2, which takes 30, is useless: the way over 3 takes at most 29. -/

def functions : List (List Pt) := [[⟨0, 2⟩], [⟨0, 5⟩, ⟨40000, 20⟩, ⟨86400, 5⟩], [⟨0, 30⟩], [⟨0, 20⟩, ⟨40000, 5⟩, ⟨86400, 20⟩], [⟨0, 15⟩]]
def arcs : List (Nat × Nat) := [(0, 1), (0, 3), (1, 2), (1, 3), (2, 3)]
def parent (v : Nat) : Option Nat := if v < 3 then some (v + 1) else none
def fwd : List (List Nat) := [[], [1], [2], [3], []]
def bwd : List (List Nat) := [[0], [], [], [], [4]]
def cfg : Cfg := ⟨linear, true, Tol.exact, true, fun e => functions[e]?, fun _ l => l⟩

/-- without post-customization -/
example : (customize cfg arcs 4 parent fwd bwd).map (fun G => G.outgoing.map (fun a => (a.tail, a.head, a.lo, decide (a.up < 14)))) =
    some [(0, 3, 5, false), (1, 2, 30, false), (1, 3, 5, true)] := by decide +kernel

/-- with post-customization -/
example : (customizePost cfg arcs 4 parent fwd bwd).map (fun G => G.outgoing.map (fun a => (a.tail, a.head, a.lo, decide (a.up < 14)))) =
    some [(0, 3, 5, false), (1, 3, 5, true)] := by decide +kernel
example : (customizePost cfg arcs 4 parent fwd bwd).map (fun G => G.incoming.map (fun a => (a.tail, a.head, a.lo, a.up))) =
    some [(0, 1, 2, 2), (2, 3, 15, 15)] := by decide +kernel
example : ((customizePost cfg arcs 4 parent fwd bwd).bind (fun G => distance false (1/1000) G 4 1000 .new 1 2 0)).map (·.1) = some (some (2 + 5 + 3/4000 + 15)) := by decide +kernel

end FtdPostExample
end Verif
