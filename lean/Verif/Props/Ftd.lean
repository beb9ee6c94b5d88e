import Verif.Proof.FtdGraph
import Verif.Props.Catchup
/- C76: the customization of CATCHUp. -/
namespace Verif
open Spec Fl Catchup Ftd

/-- roads with valid travel time functions -/
theorem Ftd.no_overtaking {roads : List (Nat × Nat × (Rat → Rat))} {ttf : Nat → Option (List Pt)} {arcs : List (Nat × Nat)} {fwd bwd : List (List Nat)}
    (hr : RoadsOK roads ttf arcs fwd bwd) : NoOvertaking (roadNet roads) := by
  have hro : ∀ r ∈ roads, ∃ p, ValidTtf p ∧ ∀ t, r.2.2 t = fn p t := by
    intro r h
    obtain ⟨e, he⟩ := List.mem_iff_getElem?.1 h
    obtain ⟨p, q1, q2, q3⟩ := hr.road e r he
    exact ⟨p, q2, fun t => (fn_iff q2).1 (q3 t)⟩
  constructor
  · rintro u v τ y ⟨r, h, rfl, rfl, rfl⟩
    obtain ⟨p, q1, q2⟩ := hro r h
    rw [q2]; linarith [fn_nonneg q1 τ]
  · rintro u v τ y τ' ⟨r, h, rfl, rfl, rfl⟩ hle
    obtain ⟨p, q1, q2⟩ := hro r h
    refine ⟨τ' + r.2.2 τ', ?_, r, h, rfl, rfl, rfl⟩
    rw [q2, q2]; exact fn_fifo q1 hle

/-- The customization, with or without pre-customization, does not panic on a chordal hierarchy with at most one road per arc and direction, and the hierarchy it makes is one
for which `C75_triangles_partial` holds: valid bounds, every arc evaluates to the length of a trip at every time of the week, and no detours. Partial: exact arithmetic, no
approximation; for post-customization see C82. -/
theorem C76_hierarchy_partial {c : Cfg} (hbs : SearchBy c.bs) (htl : c.tl = Tol.exact) (hsrt : ∀ k l, (c.srt k l).Perm l) {arcs : List (Nat × Nat)} {n : Nat}
    {parent : Nat → Option Nat} (hT : HierarchyOK arcs n parent) {roads : List (Nat × Nat × (Rat → Rat))} {fwd bwd : List (List Nat)} (hr : RoadsOK roads c.ttf arcs fwd bwd) (hpre : PreReady c.pre c.ttf arcs fwd bwd) :
    ∃ G, customize c arcs n parent fwd bwd = some G ∧ G.n = n ∧ BoundsOK G (roadNet roads) ∧ EvalOK G (roadNet roads) n ∧
      Triangulated (G.net n true) (G.net n false) (roadNet roads) INF := by
  obtain ⟨G, h1, h2, h3, h4, h5, _⟩ := customize_ok hbs htl hsrt hT hr hpre
  exact ⟨G, h1, h2, h3, h4, h5⟩

/-- Customization and queries together: whatever the travel time functions of the roads, the customization ends with a hierarchy on which CATCHUp (without
lazy relaxation) returns earliest arrivals, and nothing if there is no way, after any earlier queries. -/
theorem C76_exact_partial {c : Cfg} (hbs : SearchBy c.bs) (htl : c.tl = Tol.exact) (hsrt : ∀ k l, (c.srt k l).Perm l) {arcs : List (Nat × Nat)} {n : Nat}
    {parent : Nat → Option Nat} (hT : HierarchyOK arcs n parent) {roads : List (Nat × Nat × (Rat → Rat))} {fwd bwd : List (List Nat)} (hr : RoadsOK roads c.ttf arcs fwd bwd) (hpre : PreReady c.pre c.ttf arcs fwd bwd) :
    ∃ G, customize c arcs n parent fwd bwd = some G ∧ ∀ {eps : Rat}, 0 < eps → ∀ {S : Server}, Used G eps S → ∀ {s t : Nat}, s < n → t < n → ∀ {dep : Rat}, 0 ≤ dep → dep < INF →
      ∀ {fuel : Nat}, enough G ≤ fuel →
      ∃ d S', distance false eps G n fuel S s t dep = some (d, S') ∧ ((¬ ∃ y, Trip (roadNet roads) s dep t y) → d = none) ∧
        ((∃ y, Trip (roadNet roads) s dep t y) → ∃ Y, EarliestTrip (roadNet roads) s dep t Y ∧ (Y + eps < INF → d = some (Y - dep))) := by
  obtain ⟨G, h1, h2, h3, h4, h5, _⟩ := customize_ok hbs htl hsrt hT hr hpre
  refine ⟨G, h1, ?_⟩
  intro eps he S hU s t hs ht dep hd hI fuel hf
  exact C75_triangles_partial (no_overtaking hr) h3 h4 h5 he hU (by rw [h2]; exact hs) (by rw [h2]; exact ht) hd hI hf

namespace FtdExample
open FlPlfExample

/-- from 1 to 0, from 0 to 2, from 1 to 2 -/
def functions : List (List Pt) := [[⟨0, 2⟩], [⟨0, 10⟩], [⟨0, 20⟩, ⟨1000, 5⟩, ⟨86400, 20⟩]]
def time (e : Nat) (τ : Rat) : Rat := ((functions[e]?).bind (fun f => evaluate linear 0 f τ)).getD INF
def roads : List (Nat × Nat × (Rat → Rat)) := [(1, 0, time 0), (0, 2, time 1), (1, 2, time 2)]
def arcs : List (Nat × Nat) := [(0, 1), (0, 2), (1, 2)]
def parent (v : Nat) : Option Nat := if v < 2 then some (v + 1) else none
def fwd : List (List Nat) := [[], [1], [2]]
def bwd : List (List Nat) := [[0], [], []]
def cfg : Cfg := ⟨linear, true, Tol.exact, false, fun e => functions[e]?, fun _ l => l⟩

theorem hierarchy_ok : HierarchyOK arcs 3 parent := by
  have hi : ∀ (i : Nat) (a : Nat × Nat), arcs[i]? = some a → (i = 0 ∧ a = (0, 1)) ∨ (i = 1 ∧ a = (0, 2)) ∨ (i = 2 ∧ a = (1, 2)) := by
    intro i a h
    match i, h with
    | 0, h => simp [arcs] at h; simp [← h]
    | 1, h => simp [arcs] at h; simp [← h]
    | 2, h => simp [arcs] at h; simp [← h]
    | i + 3, h => simp [arcs] at h
  constructor
  · intro i a h; rcases hi i a h with ⟨_, rfl⟩ | ⟨_, rfl⟩ | ⟨_, rfl⟩ <;> decide
  · intro i j a b hij h1 h2
    rcases hi i a h1 with ⟨rfl, rfl⟩ | ⟨rfl, rfl⟩ | ⟨rfl, rfl⟩ <;> rcases hi j b h2 with ⟨rfl, rfl⟩ | ⟨rfl, rfl⟩ | ⟨rfl, rfl⟩ <;> first | omega | decide
  · intro i j a h1 h2
    rcases hi i a h1 with ⟨rfl, rfl⟩ | ⟨rfl, rfl⟩ | ⟨rfl, rfl⟩ <;> rcases hi j _ h2 with ⟨rfl, h⟩ | ⟨rfl, h⟩ | ⟨rfl, h⟩ <;> simp_all
  · intro x u v h1 h2 h3
    simp only [arcs, List.mem_cons, Prod.mk.injEq, List.not_mem_nil, or_false] at h1 h2 ⊢
    omega
  · intro v w h
    unfold parent at h
    split at h
    · injection h with h; omega
    · exact (nomatch h)
  · intro a ha
    simp only [arcs, List.mem_cons, List.not_mem_nil, or_false] at ha
    rcases ha with rfl | rfl | rfl
    · exact .up .refl rfl
    · exact .up (.up .refl (y := 1) rfl) rfl
    · exact .up .refl rfl

theorem roads_ok : RoadsOK roads cfg.ttf arcs fwd bwd := by
  constructor
  · have key : ∀ e f, functions[e]? = some f → ValidTtf f → ∃ p, cfg.ttf e = some p ∧ ValidTtf p ∧ ∀ τ, TravelTime p τ (time e τ) := by
      intro e f h hv
      refine ⟨f, h, hv, fun τ => ?_⟩
      obtain ⟨y, h1, _, h2⟩ := C72_evaluate_partial linear_ok hv τ
      rw [h2]
      simp [time, h, h1]
    intro e r h
    match e, h with
    | 0, h => simp [roads] at h; subst h; exact key 0 _ rfl (valid_ok (by decide +kernel))
    | 1, h => simp [roads] at h; subst h; exact key 1 _ rfl (valid_ok (by decide +kernel))
    | 2, h => simp [roads] at h; subst h; exact key 2 _ rfl (valid_ok (by decide +kernel))
    | e + 3, h => simp [roads] at h
  · exact ⟨rfl, rfl⟩
  · intro i es h
    match i, h with
    | 0, h => simp [fwd] at h; subst h; simp
    | 1, h => simp [fwd] at h; subst h; exact ⟨by decide, fun e he => by simp at he; subst he; exact ⟨_, _, rfl, rfl, rfl, rfl⟩⟩
    | 2, h => simp [fwd] at h; subst h; exact ⟨by decide, fun e he => by simp at he; subst he; exact ⟨_, _, rfl, rfl, rfl, rfl⟩⟩
    | i + 3, h => simp [fwd] at h
  · intro i es h
    match i, h with
    | 0, h => simp [bwd] at h; subst h; exact ⟨by decide, fun e he => by simp at he; subst he; exact ⟨_, _, rfl, rfl, rfl, rfl⟩⟩
    | 1, h => simp [bwd] at h; subst h; simp
    | 2, h => simp [bwd] at h; subst h; simp
    | i + 3, h => simp [bwd] at h
  · intro e r h _
    match e, h with
    | 0, h => simp [roads] at h; subst h; exact ⟨0, [0], .inr ⟨rfl, rfl, by simp⟩⟩
    | 1, h => simp [roads] at h; subst h; exact ⟨1, [1], .inl ⟨rfl, rfl, by simp⟩⟩
    | 2, h => simp [roads] at h; subst h; exact ⟨2, [2], .inl ⟨rfl, rfl, by simp⟩⟩
    | e + 3, h => simp [roads] at h

example : ∃ G, customize cfg arcs 3 parent fwd bwd = some G ∧ G.n = 3 ∧ BoundsOK G (roadNet roads) ∧ EvalOK G (roadNet roads) 3 ∧
    Triangulated (G.net 3 true) (G.net 3 false) (roadNet roads) INF :=
  C76_hierarchy_partial linear_ok rfl (fun _ _ => .refl _) hierarchy_ok roads_ok (fun h => (nomatch h))

/-- the way over 0 takes 12; the road is faster from 1600/3 on, until late in the day -/
example : ((customize cfg arcs 3 parent fwd bwd).bind (fun G => G.outgoing[1]?)).map (fun a => (a.lo, a.up, a.src)) =
    some (5, 12, [(0, .short 0 0), (1600/3, .orig 2), (122560/3, .short 0 0)]) := by decide +kernel
example : ((customize cfg arcs 3 parent fwd bwd).bind (fun G => distance false (1/1000) G 3 1000 .new 1 2 10)).map (·.1) = some (some 12) := by decide +kernel
example : ((customize cfg arcs 3 parent fwd bwd).bind (fun G => distance false (1/1000) G 3 1000 .new 1 2 1000)).map (·.1) = some (some 5) := by decide +kernel

end FtdExample
end Verif
