import Verif.Proof.CatchupQuery
import Verif.Proof.CatchupServes
import Verif.Props.FlMerge
/- C75: earliest arrivals with CATCHUp. -/
namespace Verif
open Spec Catchup

/-- CATCHUp without lazy relaxation returns the earliest arrival, after any earlier queries on the same server, and nothing if there is no way.
`R` is the road network; the hierarchy `G` has valid bounds (`BoundsOK`), its arcs are trips (`EvalOK`), and earliest arrivals are found on up-down paths
(`Serves`, see `C75_triangles_partial`). Partial: exact arithmetic; the default configuration (lazy) is refuted by `C75_lazy_wrong`. -/
theorem C75_exact_partial {G : Graph} {R : Network} {depth : Nat} {eps : Rat} (hR : NoOvertaking R) (hG : BoundsOK G R) (hE : EvalOK G R depth)
    (hS : Serves (G.net depth true) (G.net depth false) R INF) (he : 0 < eps) {S : Server} (hU : Used G eps S) {s t : Nat} (hs : s < G.n) (ht : t < G.n)
    {dep : Rat} (hd : 0 ≤ dep) (hI : dep < INF) {fuel : Nat} (hf : enough G ≤ fuel) :
    ∃ d S', distance false eps G depth fuel S s t dep = some (d, S') ∧ (∀ Y, EarliestTrip R s dep t Y → Y + eps < INF → d = some (Y - dep)) ∧
      ((¬ ∃ y, Trip R s dep t y) → d = none) := by
  obtain ⟨h1, h2⟩ := used_left hR hG (le_of_lt he) hU
  obtain ⟨d, S', g1, g2, g3⟩ := distance_spec hR hG hE he hs ht hd hI h1 h2 hf
  refine ⟨d, S', g1, fun Y h4 h5 => g3 Y hS h4 h5, ?_⟩
  intro hn
  cases d with
  | none => rfl
  | some x =>
    obtain ⟨y, _, h⟩ := g2 x rfl
    exact absurd ⟨y, h⟩ hn

/-- The same for finitely many roads and a hierarchy in which every road and every way down and up again has an arc that is at least as fast, as the
customization establishes. If there is a way, there is an earliest arrival, and it is returned. -/
theorem C75_triangles_partial {G : Graph} {roads : List (Nat × Nat × (Rat → Rat))} {depth : Nat} {eps : Rat} (hR : NoOvertaking (roadNet roads))
    (hG : BoundsOK G (roadNet roads)) (hE : EvalOK G (roadNet roads) depth) (hT : Triangulated (G.net depth true) (G.net depth false) (roadNet roads) INF)
    (he : 0 < eps) {S : Server} (hU : Used G eps S) {s t : Nat} (hs : s < G.n) (ht : t < G.n) {dep : Rat} (hd : 0 ≤ dep) (hI : dep < INF)
    {fuel : Nat} (hf : enough G ≤ fuel) :
    ∃ d S', distance false eps G depth fuel S s t dep = some (d, S') ∧ ((¬ ∃ y, Trip (roadNet roads) s dep t y) → d = none) ∧
      ((∃ y, Trip (roadNet roads) s dep t y) → ∃ Y, EarliestTrip (roadNet roads) s dep t Y ∧ (Y + eps < INF → d = some (Y - dep))) := by
  have hS : Serves (G.net depth true) (G.net depth false) (roadNet roads) INF := by
    refine serves_roads hR hT ?_ ?_
    · rintro u v τ y ⟨id, a, h1, rfl, rfl, x, h2, rfl⟩
      obtain ⟨v, h3, _, h4⟩ := hE true id a h1 τ
      rw [h2] at h3; injection h3 with h3; subst h3; exact h4
    · rintro u v τ y ⟨id, a, h1, rfl, rfl, x, h2, rfl⟩
      obtain ⟨v, h3, _, h4⟩ := hE false id a h1 τ
      rw [h2] at h3; injection h3 with h3; subst h3; exact h4
  obtain ⟨d, S', h1, h2, h3⟩ := C75_exact_partial hR hG hE hS he hU hs ht hd hI hf
  refine ⟨d, S', h1, h3, ?_⟩
  intro h
  obtain ⟨Y, hY⟩ := earliest_exists hR s dep t h
  exact ⟨Y, hY, h2 Y hY⟩

namespace CatchupExample

/-- a road on which the travel time falls from 10 to 5 -/
def slow (τ : Rat) : Rat := if τ < 0 then 10 else if τ < 5 then 10 - τ else 5

def roads : List (Nat × Nat × (Rat → Rat)) := [(1, 0, fun _ => 2), (0, 2, slow)]

/-- node 0 was contracted: the shortcut from 1 to 2 -/
def H : Graph where
  n := 3
  outgoing := [⟨0, 2, 5, 10, [(0, .orig 0)], false⟩, ⟨1, 2, 7, 12, [(0, .short 0 0)], false⟩]
  incoming := [⟨0, 1, 2, 2, [(0, .orig 1)], true⟩]
  parent := fun v => if v < 2 then some (v + 1) else none
  orig := fun e τ => if e = 0 then slow τ else 2

theorem slow_bounds (τ : Rat) : 5 ≤ slow τ ∧ slow τ ≤ 10 := by
  unfold slow; split_ifs <;> constructor <;> linarith

theorem no_overtaking : NoOvertaking (roadNet roads) := by
  constructor
  · rintro u v τ y ⟨r, h, rfl, rfl, rfl⟩
    simp only [roads, List.mem_cons, List.not_mem_nil, or_false] at h
    rcases h with rfl | rfl
    · simp only; linarith
    · simp only; linarith [(slow_bounds τ).1]
  · rintro u v τ y τ' ⟨r, h, rfl, rfl, rfl⟩ hle
    refine ⟨_, ?_, r, h, rfl, rfl, rfl⟩
    simp only [roads, List.mem_cons, List.not_mem_nil, or_false] at h
    rcases h with rfl | rfl
    · simp only; linarith
    · simp only; unfold slow; split_ifs <;> linarith

theorem road0 (τ : Rat) : Trip (roadNet roads) 1 τ 0 (τ + 2) := .there ⟨(1, 0, fun _ => 2), by simp [roads], rfl, rfl, rfl⟩ (.here _ _)
theorem road1 (τ : Rat) : Trip (roadNet roads) 0 τ 2 (τ + slow τ) := .there ⟨(0, 2, slow), by simp [roads], rfl, rfl, rfl⟩ (.here _ _)

theorem eval00 (τ : Rat) : evalArc H 2 true 0 τ = some (slow τ) := rfl
theorem eval01 (τ : Rat) : evalArc H 2 true 1 τ = some (2 + slow (τ + 2)) := rfl
theorem eval10 (τ : Rat) : evalArc H 2 false 0 τ = some 2 := rfl

theorem arcs_true {id : Nat} {a : Arc} (h : H.outgoing[id]? = some a) : (id = 0 ∧ a = ⟨0, 2, 5, 10, [(0, .orig 0)], false⟩) ∨ (id = 1 ∧ a = ⟨1, 2, 7, 12, [(0, .short 0 0)], false⟩) := by
  match id, h with
  | 0, h => left; simp [H] at h; exact ⟨rfl, h.symm⟩
  | 1, h => right; simp [H] at h; exact ⟨rfl, h.symm⟩
  | id + 2, h => simp [H] at h

theorem arcs_false {id : Nat} {a : Arc} (h : H.incoming[id]? = some a) : id = 0 ∧ a = ⟨0, 1, 2, 2, [(0, .orig 1)], true⟩ := by
  match id, h with
  | 0, h => simp [H] at h; exact ⟨rfl, h.symm⟩
  | id + 1, h => simp [H] at h

theorem eval_ok : EvalOK H (roadNet roads) 2 := by
  intro dir id a h τ
  cases dir with
  | true =>
    rcases arcs_true h with ⟨rfl, rfl⟩ | ⟨rfl, rfl⟩
    · exact ⟨_, eval00 τ, (slow_bounds τ).1, road1 τ⟩
    · refine ⟨_, eval01 τ, ?_, ?_⟩
      · simp only; linarith [(slow_bounds (τ + 2)).1]
      · rw [← add_assoc]; exact (road0 τ).append (road1 (τ + 2))
  | false =>
    obtain ⟨rfl, rfl⟩ := arcs_false h
    exact ⟨_, eval10 τ, le_refl _, road0 τ⟩

theorem bounds_ok : BoundsOK H (roadNet roads) := by
  constructor
  · intro v w h
    simp only [H] at h ⊢
    split at h
    · injection h with h; omega
    · simp at h
  · intro dir a ha
    obtain ⟨id, hid⟩ := List.mem_iff_getElem?.1 ha
    cases dir with
    | true =>
      rcases arcs_true hid with ⟨rfl, rfl⟩ | ⟨rfl, rfl⟩
      · exact ⟨by decide, .up (.up .refl (y := 1) rfl) rfl, by decide, by decide, fun _ τ => ⟨_, by simp only; linarith [(slow_bounds τ).2], road1 τ⟩⟩
      · exact ⟨by decide, .up .refl rfl, by decide, by decide, fun _ τ => ⟨_, by simp only; linarith [(slow_bounds (τ + 2)).2], (road0 τ).append (road1 (τ + 2))⟩⟩
    | false =>
      obtain ⟨rfl, rfl⟩ := arcs_false hid
      exact ⟨by decide, .up .refl rfl, by decide, by decide, fun _ τ => ⟨_, le_refl _, road0 τ⟩⟩

theorem triangulated : Triangulated (H.net 2 true) (H.net 2 false) (roadNet roads) INF := by
  constructor
  · rintro u v τ y _ _ ⟨r, h, rfl, rfl, rfl⟩ _
    simp only [roads, List.mem_cons, List.not_mem_nil, or_false] at h
    rcases h with rfl | rfl
    · exact .inl ⟨_, le_refl _, .inr ⟨0, _, rfl, rfl, rfl, _, eval10 τ, rfl⟩⟩
    · exact .inl ⟨_, le_refl _, .inl ⟨0, _, rfl, rfl, rfl, _, eval00 τ, rfl⟩⟩
  · rintro u x v τ a b _ _ ⟨id, c, h1, h2, h3, w, h4, rfl⟩ ⟨id', c', g1, g2, g3, w', g4, rfl⟩ _
    obtain ⟨rfl, rfl⟩ := arcs_false h1
    rw [eval10] at h4
    injection h4 with h4; subst h4; subst h2; subst h3
    rcases arcs_true g1 with ⟨rfl, rfl⟩ | ⟨rfl, rfl⟩
    · rw [eval00] at g4
      injection g4 with g4; subst g4; subst g3
      exact .inl ⟨_, le_of_eq (add_assoc _ _ _).symm, .inl ⟨1, _, rfl, rfl, rfl, _, eval01 τ, rfl⟩⟩
    · simp [Arc.src', Arc.dst] at g2

/-- the theorem is about something: leaving at 1, one arrives at 1 + 2 + 7 -/
example : ∃ d S', distance false (1/1000) H 2 1000 .new 1 2 1 = some (d, S') ∧ ((¬ ∃ y, Trip (roadNet roads) 1 1 2 y) → d = none) ∧
    ((∃ y, Trip (roadNet roads) 1 1 2 y) → ∃ Y, EarliestTrip (roadNet roads) 1 1 2 Y ∧ (Y + 1/1000 < INF → d = some (Y - 1))) :=
  C75_triangles_partial no_overtaking bounds_ok eval_ok triangulated (by decide +kernel) .new (by decide) (by decide) (by decide +kernel) (by decide +kernel) (by decide +kernel)
example : (distance false (1/1000) H 2 1000 .new 1 2 1).map (·.1) = some (some 9) := by decide +kernel

end CatchupExample

/-! ## Lazy relaxation -/

namespace CatchupLazy
open Fl FlPlfExample

/-! Six nodes x = 0, u = 1, s = 2, w = 3, v = 4, t = 5 and seven roads. -/
def su : List Pt := [⟨0, 1/2⟩, ⟨990, 1/2⟩, ⟨1010, 3/2⟩, ⟨2000, 3/2⟩, ⟨3000, 1/2⟩, ⟨86400, 1/2⟩]
def ux : List Pt := [⟨0, 1⟩]
def sx : List Pt := [⟨0, 2⟩]
def xv : List Pt := [⟨0, 10⟩, ⟨900, 210⟩, ⟨1100, 10⟩, ⟨86400, 10⟩]
def xw : List Pt := [⟨0, 10⟩]
def vt : List Pt := [⟨0, 10⟩]
def wt : List Pt := [⟨0, 1⟩, ⟨500, 1⟩, ⟨600, 300⟩, ⟨2000, 300⟩, ⟨3000, 1⟩, ⟨86400, 1⟩]
def functions : List (List Pt) := [su, ux, sx, xv, xw, vt, wt]

/-- the travel time on a road -/
def time (e : Nat) (τ : Rat) : Rat := ((functions[e]?).bind (fun f => evaluate linear 0 f τ)).getD INF

def roads : List (Nat × Nat × (Rat → Rat)) := [(2, 1, time 0), (1, 0, time 1), (2, 0, time 2), (0, 4, time 3), (0, 3, time 4), (4, 5, time 5), (3, 5, time 6)]

/-- the hierarchy -/
def W : Graph where
  n := 6
  outgoing := [⟨0, 3, 10, 10, [(0, .orig 4)], true⟩, ⟨0, 4, 10, 210, [(0, .orig 3)], false⟩,
    ⟨1, 3, 11, 11, [(0, .short 0 0)], true⟩, ⟨1, 4, 11, 211, [(0, .short 0 1)], false⟩,
    ⟨2, 3, 23/2, 12, [(0, .short 2 2), (1000, .short 1 0), (2500, .short 2 2)], false⟩,
    ⟨2, 4, 23/2, 423/2, [(0, .short 2 3), (2195/2, .short 1 1), (2500, .short 2 3)], false⟩,
    ⟨3, 5, 1, 300, [(0, .orig 6)], false⟩, ⟨4, 5, 10, 10, [(0, .orig 5)], true⟩]
  incoming := [⟨0, 1, 1, 1, [(0, .orig 1)], true⟩, ⟨0, 2, 2, 2, [(0, .orig 2)], true⟩, ⟨1, 2, 1/2, 3/2, [(0, .orig 0)], false⟩]
  parent := fun v => if v < 5 then some (v + 1) else none
  orig := time

/-- the function of a way over two roads, as the code links them -/
def over (f g : Option (List Pt)) : Option (List Pt) := do link linear true 0 (← f) (← g)

/-- from when on the first (`true`) or the second of two functions is used, as the code merges them -/
def changes (f g : Option (List Pt)) : Option (List (Rat × Bool)) := do
  let r ← merge true true Tol.code (← f) (← g)
  some r.2

end CatchupLazy

open CatchupLazy in
/-- With lazy relaxation, as in the default configuration, CATCHUp is wrong. In this network of valid travel time functions one can leave s at 1005 and
be at t at 1120, after 115 seconds. The shortcuts of the hierarchy refer to the parts that the code finds by linking and merging, and without lazy
relaxation the query finds the 115 seconds. With lazy relaxation it returns 221.500001: no arrival, but an upper bound plus the tolerance. -/
theorem C75_lazy_wrong :
    (∀ f ∈ functions, ValidTtf f) ∧ Trip (roadNet roads) 2 1005 5 1120 ∧
      changes (over (some sx) (some xv)) (over (some su) (over (some ux) (some xv))) = some [(0, false), (2195/2, true), (2500, false)] ∧
      changes (over (some sx) (some xw)) (over (some su) (over (some ux) (some xw))) = some [(0, false), (1000, true), (2500, false)] ∧
      (distance false (1/1000000) W 5 30 .new 2 5 1005).map (·.1) = some (some 115) ∧
      (distance true (1/1000000) W 5 30 .new 2 5 1005).map (·.1) = some (some (221500001/1000000)) := by
  refine ⟨?_, ?_, by decide +kernel, by decide +kernel, by decide +kernel, by decide +kernel⟩
  · intro f hf
    simp only [functions, List.mem_cons, List.not_mem_nil, or_false] at hf
    rcases hf with rfl | rfl | rfl | rfl | rfl | rfl | rfl <;> exact FlPlfExample.valid_ok (by decide +kernel)
  · refine .there (v := 0) (y := 1007) ⟨(2, 0, time 2), by simp [roads], rfl, rfl, by decide +kernel⟩ ?_
    refine .there (v := 4) (y := 1110) ⟨(0, 4, time 3), by simp [roads], rfl, rfl, by decide +kernel⟩ ?_
    exact .there (v := 5) (y := 1120) ⟨(4, 5, time 5), by simp [roads], rfl, rfl, by decide +kernel⟩ (.here _ _)

end Verif
