import Verif.Proof.FlLive
import Verif.Props.FlPlf
/- C83: live travel times. -/
namespace Verif
open Spec Fl FlTd

/-- The roads' usual travel times: those of the graph without reports. -/
def UsualTimes (g : FlTd.Graph) (n : Nat) (usual : Nat → Rat → Rat) : Prop :=
  ∀ e, e < n → ∃ p, g.ttf e = some p ∧ ValidTtf p ∧ ∀ τ, TravelTime p τ (usual e τ)

theorem UsualTimes.fn {g : FlTd.Graph} {n : Nat} {usual : Nat → Rat → Rat} (h : UsualTimes g n usual) {e : Nat} (he : e < n) : ∃ p, g.ttf e = some p ∧ ValidTtf p ∧ usual e = Fl.fn p := by
  obtain ⟨p, h1, h2, h3⟩ := h e he
  exact ⟨p, h1, h2, funext (fun τ => (fn_iff h2).1 (h3 τ))⟩

/-- The graph with live reports is built without a panic. On a road with a report of the travel time in ms and the time in ms until which it holds, the travel time is as reported until then,
and returns to the usual one as fast as possible without overtaking (resp. second by second). On a road without a report it is the usual one. Exact arithmetic; reports that end after the
present; for roads without a report without debug assertions, see `C83_debug_panics`. -/
theorem C83_live {bs : Search} (hbs : SearchBy bs) (dbg : Bool) {g : FlTd.Graph} (now : Rat) {live : List (Option (Nat × Nat))} {usual : Nat → Rat → Rat} (hg : UsualTimes g live.length usual) :
    ∃ k G, (∀ fuel, k ≤ fuel → LiveGraph.new bs Tol.exact dbg fuel g now live = some G) ∧
      (∀ (e l s : Nat), live[e]? = some (some (l, s)) → now < (s : Rat) / 1000 →
        ∃ F, LiveTravelTime (usual e) now ((s : Rat) / 1000) ((l : Rat) / 1000) F ∧ ∀ t, now ≤ t → G.time bs Tol.exact dbg e t = some (F t)) ∧
      (∀ e : Nat, live[e]? = some none → ∀ t, G.time bs Tol.exact false e t = some (usual e t)) := by
  obtain ⟨k, G, h1, h2, h3, h4⟩ := live_ok hbs dbg now (fun e he => let ⟨p, a, b, _⟩ := hg e he; ⟨p, a, b⟩)
  have hlt : ∀ {e : Nat} {x : Option (Nat × Nat)}, live[e]? = some x → e < live.length := fun h => (List.getElem?_eq_some_iff.1 h).1
  refine ⟨k, G, h1, ?_, ?_⟩
  · intro e l s he hs
    obtain ⟨p, p1, p2, p3⟩ := hg.fn (hlt he)
    obtain ⟨w, w1, w2⟩ := h4 e p l s he p1
    obtain ⟨f, f1, f2, f3⟩ := updated_ok hbs dbg p2 w1 hs
    refine ⟨_, by rw [p3]; exact withReport_spec w1, ?_⟩
    intro t ht
    simp only [LiveGraph.time, w2, f1, Option.bind_eq_bind, Option.bind_some, f3 t ht]
  · intro e he t
    obtain ⟨p, p1, p2, p3⟩ := hg.fn (hlt he)
    have : Updated.new bs Tol.exact false p [] = some ⟨p, []⟩ := rfl
    simp only [LiveGraph.time, h3 e p he p1, this, Option.bind_eq_bind, Option.bind_some]
    rw [p3]
    exact evaluate_fn hbs p2 t

/-- With debug assertions the travel time of a road without a report cannot be evaluated: `update[0]` in the debug assertion of `evaluate` panics. -/
theorem C83_debug_panics {bs : Search} (hbs : SearchBy bs) {g : FlTd.Graph} (now : Rat) {live : List (Option (Nat × Nat))} {usual : Nat → Rat → Rat} (hg : UsualTimes g live.length usual) :
    ∃ k G, (∀ fuel, k ≤ fuel → LiveGraph.new bs Tol.exact true fuel g now live = some G) ∧ ∀ e : Nat, live[e]? = some none → ∀ t, G.time bs Tol.exact true e t = none := by
  obtain ⟨k, G, h1, h2, h3, h4⟩ := live_ok hbs true now (fun e he => let ⟨p, a, b, _⟩ := hg e he; ⟨p, a, b⟩)
  refine ⟨k, G, h1, ?_⟩
  intro e he t
  obtain ⟨p, p1, p2, p3⟩ := hg.fn (List.getElem?_eq_some_iff.1 he).1
  have : Updated.new bs Tol.exact true p [] = some ⟨p, []⟩ := rfl
  simp only [LiveGraph.time, h3 e p he p1, this, Option.bind_eq_bind, Option.bind_some]
  rfl

/-- With reports, too, who leaves later does not arrive earlier, and the bounds of the travel time functions hold. -/
theorem C83_no_overtaking {bs : Search} (hbs : SearchBy bs) {g : FlTd.Graph} (now : Rat) {live : List (Option (Nat × Nat))} {usual : Nat → Rat → Rat} (hg : UsualTimes g live.length usual)
    (hs : ∀ (e l s : Nat), live[e]? = some (some (l, s)) → now < (s : Rat) / 1000) :
    ∃ k G, (∀ fuel, k ≤ fuel → LiveGraph.new bs Tol.exact false fuel g now live = some G) ∧ ∀ e, e < live.length →
      ∃ f lo up, G.ttf bs Tol.exact false e = some f ∧ f.lower = some lo ∧ f.upper = some up ∧ ∀ t, now ≤ t → ∃ x, G.time bs Tol.exact false e t = some x ∧ 0 ≤ x ∧ (lo ≤ x ∧ x ≤ up) ∧
        ∀ t', t ≤ t' → ∃ x', G.time bs Tol.exact false e t' = some x' ∧ t + x ≤ t' + x' := by
  obtain ⟨k, G, h1, h2⟩ := arc_ok hbs now (fun e he => hg.fn he) hs
  refine ⟨k, G, h1, ?_⟩
  intro e he
  obtain ⟨F, hF⟩ := h2 e live[e] (List.getElem?_eq_getElem he)
  obtain ⟨f, lo, up, b1, b2, b3, b4⟩ := hF.bounds
  refine ⟨f, lo, up, b1, b2, b3, ?_⟩
  intro t ht
  refine ⟨F t, hF.time t ht, hF.nonneg t ht, b4 t ht, ?_⟩
  intro t' hle
  exact ⟨F t', hF.time t' (ht.trans hle), hF.fifo t t' ht hle⟩

/-- `evaluate_path` returns the time that driving the path takes, and who leaves later does not arrive earlier. -/
theorem C83_path {bs : Search} (hbs : SearchBy bs) {g : FlTd.Graph} (now : Rat) {live : List (Option (Nat × Nat))} {usual : Nat → Rat → Rat} (hg : UsualTimes g live.length usual)
    (hs : ∀ (e l s : Nat), live[e]? = some (some (l, s)) → now < (s : Rat) / 1000) :
    ∃ k G F, (∀ fuel, k ≤ fuel → LiveGraph.new bs Tol.exact false fuel g now live = some G) ∧
      (∀ (e l s : Nat), live[e]? = some (some (l, s)) → LiveTravelTime (usual e) now ((s : Rat) / 1000) ((l : Rat) / 1000) (F e)) ∧ (∀ e : Nat, live[e]? = some none → F e = usual e) ∧
      ∀ es, (∀ e ∈ es, e < live.length) → ∀ t, now ≤ t → evaluatePath (G.time bs Tol.exact false) t es = some (arrival F es t - t) ∧ ∀ t', t ≤ t' → arrival F es t ≤ arrival F es t' := by
  obtain ⟨k, G, h1, h2⟩ := arc_ok hbs now (fun e he => hg.fn he) hs
  have h3 : ∀ e, ∃ F, ∀ x, live[e]? = some x → ArcOK bs G now (usual e) x e F := by
    intro e
    cases hx : live[e]? with
    | none => exact ⟨usual e, fun x h => (nomatch h)⟩
    | some x =>
      obtain ⟨F, hF⟩ := h2 e x hx
      refine ⟨F, ?_⟩
      intro y hy; injection hy with hy; subst hy; exact hF
  refine ⟨k, G, fun e => (h3 e).choose, h1, ?_, ?_, ?_⟩
  · intro e l s he
    exact ((h3 e).choose_spec _ he).rep l s rfl
  · intro e he
    exact ((h3 e).choose_spec _ he).not rfl
  · intro es hes t ht
    have hall : ∀ e ∈ es, ∃ x, ArcOK bs G now (usual e) x e (h3 e).choose := fun e he => ⟨_, (h3 e).choose_spec _ (List.getElem?_eq_getElem (hes e he))⟩
    constructor
    · have := livePath_ok (ev := G.time bs Tol.exact false) (F := fun e => (h3 e).choose) (now := now) (t0 := t) es
        (fun e he τ hτ => let ⟨x, hx⟩ := hall e he; ⟨hx.time τ hτ, hx.nonneg τ hτ⟩) 0 (by linarith)
      rw [add_zero] at this
      exact this
    · intro t' hle
      exact arrival_mono es (fun e he => let ⟨x, hx⟩ := hall e he; ⟨hx.nonneg, hx.fifo⟩) t t' ht hle

/-- The time of the reports is the time with which the graph was built; without any report asking for it panics. -/
theorem C83_now {bs : Search} {tl : Tol} {dbg : Bool} {fuel : Nat} {g : FlTd.Graph} {now : Rat} {live : List (Option (Nat × Nat))} {G : LiveGraph} (h : LiveGraph.new bs tl dbg fuel g now live = some G) :
    ((∃ x, some x ∈ live) → G.now = some now) ∧ ((¬ ∃ x, some x ∈ live) → G.now = none) := by
  rw [now_ok h]
  constructor
  · rintro ⟨x, hx⟩
    rw [if_neg]
    intro hc
    have := List.all_eq_true.1 hc _ hx
    simp at this
  · intro hx
    rw [if_pos]
    rw [List.all_eq_true]
    intro y hy
    cases y with
    | none => rfl
    | some x => exact absurd ⟨x, hy⟩ hx

namespace FlLiveExample
open FlPlfExample

/-! Two roads that take 10 s and one that takes 5 s at midnight and 20 s at 11 o'clock. At 0:00:50 it is reported that the first one takes 20 s until 0:01:40, and that the last one takes 4 s until 11:00. -/

def g : FlTd.Graph := ⟨[0, 3, 3], [1, 1, 1], [0, 1, 2, 5], [⟨0, 10⟩, ⟨0, 10⟩, ⟨0, 5⟩, ⟨39600, 20⟩, ⟨86400, 5⟩]⟩
def live : List (Option (Nat × Nat)) := [some (20000, 100000), none, some (4000, 39600000)]
def functions : List (List Pt) := [[⟨0, 10⟩], [⟨0, 10⟩], [⟨0, 5⟩, ⟨39600, 20⟩, ⟨86400, 5⟩]]
noncomputable def usual (e : Nat) (t : Rat) : Rat := Fl.fn (functions[e]?.getD []) t

theorem usual_ok : UsualTimes g live.length usual := by
  intro e he
  have h3 : e = 0 ∨ e = 1 ∨ e = 2 := by simp [live] at he; omega
  rcases h3 with rfl | rfl | rfl
  · exact ⟨[⟨0, 10⟩], by decide +kernel, valid_ok (by decide +kernel), fun τ => (fn_iff (valid_ok (by decide +kernel))).2 rfl⟩
  · exact ⟨[⟨0, 10⟩], by decide +kernel, valid_ok (by decide +kernel), fun τ => (fn_iff (valid_ok (by decide +kernel))).2 rfl⟩
  · exact ⟨[⟨0, 5⟩, ⟨39600, 20⟩, ⟨86400, 5⟩], by decide +kernel, valid_ok (by decide +kernel), fun τ => (fn_iff (valid_ok (by decide +kernel))).2 rfl⟩

theorem soon_ok : ∀ (e l s : Nat), live[e]? = some (some (l, s)) → (50 : Rat) < (s : Rat) / 1000 := by
  intro e l s h
  have : e < 3 := (List.getElem?_eq_some_iff.1 h).1
  have h3 : e = 0 ∨ e = 1 ∨ e = 2 := by omega
  rcases h3 with rfl | rfl | rfl <;> simp [live] at h <;> obtain ⟨rfl, rfl⟩ := h <;> norm_num

example := C83_live linear_ok true 50 usual_ok
example := C83_debug_panics linear_ok 50 usual_ok
example := C83_no_overtaking linear_ok 50 usual_ok soon_ok
example := C83_path linear_ok 50 usual_ok soon_ok

def G : Option LiveGraph := LiveGraph.new linear Tol.exact false 10 g 50 live
example : (G.map (fun G => G.ipps)) = some [⟨50, 20⟩, ⟨100, 20⟩, ⟨110, 10⟩, ⟨50, 4⟩, ⟨39600, 4⟩, ⟨39600 + 16 * 3120 / 3121, 4 + 16 * 3120 / 3121⟩] := by decide +kernel
example : G.bind LiveGraph.now = some 50 := by decide +kernel
example : [50, 100, 105, 110, 86500].map (fun t => G.bind (fun G => G.time linear Tol.exact false 0 t)) = [some 20, some 20, some 15, some 10, some 10] := by decide +kernel
example : [50, 86500].map (fun t => G.bind (fun G => G.time linear Tol.exact false 1 t)) = [some 10, some 10] := by decide +kernel
example : [50, 39600, 39610, 86400].map (fun t => G.bind (fun G => G.time linear Tol.exact false 2 t)) = [some 4, some 4, some 14, some 5] := by decide +kernel
example : G.bind (fun G => evaluatePath (G.time linear Tol.exact false) 90 [0, 1, 0]) = some (20 + 10 + 10) := by decide +kernel

end FlLiveExample
end Verif
