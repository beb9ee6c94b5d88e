import Verif.Spec.IntervalMinBounds
import Verif.Spec.TimedPaths
import Verif.Model.TdDijkstra
set_option linter.unusedSimpArgs false
set_option linter.unusedVariables false
/- Property C89: answers of the interval potential as lower bounds on the remaining travel time. It does not hold: an answer can depend on
earlier questions and be too large. -/
namespace Verif
open Spec MinMax IntervalMin

namespace IntervalMinExample

/-- an hour -/
def H : Nat := 3600000

def bd (l u : Nat) : Bounds := ⟨l * H, u * H, u * H, 0⟩

/-- The roads: from the source 5 to 0 (4 hours), to 3 (10 hours), to 2 (12 hours) and to the target 1 (9 hours); from 0 and 2 to 3 (1 hour);
from 3 to 4 (1 hour before 10 o'clock, then 5 hours, less after 20 o'clock); from 4 to 1 (1 hour). -/
def slowTime (t : Nat) : Nat := if t % PERIOD < 10 * H then H else if t % PERIOD < 20 * H then 5 * H else 25 * H - t % PERIOD
def slow (t : Nat) : Nat := t + slowTime t
def F (u v : Nat) (f : Nat → Nat) : Prop :=
  (u = 5 ∧ v = 0 ∧ f = (· + 4 * H)) ∨ (u = 5 ∧ v = 3 ∧ f = (· + 10 * H)) ∨ (u = 5 ∧ v = 2 ∧ f = (· + 12 * H)) ∨ (u = 5 ∧ v = 1 ∧ f = (· + 9 * H)) ∨
  (u = 0 ∧ v = 3 ∧ f = (· + H)) ∨ (u = 2 ∧ v = 3 ∧ f = (· + H)) ∨ (u = 3 ∧ v = 4 ∧ f = slow) ∨ (u = 4 ∧ v = 1 ∧ f = (· + H))

/-- The hierarchy, with shortcuts from 5 to 3 (by way of 0) and from 5 to 4. One metric from 10 to 20 o'clock, the other one for the rest of the day. -/
def d : Data where
  mmFw := ⟨[0, 1, 1, 2, 3, 3, 3], [3, 3, 4], [bd 1 9, bd 1 1, bd 1 5]⟩
  mmBw := ⟨[0, 1, 3, 4, 5, 6, 6], [5, 4, 5, 5, 5, 5], [bd 4 4, bd 1 1, bd 9 16, bd 12 12, bd 5 10, bd 6 15]⟩
  tree := [some 2, some 4, some 3, some 4, some 5, none]
  fwFirst := [0, 1, 1, 2, 3, 3, 3]
  fwHead := [3, 3, 4]
  bwFirst := [0, 1, 3, 4, 5, 6, 6]
  bwHead := [5, 4, 5, 5, 5, 5]
  fwWeights := [H, H, H, H, H, 5 * H]
  bwWeights := [4 * H, H, 9 * H, 12 * H, 5 * H, 6 * H, 4 * H, H, 9 * H, 12 * H, 5 * H, 6 * H]
  bucketToMetric := List.replicate 10 0 ++ List.replicate 10 1 ++ List.replicate 4 0

/-- Without the question for 2 the last answer is right: 3 hours. -/
example : answers d 6 5 1 0 [(5, 0), (3, 10 * H), (0, 4 * H)] = some [some (7 * H), some (6 * H), some (3 * H)] := by decide +kernel

theorem slow_ge (t : Nat) : t + H ≤ slow t ∧ slow t ≤ t + 5 * H := by
  unfold slow slowTime H PERIOD; split
  · omega
  · split <;> omega

theorem table : ∀ r < 24, ∀ e < 3, bucketWeight d d.fwWeights d.fwHead.length r e = some (if e = 2 ∧ 10 ≤ r ∧ r < 20 then 5 * H else H) := by decide +kernel

theorem weight_eq (idx e : Nat) (he : e < 3) : bucketWeight d d.fwWeights d.fwHead.length idx e =
    some (if e = 2 ∧ 10 ≤ idx % 24 ∧ idx % 24 < 20 then 5 * H else H) := by
  have h := table (idx % 24) (Nat.mod_lt _ (by omega)) e he
  have hl : d.bucketToMetric.length = 24 := rfl
  unfold bucketWeight at h ⊢
  rw [hl] at h ⊢
  rw [Nat.mod_mod] at h
  exact h

theorem means_of {x y l u : Nat} (h : ∀ t, ∃ a, TWalk F x t y a ∧ t + l * H ≤ a ∧ a ≤ t + u * H) : Means (fun x y t a => TWalk F x t y a) 0 x y (bd l u) :=
  ⟨fun _ t _ => h t, fun _ t _ => h t⟩

theorem one {u v : Nat} {f : Nat → Nat} (h : F u v f) (t : Nat) : TWalk F u t v (f t) := .snoc .nil h

theorem fits : Fits d F := by
  refine ⟨?_, ?_, ?_, ?_, ?_⟩
  · intro u v f h t
    rcases h with ⟨_, _, rfl⟩ | ⟨_, _, rfl⟩ | ⟨_, _, rfl⟩ | ⟨_, _, rfl⟩ | ⟨_, _, rfl⟩ | ⟨_, _, rfl⟩ | ⟨_, _, rfl⟩ | ⟨_, _, rfl⟩
    all_goals first
      | exact ⟨by simp, by simp only; omega⟩
      | skip
    refine ⟨by have := slow_ge t; omega, ?_⟩
    unfold slow slowTime
    simp only [Nat.add_mod_right]
    split
    · omega
    · split <;> omega
  · intro u v f h t t' htt
    rcases h with ⟨_, _, rfl⟩ | ⟨_, _, rfl⟩ | ⟨_, _, rfl⟩ | ⟨_, _, rfl⟩ | ⟨_, _, rfl⟩ | ⟨_, _, rfl⟩ | ⟨_, _, rfl⟩ | ⟨_, _, rfl⟩
    all_goals first
      | (simp only; omega)
      | skip
    unfold slow slowTime H PERIOD
    split <;> split <;> (try split) <;> (try split) <;> omega
  · intro u v e ls hls hm
    rcases u with _ | _ | _ | _ | _ | _ | u
    · simp [arcs, d, slice] at hls; subst hls; simp at hm; obtain ⟨rfl, rfl⟩ := hm
      refine ⟨_, .inr (.inr (.inr (.inr (.inl ⟨rfl, rfl, rfl⟩)))), fun t w hw => ?_⟩
      rw [weight_eq _ _ (by omega)] at hw; simp at hw; subst hw; simp
    · simp [arcs, d, slice] at hls; subst hls; simp at hm
    · simp [arcs, d, slice] at hls; subst hls; simp at hm; obtain ⟨rfl, rfl⟩ := hm
      refine ⟨_, .inr (.inr (.inr (.inr (.inr (.inl ⟨rfl, rfl, rfl⟩))))), fun t w hw => ?_⟩
      rw [weight_eq _ _ (by omega)] at hw; simp at hw; subst hw; simp
    · simp [arcs, d, slice] at hls; subst hls; simp at hm; obtain ⟨rfl, rfl⟩ := hm
      refine ⟨_, .inr (.inr (.inr (.inr (.inr (.inr (.inl ⟨rfl, rfl, rfl⟩)))))), fun t w hw => ?_⟩
      rw [weight_eq _ _ (by omega)] at hw
      have hb : bucket d t = t * 24 / PERIOD := rfl
      rw [hb] at hw
      simp only [Option.some.injEq, true_and] at hw
      have := slow_ge t
      split at hw
      · subst hw
        unfold slow slowTime H PERIOD at *
        split
        · omega
        · split <;> omega
      · omega
    · simp [arcs, d, slice] at hls; subst hls; simp at hm
    · simp [arcs, d, slice] at hls; subst hls; simp at hm
    · simp [arcs, d] at hls
  · rintro u v b ⟨ls, hls, hm⟩
    rcases u with _ | _ | _ | _ | _ | _ | u <;> simp [BGraph.links, d, slice] at hls <;> subst hls <;> simp at hm <;> obtain ⟨rfl, rfl⟩ := hm
    · exact means_of fun t => ⟨_, one (.inr (.inr (.inr (.inr (.inl ⟨rfl, rfl, rfl⟩))))) t, by omega, by omega⟩
    · exact means_of fun t => ⟨_, one (.inr (.inr (.inr (.inr (.inr (.inl ⟨rfl, rfl, rfl⟩)))))) t, by omega, by omega⟩
    · exact means_of fun t => ⟨_, one (.inr (.inr (.inr (.inr (.inr (.inr (.inl ⟨rfl, rfl, rfl⟩))))))) t, by have := slow_ge t; omega, by have := slow_ge t; omega⟩
  · rintro u v b ⟨ls, hls, hm⟩
    rcases u with _ | _ | _ | _ | _ | _ | u <;> simp [BGraph.links, d, slice] at hls <;> subst hls <;> simp at hm
    · obtain ⟨rfl, rfl⟩ := hm
      exact means_of fun t => ⟨_, one (.inl ⟨rfl, rfl, rfl⟩) t, by omega, by omega⟩
    · rcases hm with ⟨rfl, rfl⟩ | ⟨rfl, rfl⟩
      · exact means_of fun t => ⟨_, one (.inr (.inr (.inr (.inr (.inr (.inr (.inr ⟨rfl, rfl, rfl⟩))))))) t, by omega, by omega⟩
      · exact means_of fun t => ⟨_, one (.inr (.inr (.inr (.inl ⟨rfl, rfl, rfl⟩)))) t, by omega, by omega⟩
    · obtain ⟨rfl, rfl⟩ := hm
      exact means_of fun t => ⟨_, one (.inr (.inr (.inl ⟨rfl, rfl, rfl⟩))) t, by omega, by omega⟩
    · obtain ⟨rfl, rfl⟩ := hm
      exact means_of fun t => ⟨_, one (.inr (.inl ⟨rfl, rfl, rfl⟩)) t, by omega, by omega⟩
    · obtain ⟨rfl, rfl⟩ := hm
      refine means_of fun t => ⟨_, (one (.inr (.inl ⟨rfl, rfl, rfl⟩)) t).snoc (.inr (.inr (.inr (.inr (.inr (.inr (.inl ⟨rfl, rfl, rfl⟩))))))), ?_, ?_⟩
      · have := slow_ge (t + 10 * H); omega
      · have := slow_ge (t + 10 * H); omega

/-- the roads as arrays, for the search -/
def firstOut : List Nat := [0, 1, 1, 2, 3, 4, 8]
def head : List Nat := [3, 3, 4, 1, 3, 2, 0, 1]
def time (e t : Nat) : Nat := if e = 2 then slowTime t else if e = 4 then 10 * H else if e = 5 then 12 * H else if e = 6 then 4 * H else if e = 7 then 9 * H else H

theorem roads (u v : Nat) (f : Nat → Nat) : TimedArc firstOut head (fun e t x => some (time e t) = some x) u v f ↔ F u v f := by
  constructor
  · rintro ⟨a, b, e, h1, h2, h3, h4, h5, h6⟩
    have hf : f = fun t => t + time e t := by
      funext t; obtain ⟨x, hx, he⟩ := h6 t
      rw [he]; simp only [Option.some.injEq] at hx; rw [hx]
    clear h6
    subst hf
    rcases u with _ | _ | _ | _ | _ | _ | u <;> simp [firstOut] at h1 h2 <;> subst h1 h2
    · obtain rfl : e = 0 := by omega
      simp [head] at h5; subst h5; exact .inr (.inr (.inr (.inr (.inl ⟨rfl, rfl, by funext t; simp [time, slow]⟩))))
    · omega
    · obtain rfl : e = 1 := by omega
      simp [head] at h5; subst h5; exact .inr (.inr (.inr (.inr (.inr (.inl ⟨rfl, rfl, by funext t; simp [time, slow]⟩)))))
    · obtain rfl : e = 2 := by omega
      simp [head] at h5; subst h5; exact .inr (.inr (.inr (.inr (.inr (.inr (.inl ⟨rfl, rfl, by funext t; simp [time, slow]⟩))))))
    · obtain rfl : e = 3 := by omega
      simp [head] at h5; subst h5; exact .inr (.inr (.inr (.inr (.inr (.inr (.inr ⟨rfl, rfl, by funext t; simp [time, slow]⟩))))))
    · have : e = 4 ∨ e = 5 ∨ e = 6 ∨ e = 7 := by omega
      rcases this with rfl | rfl | rfl | rfl
      · simp [head] at h5; subst h5; exact .inr (.inl ⟨rfl, rfl, by funext t; simp [time, slow]⟩)
      · simp [head] at h5; subst h5; exact .inr (.inr (.inl ⟨rfl, rfl, by funext t; simp [time, slow]⟩))
      · simp [head] at h5; subst h5; exact .inl ⟨rfl, rfl, by funext t; simp [time, slow]⟩
      · simp [head] at h5; subst h5; exact .inr (.inr (.inr (.inl ⟨rfl, rfl, by funext t; simp [time, slow]⟩)))
  · rintro (⟨rfl, rfl, rfl⟩ | ⟨rfl, rfl, rfl⟩ | ⟨rfl, rfl, rfl⟩ | ⟨rfl, rfl, rfl⟩ | ⟨rfl, rfl, rfl⟩ | ⟨rfl, rfl, rfl⟩ | ⟨rfl, rfl, rfl⟩ | ⟨rfl, rfl, rfl⟩)
    · exact ⟨4, 8, 6, rfl, rfl, by omega, by omega, rfl, fun t => ⟨_, rfl, by simp [time, slow]⟩⟩
    · exact ⟨4, 8, 4, rfl, rfl, by omega, by omega, rfl, fun t => ⟨_, rfl, by simp [time, slow]⟩⟩
    · exact ⟨4, 8, 5, rfl, rfl, by omega, by omega, rfl, fun t => ⟨_, rfl, by simp [time, slow]⟩⟩
    · exact ⟨4, 8, 7, rfl, rfl, by omega, by omega, rfl, fun t => ⟨_, rfl, by simp [time, slow]⟩⟩
    · exact ⟨0, 1, 0, rfl, rfl, by omega, by omega, rfl, fun t => ⟨_, rfl, by simp [time, slow]⟩⟩
    · exact ⟨1, 2, 1, rfl, rfl, by omega, by omega, rfl, fun t => ⟨_, rfl, by simp [time, slow]⟩⟩
    · exact ⟨2, 3, 2, rfl, rfl, by omega, by omega, rfl, fun t => ⟨_, rfl, by simp [time, slow]⟩⟩
    · exact ⟨3, 4, 3, rfl, rfl, by omega, by omega, rfl, fun t => ⟨_, rfl, by simp [time, slow]⟩⟩

end IntervalMinExample

/-- **C89** does not hold: there are roads and data of the potential that fits them, and questions for nodes at times at which they are
reached from the source, such that the last answer is larger than the remaining travel time (7 hours instead of 3). -/
theorem C89_not_a_lower_bound : ∃ (F : Nat → Nat → (Nat → Nat) → Prop) (d : Data) (n source target departure : Nat) (qs : List (Nat × Nat)) (v t : Nat)
    (outs : List (Option Nat)) (p b : Nat), Fits d F ∧ (∀ q ∈ qs ++ [(v, t)], TWalk F source departure q.1 q.2) ∧
    answers d n source target departure (qs ++ [(v, t)]) = some (outs ++ [some p]) ∧ outs.length = qs.length ∧
    TWalk F v t target b ∧ b < t + p := by
  refine ⟨IntervalMinExample.F, IntervalMinExample.d, 6, 5, 1, 0, [(5, 0), (3, 10 * IntervalMinExample.H), (2, 12 * IntervalMinExample.H)], 0, 4 * IntervalMinExample.H,
    [some (7 * IntervalMinExample.H), some (6 * IntervalMinExample.H), some (7 * IntervalMinExample.H)], 7 * IntervalMinExample.H, 7 * IntervalMinExample.H,
    IntervalMinExample.fits, ?_, by decide +kernel, rfl, ?_, by decide⟩
  · intro q hq
    simp at hq
    rcases hq with rfl | rfl | rfl | rfl
    · exact .nil
    · have := TWalk.snoc (F := IntervalMinExample.F) (s := 5) (τ := 0) .nil (.inr (.inl ⟨rfl, rfl, rfl⟩))
      simpa using this
    · have := TWalk.snoc (F := IntervalMinExample.F) (s := 5) (τ := 0) .nil (.inr (.inr (.inl ⟨rfl, rfl, rfl⟩)))
      simpa using this
    · have := TWalk.snoc (F := IntervalMinExample.F) (s := 5) (τ := 0) .nil (.inl ⟨rfl, rfl, rfl⟩)
      simpa using this
  · have h1 := TWalk.snoc (F := IntervalMinExample.F) (s := 0) (τ := 4 * IntervalMinExample.H) .nil (.inr (.inr (.inr (.inr (.inl ⟨rfl, rfl, rfl⟩)))))
    have h2 := h1.snoc (.inr (.inr (.inr (.inr (.inr (.inr (.inl ⟨rfl, rfl, rfl⟩)))))))
    have h3 := h2.snoc (.inr (.inr (.inr (.inr (.inr (.inr (.inr ⟨rfl, rfl, rfl⟩)))))))
    exact h3

/-- **C89**, the consequence for queries: with data of the potential that fits the roads, time-dependent A* with this potential can report
a travel time although there is a faster trip (9 hours instead of 7). -/
theorem C89_slower_trip : ∃ (firstOut head : List Nat) (time : Nat → Nat → Nat) (d : Data) (n source target departure fuel p b : Nat),
    Fits d (TimedArc firstOut head (fun e t x => some (time e t) = some x)) ∧
    (TdAStar.queries fuel n ⟨false, false⟩ ⟨TD.links firstOut head, fun _ => some .greaterEqFour⟩ (TD.ops (fun e t => some (time e t))) (tdPot d)
      (DData.new n ()) (IState.new n) [(source, departure, target)]).map Prod.fst = some [some p] ∧
    TWalk (TimedArc firstOut head (fun e t x => some (time e t) = some x)) source departure target b ∧ b < departure + p := by
  have hr : TimedArc IntervalMinExample.firstOut IntervalMinExample.head (fun e t x => some (IntervalMinExample.time e t) = some x) = IntervalMinExample.F := by
    funext u v f; exact propext (IntervalMinExample.roads u v f)
  refine ⟨IntervalMinExample.firstOut, IntervalMinExample.head, IntervalMinExample.time, IntervalMinExample.d, 6, 5, 1, 0, 20, 9 * IntervalMinExample.H, 7 * IntervalMinExample.H, ?_, ?_, ?_, by decide⟩
  · rw [hr]; exact IntervalMinExample.fits
  · decide +kernel
  · rw [hr]
    have h0 := TWalk.snoc (F := IntervalMinExample.F) (s := 5) (τ := 0) .nil (.inl ⟨rfl, rfl, rfl⟩)
    have h1 := h0.snoc (.inr (.inr (.inr (.inr (.inl ⟨rfl, rfl, rfl⟩)))))
    have h2 := h1.snoc (.inr (.inr (.inr (.inr (.inr (.inr (.inl ⟨rfl, rfl, rfl⟩)))))))
    have h3 := h2.snoc (.inr (.inr (.inr (.inr (.inr (.inr (.inr ⟨rfl, rfl, rfl⟩)))))))
    exact h3

end Verif
