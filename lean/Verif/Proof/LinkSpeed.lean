import Verif.Model.LinkSpeed
import Mathlib.Data.List.Nodup
/-
Helper lemmas for the estimation of link speeds (C69).
-/
set_option linter.unusedSimpArgs false
set_option linter.unusedVariables false

namespace Verif.LinkSpeed

variable {F32 F64 : Type}

/-- All events of a route: each link, followed by its traces. -/
def eventsOf (route : List (Link × List (Trace F32))) : List (Event F32) :=
  route.flatMap (fun x => .link x.1 :: x.2.map .trace)

/-- Every trace is tagged with the link it is on. -/
abbrev Tagged (route : List (Link × List (Trace F32))) : Prop := ∀ x ∈ route, ∀ t ∈ x.2, t.link = x.1.id

theorem traces_ne_nil {route : List (Link × List (Trace F32))} (h : ∀ x, route.getLast? = some x → x.2 ≠ [])
    (hne : route ≠ []) : route.flatMap Prod.snd ≠ [] := by
  intro h0
  obtain ⟨x, hx⟩ := List.getLast?_isSome.2 hne |> Option.isSome_iff_exists.1
  have hm := List.mem_of_getLast? hx
  exact h x hx (List.flatMap_eq_nil_iff.1 h0 x hm)

theorem tail_last {α : Type} {a : α} {l : List α} (P : α → Prop) (h : ∀ x, (a :: l).getLast? = some x → P x) :
    ∀ x, l.getLast? = some x → P x := by
  intro x hx
  apply h
  cases l with
  | nil => simp at hx
  | cons b l => simpa using hx

/-- The id of the first trace of a route is the id of one of its links. -/
theorem first_trace_mem {route : List (Link × List (Trace F32))} (ht : Tagged route) {t : Trace F32}
    (h : t ∈ route.flatMap Prod.snd) : t.link ∈ route.map (fun x => x.1.id) := by
  rw [List.mem_flatMap] at h
  obtain ⟨x, hx, hxt⟩ := h
  exact List.mem_map.2 ⟨x, hx, (ht x hx t hxt).symm⟩

theorem collect_traces (l : Nat) (rest : List (Link × List (Trace F32))) (nl : Option Link) (links : List Link)
    (hlast : ∀ x, rest.getLast? = some x → x.2 ≠ []) (htag : Tagged rest)
    (hnot : l ∉ rest.map (fun x => x.1.id))
    (ih : ∀ (fuel : Nat) (t : Trace F32) (traces : List (Trace F32)), (eventsOf rest).length + 1 ≤ fuel → rest ≠ [] →
      t :: traces = rest.flatMap Prod.snd →
      Events.collect fuel ⟨links, traces, false, nl, t, false⟩ = some (eventsOf rest)) :
    ∀ (ts : List (Trace F32)) (t : Trace F32) (fuel : Nat), (∀ x ∈ t :: ts, x.link = l) →
      ts.length + 1 + (eventsOf rest).length + 1 ≤ fuel →
      Events.collect fuel ⟨links, ts ++ rest.flatMap Prod.snd, true, nl, t, false⟩ =
        some ((t :: ts).map Event.trace ++ eventsOf rest) := by
  intro ts
  induction ts with
  | nil =>
    intro t fuel htl hf
    obtain ⟨fuel, rfl⟩ : ∃ k, fuel = k + 1 := ⟨fuel - 1, by omega⟩
    cases hr : rest.flatMap Prod.snd with
    | nil =>
      have : rest = [] := by
        by_contra hne
        exact traces_ne_nil hlast hne hr
      subst this
      obtain ⟨fuel, rfl⟩ : ∃ k, fuel = k + 1 := ⟨fuel - 1, by simp [eventsOf] at hf; omega⟩
      simp [Events.collect, Events.next, eventsOf]
    | cons t' traces =>
      have hm : t' ∈ rest.flatMap Prod.snd := by rw [hr]; simp
      have hne : rest ≠ [] := by rintro rfl; simp at hr
      have htl' : t.link = l := htl t (by simp)
      have hd : (t.link == t'.link) = false := by
        rw [htl']
        simp only [beq_eq_false_iff_ne, ne_eq]
        rintro rfl
        exact hnot (first_trace_mem htag hm)
      have := ih fuel t' traces (by simp at hf; omega) hne hr.symm
      simp [Events.collect, Events.next, hd, this]
  | cons t' ts ih' =>
    intro t fuel htl hf
    obtain ⟨fuel, rfl⟩ : ∃ k, fuel = k + 1 := ⟨fuel - 1, by omega⟩
    have h1 : t.link = l := htl t (by simp)
    have h2 : t'.link = l := htl t' (by simp)
    have := ih' t' fuel (fun x hx => htl x (by simp_all)) (by simp at hf; omega)
    simp [Events.collect, Events.next, h1, h2, this]

theorem collect_links : ∀ (route : List (Link × List (Trace F32))) (fuel : Nat) (t : Trace F32) (traces : List (Trace F32)),
    (eventsOf route).length + 1 ≤ fuel → route ≠ [] → t :: traces = route.flatMap Prod.snd → Tagged route →
    (route.map (fun x => x.1.id)).Nodup → (∀ x, route.getLast? = some x → x.2 ≠ []) →
    Events.collect fuel ⟨(route.map Prod.fst).tail, traces, false, (route.map Prod.fst).head?, t, false⟩ =
      some (eventsOf route) := by
  intro route
  induction route with
  | nil => intro _ _ _ _ h; exact absurd rfl h
  | cons x rest ih =>
    obtain ⟨l, ts⟩ := x
    intro fuel t traces hf _ hts htag hnd hlast
    obtain ⟨fuel, rfl⟩ : ∃ k, fuel = k + 1 := ⟨fuel - 1, by omega⟩
    have htag' : Tagged rest := fun x hx => htag x (by simp [hx])
    have hnd' := (List.nodup_cons.1 (by simpa only [List.map_cons] using hnd))
    have hlast' := tail_last (fun x : Link × List (Trace F32) => x.2 ≠ []) hlast
    have hlen : (eventsOf ((l, ts) :: rest)).length = 1 + ts.length + (eventsOf rest).length := by
      simp [eventsOf]; omega
    rw [hlen] at hf
    have ih' : ∀ (fuel : Nat) (t : Trace F32) (traces : List (Trace F32)), (eventsOf rest).length + 1 ≤ fuel → rest ≠ [] →
      t :: traces = rest.flatMap Prod.snd →
      Events.collect fuel ⟨(rest.map Prod.fst).tail, traces, false, (rest.map Prod.fst).head?, t, false⟩ = some (eventsOf rest) :=
      fun fuel t traces h1 h2 h3 => ih fuel t traces h1 h2 h3 htag' hnd'.2 hlast'
    cases ts with
    | nil =>
      simp only [List.flatMap_cons, List.nil_append] at hts
      have hne : rest ≠ [] := by rintro rfl; simp at hts
      have hm : t ∈ rest.flatMap Prod.snd := by rw [← hts]; simp
      have hd : (l.id == t.link) = false := by
        simp only [beq_eq_false_iff_ne, ne_eq]
        intro h
        exact hnd'.1 (h ▸ first_trace_mem htag' hm)
      have := ih' fuel t traces (by simp at hf; omega) hne hts
      simp only [List.map_cons, List.head?_cons, List.tail_cons]
      simp [Events.collect, Events.next, hd, this, eventsOf, -List.head?_map]
    | cons t0 ts =>
      simp only [List.flatMap_cons, List.cons_append, List.cons.injEq] at hts
      obtain ⟨rfl, rfl⟩ := hts
      have hall : ∀ x ∈ t :: ts, x.link = l.id := fun x hx => htag (l, t :: ts) (by simp) x hx
      have := collect_traces l.id rest _ _ hlast' htag' hnd'.1 ih' ts t fuel hall (by simp at hf; omega)
      have hd : t.link = l.id := hall t (by simp)
      simp only [List.map_cons, List.head?_cons, List.tail_cons]
      simp [Events.collect, Events.next, hd, this, eventsOf, -List.head?_map]

/-- The links of a state for which no estimate was given yet. -/
def pending : St F32 F64 → List Link
  | .init => []
  | .initialLink l => [l]
  | .initialTrace l _ => [l]
  | .afterInitial l _ ls => l :: ls
  | .withEntry l _ _ _ => [l]
  | .inter l _ _ _ ls => l :: ls

/-- Intermediate states have links. -/
def Sound : St F32 F64 → Prop
  | .afterInitial _ _ ls => ls ≠ []
  | .inter _ _ _ _ ls => ls ≠ []
  | .initialTrace l t => t.link = l.id
  | _ => True

/-- States in which the stream may end. -/
def Final : St F32 F64 → Prop
  | .withEntry _ _ _ _ => True
  | _ => False

/-- States before the first trace. -/
def Early : St F32 F64 → Prop
  | .init => True
  | .initialLink _ => True
  | _ => False

theorem scan_ids (F : Floats F32 F64) (f : F64) (n : Nat) : ∀ (ls : List Link) (e : Nat),
    (scanInter F f n e ls).map Estimate.link = ls.map Link.id := by
  intro ls
  induction ls with
  | nil => intro _; rfl
  | cons l ls ih => intro e; simp [scanInter, ih]

theorem onLink_spec (s : St F32 F64) (l : Link) (h : s = .init ∨ ¬ Early s) (hs : Sound s)
    (hd : l.id ∉ (pending s).map Link.id) :
    ∃ s', onLink s l = some (s', []) ∧ pending s' = pending s ++ [l] ∧ Sound s' ∧ (s = .init → s' = .initialLink l) ∧
      (s ≠ .init → ¬ Early s') := by
  cases s <;> simp_all [onLink, pending, Sound, Early]
  case initialTrace l0 t =>
    exact fun h => hd h.symm

theorem onTrace_spec (F : Floats F32 F64) (s : St F32 F64) (t : Trace F32) (hs : Sound s) (hi : s ≠ .init)
    (hl : ((pending s).getLast?.map Link.id) = some t.link) :
    ∃ s' out, onTrace F s t = some (s', out) ∧
      out.map Estimate.link ++ (pending s').map Link.id = (pending s).map Link.id ∧
      (pending s').getLast? = (pending s).getLast? ∧ Sound s' ∧ ¬ Early s' ∧ (¬ Early s → Final s') := by
  cases s
  case init => exact absurd rfl hi
  case initialLink l =>
    simp only [pending, List.getLast?_singleton, Option.map_some, Option.some.injEq] at hl
    exact ⟨.initialTrace l t, [], by simp [onTrace, hl], by simp [pending], by simp [pending], by simp [Sound, hl], by simp [Early], by simp [Early]⟩
  case initialTrace l t0 =>
    simp only [pending, List.getLast?_singleton, Option.map_some, Option.some.injEq] at hl
    simp only [Sound] at hs
    exact ⟨_, _, by simp [onTrace, hl, hs]; exact ⟨rfl, rfl⟩, by simp [pending], by simp [pending], by simp [Sound],
      by simp [Early], by simp [Early, Final]⟩
  case afterInitial l t0 ls =>
    simp only [Sound] at hs
    obtain ⟨x, hx⟩ := Option.isSome_iff_exists.1 (List.getLast?_isSome.2 hs)
    have hp : (l :: ls).getLast? = some x := by
      cases ls with
      | nil => exact absurd rfl hs
      | cons b ls => simpa using hx
    have hls : ls.dropLast ++ [x] = ls := List.dropLast_append_getLast? x hx
    simp only [pending, hp, Option.map_some, Option.some.injEq] at hl
    refine ⟨_, _, by simp [onTrace, hx, hl]; rfl, ?_, ?_, ?_, ?_, ?_⟩
    · simp only [traceAfterInitial, pending, List.map_cons, scan_ids, List.map_nil]
      rw [List.cons_append, ← List.map_singleton, ← List.map_append, hls]
    · simp [traceAfterInitial, pending, hp]
    · simp [traceAfterInitial, Sound]
    · simp [traceAfterInitial, Early]
    · simp [traceAfterInitial, Final]
  case withEntry l e last q =>
    simp only [pending, List.getLast?_singleton, Option.map_some, Option.some.injEq] at hl
    exact ⟨_, _, by simp [onTrace, hl]; exact ⟨rfl, rfl⟩, by simp [pending], by simp [pending], by simp [Sound],
      by simp [Early], by simp [Early, Final]⟩
  case inter l e last q ls =>
    simp only [Sound] at hs
    obtain ⟨x, hx⟩ := Option.isSome_iff_exists.1 (List.getLast?_isSome.2 hs)
    have hp : (l :: ls).getLast? = some x := by
      cases ls with
      | nil => exact absurd rfl hs
      | cons b ls => simpa using hx
    have hls : ls.dropLast ++ [x] = ls := List.dropLast_append_getLast? x hx
    simp only [pending, hp, Option.map_some, Option.some.injEq] at hl
    refine ⟨_, _, by simp [onTrace, hx, hl]; rfl, ?_, ?_, ?_, ?_, ?_⟩
    · simp only [traceInter, pending, List.map_cons, scan_ids, List.map_nil]
      rw [List.cons_append, ← List.map_singleton, ← List.map_append, hls]
    · simp [traceInter, pending, hp]
    · simp [traceInter, Sound]
    · simp [traceInter, Early]
    · simp [traceInter, Final]

/-- The traces of one link. -/
theorem run_traces (F : Floats F32 F64) (rest : List (Event F32)) : ∀ (ts : List (Trace F32)) (s : St F32 F64) (id : Nat),
    Sound s → s ≠ .init → ((pending s).getLast?.map Link.id) = some id → (∀ t ∈ ts, t.link = id) →
    ∃ s' out, run F s (ts.map Event.trace ++ rest) = (run F s' rest).map (out ++ ·) ∧
      out.map Estimate.link ++ (pending s').map Link.id = (pending s).map Link.id ∧
      Sound s' ∧ s' ≠ .init ∧ (ts ≠ [] → ¬ Early s') ∧ (¬ Early s → ¬ Early s') ∧
      (ts ≠ [] → (¬ Early s ∨ 2 ≤ ts.length) → Final s') ∧ (Final s → Final s') := by
  intro ts
  induction ts with
  | nil =>
    intro s id hs hi _ _
    refine ⟨s, [], ?_, by simp, hs, hi, by simp, fun h => h, by simp, fun h => h⟩
    cases h : run F s rest <;> simp [h]
  | cons t ts ih =>
    intro s id hs hi hl ht
    have ht0 : t.link = id := ht t (by simp)
    obtain ⟨s1, o1, h1, h2, h3, h4, h5, h6⟩ := onTrace_spec F s t hs hi (by rw [hl, ht0])
    have hi1 : s1 ≠ .init := by rintro rfl; exact h5 (by simp [Early])
    obtain ⟨s2, o2, j1, j2, j3, j4, j5, j6, j7, j8⟩ := ih s1 id h4 hi1 (by rw [h3, hl]) (fun x hx => ht x (by simp [hx]))
    refine ⟨s2, o1 ++ o2, ?_, ?_, j3, j4, fun _ => j6 h5, fun _ => j6 h5, ?_, ?_⟩
    · simp only [List.map_cons, List.cons_append, run, h1, j1, Option.bind_eq_bind, Option.bind_some]
      cases run F s2 rest <;> simp
    · rw [List.map_append, List.append_assoc, j2, h2]
    · intro _ hh
      cases ts with
      | cons t2 ts2 => exact j7 (by simp) (Or.inl h5)
      | nil =>
        refine j8 (h6 ?_)
        rcases hh with hh | hh
        · exact hh
        · simp at hh
    · intro hfin
      exact j8 (h6 (by cases s <;> simp_all [Final, Early]))

/-- A route from a state in which links are pending. -/
theorem run_route (F : Floats F32 F64) : ∀ (route : List (Link × List (Trace F32))) (s : St F32 F64),
    Sound s → (s = .init ∨ ¬ Early s) → ((pending s).map Link.id ++ route.map (fun x => x.1.id)).Nodup → Tagged route →
    (s = .init → ∀ x, route.head? = some x → x.2 ≠ []) →
    (s = .init → ∀ x, route = [x] → 2 ≤ x.2.length) →
    (s = .init → route ≠ []) →
    (∀ x, route.getLast? = some x → x.2 ≠ []) → (route = [] → Final s) →
    ∃ out, run F s (eventsOf route) = some out ∧
      out.map Estimate.link = (pending s).map Link.id ++ route.map (fun x => x.1.id) := by
  intro route
  induction route with
  | nil =>
    intro s _ _ _ _ _ _ _ _ hfin
    have := hfin rfl
    cases s <;> simp_all [Final, run, eventsOf, onDone, pending]
  | cons x rest ih =>
    obtain ⟨l, ts⟩ := x
    intro s hs he hnd htag hhead hone hne hlast _
    simp only [List.map_cons] at hnd
    have hd : l.id ∉ (pending s).map Link.id := by
      intro h
      exact (List.nodup_append.1 hnd).2.2 _ h _ (by simp) rfl
    obtain ⟨s1, h1, h2, h3, h4, h5⟩ := onLink_spec s l he hs hd
    have hi1 : s1 ≠ .init := by rintro rfl; simp [pending] at h2
    obtain ⟨s2, o2, j1, j2, j3, j4, j5, j6, j7, j8⟩ := run_traces F (eventsOf rest) ts s1 l.id h3 hi1
      (by rw [h2]; simp) (fun t ht => htag (l, ts) (by simp) t ht)
    have hE1 : s = .init → ts ≠ [] := fun h => hhead h (l, ts) (by simp)
    have hE2 : ¬ Early s2 := by
      by_cases h : s = .init
      · exact j5 (hE1 h)
      · exact j6 (h5 h)
    have hids : (pending s).map Link.id ++ l.id :: rest.map (fun x => x.1.id) =
        o2.map Estimate.link ++ ((pending s2).map Link.id ++ rest.map (fun x => x.1.id)) := by
      rw [← List.append_assoc, j2, h2]; simp
    obtain ⟨o3, k1, k2⟩ := ih s2 j3 (Or.inr hE2)
      (by rw [hids] at hnd; exact (List.nodup_append.1 hnd).2.1)
      (fun x hx => htag x (by simp [hx])) (fun h => absurd h j4) (fun h => absurd h j4) (fun h => absurd h j4)
      (tail_last (fun x : Link × List (Trace F32) => x.2 ≠ []) hlast)
      (by
        rintro rfl
        have hts : ts ≠ [] := hlast (l, ts) (by simp)
        refine j7 hts ?_
        by_cases h : s = .init
        · exact Or.inr (hone h (l, ts) rfl)
        · exact Or.inl (h5 h))
    refine ⟨o2 ++ o3, ?_, ?_⟩
    · have : eventsOf ((l, ts) :: rest) = .link l :: (ts.map Event.trace ++ eventsOf rest) := by simp [eventsOf]
      rw [this]
      simp only [run, h1, j1, k1, Option.bind_eq_bind, Option.bind_some, Option.map_some, List.nil_append, Option.pure_def]
    · simp only [List.map_append, List.map_cons, k2, hids]

theorem eventsOf_length (route : List (Link × List (Trace F32))) :
    (eventsOf route).length = route.length + (route.flatMap Prod.snd).length := by
  induction route with
  | nil => rfl
  | cons x r ih =>
    have : eventsOf (x :: r) = (.link x.1 :: x.2.map Event.trace) ++ eventsOf r := by simp [eventsOf]
    simp [this, ih]; omega

end Verif.LinkSpeed
