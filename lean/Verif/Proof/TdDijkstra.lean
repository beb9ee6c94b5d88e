import Verif.Model.TdDijkstra
import Verif.Spec.TimedPaths
import Verif.Proof.PlfBounds
import Verif.Proof.DijkstraStatic
import Verif.Proof.TailMapper
set_option linter.unusedSimpArgs false
set_option linter.unusedVariables false
/- Dijkstra on time-dependent graphs. -/
namespace Verif.TD
open Spec

/-- the arrays form a graph -/
def TopoOK (firstOut head : List Nat) : Prop := (⟨firstOut, head, List.replicate head.length 0⟩ : FOGraph).WF

section
variable {fo hd : List Nat}

theorem TopoOK.range (h : TopoOK fo hd) {v : Nat} (hv : v < fo.length - 1) :
    ∃ a b, fo[v]? = some a ∧ fo[v + 1]? = some b ∧ a ≤ b ∧ b ≤ hd.length := by
  have e1 : fo[v]? = some (fo[v]'(by omega)) := List.getElem?_eq_getElem _
  have e2 : fo[v + 1]? = some (fo[v + 1]'(by omega)) := List.getElem?_eq_getElem _
  exact ⟨_, _, e1, e2, h.mono v _ _ e1 e2, h.le_m (i := v + 1) e2⟩

theorem mem_links {v : Nat} {ls : List (Nat × Nat)} (h : links fo hd v = some ls) (w e : Nat) :
    (w, e) ∈ ls ↔ ∃ a b, fo[v]? = some a ∧ fo[v + 1]? = some b ∧ a ≤ e ∧ e < b ∧ hd[e]? = some w := by
  unfold links at h
  cases ha : fo[v]? with
  | none => simp [ha] at h
  | some a =>
  cases hb : fo[v + 1]? with
  | none => simp [ha, hb] at h
  | some b =>
  simp only [ha, hb, Option.bind_eq_bind, Option.bind_some] at h
  cases hs : slice hd a b with
  | none => simp [hs] at h
  | some s =>
  simp only [hs, Option.bind_some, Option.pure_def] at h
  injection h with h; subst h
  have hlen : s.length = b - a ∧ a ≤ b ∧ b ≤ hd.length := by
    unfold slice at hs
    split at hs
    · injection hs with hs; subst hs; simp; omega
    · cases hs
  have hget : ∀ j, j < b - a → hd[a + j]? = s[j]? := by
    intro j hj
    unfold slice at hs
    split at hs
    · injection hs with hs; subst hs
      rw [List.getElem?_take_of_lt hj, List.getElem?_drop]
    · cases hs
  rw [List.mem_iff_getElem?]
  constructor
  · rintro ⟨j, hj⟩
    rw [List.getElem?_zip_eq_some] at hj
    obtain ⟨h1, h2⟩ := hj
    have hjl := (List.getElem?_eq_some_iff.1 h1).1
    simp only [List.getElem?_map, List.getElem?_range (show j < b - a by omega), Option.map_some, Option.some.injEq] at h2
    refine ⟨a, b, rfl, rfl, by omega, by omega, ?_⟩
    rw [← h2, Nat.add_comm, hget j (by omega)]; exact h1
  · rintro ⟨a', b', h1, h2, h3, h4, h5⟩
    injection h1 with h1; injection h2 with h2; subst h1; subst h2
    refine ⟨e - a, ?_⟩
    rw [List.getElem?_zip_eq_some]
    refine ⟨?_, ?_⟩
    · rw [← hget _ (by omega), show a + (e - a) = e by omega]; exact h5
    · simp only [List.getElem?_map, List.getElem?_range (show e - a < b - a by omega), Option.map_some, Option.some.injEq]; omega

theorem TopoOK.total (h : TopoOK fo hd) {v : Nat} (hv : v < fo.length - 1) : ∃ ls, links fo hd v = some ls := by
  obtain ⟨a, b, h1, h2, h3, h4⟩ := h.range hv
  exact ⟨(List.take (b - a) (List.drop a hd)).zip (List.map (fun x => x + a) (List.range (b - a))), by simp only [links, h1, h2, slice_eq h3 h4, Option.bind_eq_bind, Option.bind_some, Option.pure_def]⟩

theorem TopoOK.edge (h : TopoOK fo hd) {u a b e : Nat} (h1 : fo[u]? = some a) (h2 : fo[u + 1]? = some b) (h3 : a ≤ e) (h4 : e < b) : e < hd.length := by
  have := h.le_m (i := u + 1) h2
  exact Nat.lt_of_lt_of_le h4 this

/-- What is needed of the evaluation of arcs: it succeeds and does not overflow for departures before `INFINITY`, with FIFO values. -/
structure EvOK (m : Nat) (ev : Nat → Nat → Option Nat) (val : Nat → Nat → Nat) : Prop where
  ok : ∀ e l, e < m → l < INFINITY → ev e l = some (val e l) ∧ l + val e l < U32
  fifo : ∀ e, e < m → Fifo (val e)

/-- the problem for the generic search -/
def prob (fo hd : List Nat) (ev : Nat → Nat → Option Nat) (val : Nat → Nat → Nat) (pi : Nat → Nat) : Prob (Nat × Nat) Unit :=
  ⟨fo.length - 1, links fo hd, ops ev, fun b l => l + val b.2 l, pi⟩

theorem prob_F (h : TopoOK fo hd) {ev : Nat → Nat → Option Nat} {val : Nat → Nat → Nat} {pi : Nat → Nat} :
    (prob fo hd ev val pi).F = TimedArc fo hd (fun e t d => d = val e t) := by
  funext u v f
  apply propext
  constructor
  · rintro ⟨ls, ⟨w, e⟩, h1, h2, h3, rfl⟩
    obtain ⟨a, b, h4, h5, h6, h7, h8⟩ := (mem_links h1 w e).1 h2
    have hw : w = v := h3
    subst hw
    exact ⟨a, b, e, h4, h5, h6, h7, h8, fun t => ⟨_, rfl, rfl⟩⟩
  · rintro ⟨a, b, e, h4, h5, h6, h7, h8, h9⟩
    have hu : u < fo.length - 1 := by have := (List.getElem?_eq_some_iff.1 h5).1; omega
    obtain ⟨ls, h1⟩ := h.total hu
    refine ⟨ls, (v, e), h1, (mem_links h1 v e).2 ⟨a, b, h4, h5, h6, h7, h8⟩, rfl, ?_⟩
    funext t
    obtain ⟨d, rfl, h11⟩ := h9 t
    exact h11

theorem prob_ok (h : TopoOK fo hd) {ev : Nat → Nat → Option Nat} {val : Nat → Nat → Nat} {pi : Nat → Nat} (hev : EvOK hd.length ev val)
    (hf : ∀ u v e a b, fo[u]? = some a → fo[u + 1]? = some b → a ≤ e → e < b → hd[e]? = some v → ∀ l, l < INFINITY → pi u < INFINITY → pi u ≤ val e l + pi v) :
    (prob fo hd ev val pi).OK where
  total := fun v hv => h.total hv
  heads := by
    rintro v ls ⟨w, e⟩ h1 h2
    obtain ⟨a, b, h4, h5, h6, h7, h8⟩ := (mem_links h1 w e).1 h2
    exact h.heads w (List.mem_of_getElem? h8)
  link := by
    rintro v ls ⟨w, e⟩ l h1 h2 h3
    obtain ⟨a, b, h4, h5, h6, h7, h8⟩ := (mem_links h1 w e).1 h2
    obtain ⟨h9, h10⟩ := hev.ok e l (h.edge h4 h5 h6 h7) h3
    simp only [prob, ops, h9, Option.bind_eq_bind, Option.bind_some]
    exact add32_of_lt h10
  mono := by
    rintro v ls ⟨w, e⟩ l l' h1 h2 h3 h4
    obtain ⟨a, b, h4, h5, h6, h7, h8⟩ := (mem_links h1 w e).1 h2
    exact hev.fifo e (h.edge h4 h5 h6 h7) l l' h3
  ge := by rintro v ls ⟨w, e⟩ l h1 h2; simp only [prob]; omega
  feas := by
    rintro v ls ⟨w, e⟩ l h1 h2 h3 h4
    obtain ⟨a, b, h5, h6, h7, h8, h9⟩ := (mem_links h1 w e).1 h2
    have := hf v w e a b h5 h6 h7 h8 h9 l h3 h4
    simp only [prob, ops] at *; omega

theorem apath_timed (h : TopoOK fo hd) {ev : Nat → Nat → Option Nat} {val : Nat → Nat → Nat} {pi : Nat → Nat} {s τ : Nat} {ns : List Nat}
    {as : List (Nat × Nat)} {x : Nat} (hp : DData.APath (prob fo hd ev val pi) s τ ns as x) :
    TPathOf (TimedArc fo hd (fun e t d => d = val e t)) s τ ns x := by
  rw [← prob_F h (ev := ev) (pi := pi)]
  induction hp with
  | nil => exact .single
  | snoc _ h1 h2 ih => exact .snoc ih ⟨_, _, h1, h2, rfl, rfl⟩

/-- the search with a potential, on any data a server may hold -/
theorem distance_spec (h : TopoOK fo hd) {ev : Nat → Nat → Option Nat} {val : Nat → Nat → Nat} (hev : EvOK hd.length ev val)
    {σ : Type} {pot : σ → Nat → Option (σ × Option Nat)} {I : σ → Prop} {π : Nat → Option Nat}
    (hpot : ∀ c v, I c → v < fo.length - 1 → ∃ c', pot c v = some (c', π v) ∧ I c')
    (hbound : ∀ v x, π v = some x → x < INFINITY)
    {s τ t : Nat} (hs : s < fo.length - 1) (hτ : τ < INFINITY)
    (hfeas : ∀ u v f pu pv l, TimedArc fo hd (fun e t d => d = val e t) u v f → π u = some pu → π v = some pv → l < INFINITY → l + pu ≤ f l + pv)
    (hreach : ∀ u a x, TWalk (TimedArc fo hd (fun e t d => d = val e t)) u a t x → x < INFINITY → π u ≠ none)
    {c : σ} (hc : I c) {d0 : DData Unit} {a0 : Abs Unit} (hd0 : DData.Refines (fo.length - 1) d0 a0) :
    ∃ r d c' a, distance fo hd ev pot d0 c s τ t = some (r, d, c') ∧ I c' ∧ DData.Refines (fo.length - 1) d a ∧
      ArrivalAnswer (TimedArc fo hd (fun e t d => d = val e t)) s τ t r ∧
      ∀ x, r = some x → ∃ ns, d.nodePath s t = some (ns ++ [t]) ∧ TPathOf (TimedArc fo hd (fun e t d => d = val e t)) s τ (ns ++ [t]) x := by
  let pi : Nat → Nat := fun v => (π v).getD INFINITY
  have hpi : ∀ v, pi v < INFINITY → π v = some (pi v) := by
    intro v h
    cases hv : π v with
    | none => simp [pi, hv] at h
    | some x => simp [pi, hv]
  have hp : (prob fo hd ev val pi).OK := by
    refine prob_ok h hev ?_
    intro u v e a b h1 h2 h3 h4 h5 l hl hu
    cases hv : π v with
    | none => simp [pi, hv]; simp [pi] at hu; omega
    | some x =>
      have := hfeas u v (fun t => t + val e t) _ x l ⟨a, b, e, h1, h2, h3, h4, h5, fun t => ⟨_, rfl, rfl⟩⟩ (hpi u hu) hv hl
      simp [pi, hv] at *; omega
  have hcb : DData.CbOK (prob fo hd ev val pi) s τ (DData.potCb pot) (fun c _ => I c) := by
    intro c D v l hI hv hl hinf _
    obtain ⟨c', h1, h2⟩ := hpot c v hI hv
    refine ⟨c', ?_, h2⟩
    simp only [DData.potCb, h1, Option.bind_eq_bind, Option.bind_some, prob]
    cases hx : π v with
    | none => simp [pi, hx]
    | some x =>
      have hlt := hbound v x hx
      have h3 : add32 x l = some (x + l) := add32_of_lt (by simp only [INFINITY, U32] at *; omega)
      simp [pi, hx, hlt, h3, Nat.add_comm]
  obtain ⟨r, d, c', a, S, h1, h2⟩ := DData.search_spec (t := t) (τ := τ) (c := c) hp hcb hd0 hs hτ hc
  refine ⟨r, d, c', a, by simpa only [distance, DData.distance, prob] using h1, h2.j, h2.refines, ?_, ?_⟩
  · rw [← prob_F h (ev := ev) (pi := pi)]
    apply h2.earliest hp
    intro u b x hwalk hx
    rw [prob_F h] at hwalk
    have := hreach u b x hwalk hx
    cases hv : π u with
    | none => exact absurd hv this
    | some y => have := hbound u y hv; simpa [prob, pi, hv] using this
  · intro x hx
    rcases h2.res with ⟨h3, h4⟩ | ⟨h3, h4, _⟩
    · obtain ⟨ns, as, h5, h6, _⟩ := DData.paths_of_settled h2.refines h2.inv h3
      rw [hx] at h4; injection h4 with h4
      exact ⟨ns, h6, h4 ▸ apath_timed h h5⟩
    · rw [hx] at h4; cases h4

theorem zero_spec (h : TopoOK fo hd) {ev : Nat → Nat → Option Nat} {val : Nat → Nat → Nat} (hev : EvOK hd.length ev val)
    {s τ t : Nat} (hs : s < fo.length - 1) (hτ : τ < INFINITY) {d0 : DData Unit} {a0 : Abs Unit} (hd0 : DData.Refines (fo.length - 1) d0 a0) :
    ∃ r d a, distance fo hd ev DData.zeroPot d0 () s τ t = some (r, d, ()) ∧ DData.Refines (fo.length - 1) d a ∧
      ArrivalAnswer (TimedArc fo hd (fun e t d => d = val e t)) s τ t r ∧
      ∀ x, r = some x → ∃ ns, d.nodePath s t = some (ns ++ [t]) ∧ TPathOf (TimedArc fo hd (fun e t d => d = val e t)) s τ (ns ++ [t]) x := by
  obtain ⟨r, d, c', a, h1, _, h2, h3, h4⟩ := distance_spec (pot := DData.zeroPot) (I := fun _ => True) (π := fun _ => some 0) (c := ()) (t := t) h hev
    (fun c v _ _ => ⟨(), rfl, trivial⟩) (by intro v x hx; injection hx with hx; subst hx; decide) hs hτ
    (by
      rintro u v f pu pv l ⟨a, b, e, _, _, _, _, _, h9⟩ h1 h2 _
      injection h1 with h1; injection h2 with h2
      obtain ⟨d, _, h10⟩ := h9 l
      omega) (by intro u a x _ _ h; cases h) trivial hd0
  exact ⟨r, d, a, h1, h2, h3, h4⟩

theorem queries_spec (h : TopoOK fo hd) {ev : Nat → Nat → Option Nat} {val : Nat → Nat → Nat} (hev : EvOK hd.length ev val)
    (qs : List (Nat × Nat × Nat)) (hq : ∀ q ∈ qs, q.1 < fo.length - 1 ∧ q.2.1 < INFINITY) :
    ∀ (d0 : DData Unit) (a0 : Abs Unit), DData.Refines (fo.length - 1) d0 a0 →
    ∃ rs d a, queries fo hd ev d0 qs = some (rs, d) ∧ DData.Refines (fo.length - 1) d a ∧
      List.Forall₂ (fun q r => ArrivalAnswer (TimedArc fo hd (fun e t d => d = val e t)) q.1 q.2.1 q.2.2 r) qs rs := by
  induction qs with
  | nil => intro d0 a0 hr; exact ⟨[], d0, a0, rfl, hr, .nil⟩
  | cons q qs ih =>
    intro d0 a0 hr
    obtain ⟨s, τ, t⟩ := q
    have hq0 := hq (s, τ, t) (by simp)
    obtain ⟨r, d, a, h1, h2, h3, _⟩ := zero_spec (t := t) h hev hq0.1 hq0.2 hr
    obtain ⟨rs, d', a', h4, h5, h6⟩ := ih (fun q h => hq q (by simp [h])) d a h2
    exact ⟨r :: rs, d', a', by simp [queries, h1, h4], h5, .cons h3 h6⟩
end

end Verif.TD
