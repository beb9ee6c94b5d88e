import Verif.Proof.FtdStands
import Verif.Props.Ftd
/- C81: the pre-customization of CATCHUp. -/
namespace Verif
open Spec Fl Catchup Ftd

/-- The pre-customization does not panic. The shortcuts it keeps have valid bounds: everything a shortcut stands for takes at least the lower bound, and there is always
a trip that takes at most the upper bound. Shortcuts marked as constant stand for something that always takes as long as the lower bound says. A shortcut that is switched off is useless:
at any time there is a trip that is faster, by more than the tolerance, than everything the shortcut stands for. Partial: exact arithmetic, nodes are processed one after the other. -/
theorem C81_bounds_partial {c : Cfg} {arcs : List (Nat × Nat)} {n : Nat} {parent : Nat → Option Nat} (hT : HierarchyOK arcs n parent) (hS : HeadsSorted arcs)
    {roads : List (Nat × Nat × (Rat → Rat))} {fwd bwd : List (List Nat)} (hr : RoadsOK roads c.ttf arcs fwd bwd) (hfin : ∀ r ∈ roads, ∀ τ, r.2.2 τ < INF) {eps : Rat} (heps : 0 ≤ eps) :
    ∃ up down st, applyWeights c.ttf fwd = some up ∧ applyWeights c.ttf bwd = some down ∧ precustomize eps arcs n (up, down) = some st ∧
      st.1.length = arcs.length ∧ st.2.length = arcs.length ∧
      ∀ (dir : Bool) (i : Nat) (a : Nat × Nat) (s : Shortcut), arcs[i]? = some a → (if dir then st.1 else st.2)[i]? = some s →
        (s.required = true → (∀ τ y, StandsFor roads arcs fwd bwd dir i τ y → τ + s.lower ≤ y) ∧
          (s.upper < INF → ∀ τ, ∃ y, y ≤ τ + s.upper ∧ Trip (roadNet roads) (a0 dir a) τ (a1 dir a) y) ∧
          (s.constant = true → s.lower < INF → ∀ τ, StandsFor roads arcs fwd bwd dir i τ (τ + s.lower))) ∧
        (s.required = false → ∀ τ, ∃ y, Trip (roadNet roads) (a0 dir a) τ (a1 dir a) y ∧ ∀ z, StandsFor roads arcs fwd bwd dir i τ z → y + eps < z) := by
  obtain ⟨up, down, h1, h2, hI⟩ := init_ok hr
  obtain ⟨L, U, P, st, h3, hF, h4, h5⟩ := pre_state hT hS hI (eps := eps)
  refine ⟨up, down, st, h1, h2, h3, h4 true, h4 false, ?_⟩
  intro dir i a s ha hs
  obtain ⟨s0, q1, q2⟩ := h5 dir i s hs
  have hnew : s0.required = true := by
    cases ho : origOf fwd bwd dir i with
    | none => rw [ho] at q1; simp only [newShortcut, Option.some.injEq] at q1; rw [← q1]
    | some e =>
      rw [ho] at q1
      simp only [newShortcut, Option.bind_eq_bind, Option.bind_eq_some_iff, Option.some.injEq] at q1
      obtain ⟨p, _, lo, _, up, _, h⟩ := q1
      rw [← h]
  by_cases k : P dir i + eps < L dir i
  · rw [if_pos k] at q2
    rw [q2]
    refine ⟨fun h => (nomatch h), fun _ τ => ?_⟩
    have hLI : L dir i ≤ INF := by
      cases ho : origOf fwd bwd dir i with
      | none => exact hF.linf dir i a ha ho
      | some e =>
        have ho' := ho
        unfold origOf at ho
        rw [Option.bind_eq_some_iff] at ho
        obtain ⟨es, e1, e2⟩ := ho
        obtain ⟨r, a', e3, _⟩ := (roads_list hr dir i es e1).2 e (List.mem_of_mem_head? e2)
        obtain ⟨p, e4, _, e5⟩ := roads_fn hr e r e3
        have h6 := hF.lroad dir i a e p ha ho' e4 0
        have h7 := hfin r (List.mem_of_getElem? e3) 0
        rw [e5] at h7
        linarith
    obtain ⟨y, w1, w2⟩ := hF.within dir i a ha (by linarith) τ
    refine ⟨τ + y, w2, fun z hz => ?_⟩
    have := stands_low hr hF hz
    linarith
  · rw [if_neg k] at q2
    rw [q2]
    refine ⟨fun _ => ⟨fun τ y h => stands_low hr hF h, ?_, ?_⟩, fun h => ?_⟩
    · intro hlt τ
      obtain ⟨y, w1, w2⟩ := hF.within dir i a ha hlt τ
      exact ⟨τ + y, by simp only; linarith, w2⟩
    · intro hc hlt
      exact stands_const hT hr hF i a ha dir (by simpa using hc) hlt
    · simp only at h
      rw [hnew] at h; exact (nomatch h)

/-- A shortcut that stands for a fastest way, at some time, is not switched off. -/
theorem C81_kept_partial {c : Cfg} {arcs : List (Nat × Nat)} {n : Nat} {parent : Nat → Option Nat} (hT : HierarchyOK arcs n parent) (hS : HeadsSorted arcs)
    {roads : List (Nat × Nat × (Rat → Rat))} {fwd bwd : List (List Nat)} (hr : RoadsOK roads c.ttf arcs fwd bwd) (hfin : ∀ r ∈ roads, ∀ τ, r.2.2 τ < INF) {eps : Rat} (heps : 0 ≤ eps)
    {dir : Bool} {i : Nat} {a : Nat × Nat} (ha : arcs[i]? = some a) {τ y : Rat} (hy : StandsFor roads arcs fwd bwd dir i τ y) (hbest : ∀ z, Trip (roadNet roads) (a0 dir a) τ (a1 dir a) z → y ≤ z) :
    ∃ up down st s, applyWeights c.ttf fwd = some up ∧ applyWeights c.ttf bwd = some down ∧ precustomize eps arcs n (up, down) = some st ∧
      (if dir then st.1 else st.2)[i]? = some s ∧ s.required = true := by
  obtain ⟨up, down, st, h1, h2, h3, h4, h5, h6⟩ := C81_bounds_partial hT hS hr hfin heps
  have hl : i < (if dir then st.1 else st.2).length := by
    have := (List.getElem?_eq_some_iff.1 ha).1
    cases dir
    · simp only [Bool.false_eq_true, if_false]; omega
    · simp only [if_true]; omega
  have hs := List.getElem?_eq_getElem hl
  refine ⟨up, down, st, _, h1, h2, h3, hs, ?_⟩
  rcases Bool.eq_false_or_eq_true ((if dir then st.1 else st.2)[i]).required with h | h
  · exact h
  · obtain ⟨z, z1, z2⟩ := (h6 dir i a _ ha hs).2 h τ
    have := hbest z z1
    have := z2 y hy
    linarith

namespace FtdPreExample
open FlPlfExample
open FtdExample (arcs parent hierarchy_ok)

/-- from 0 to 1, from 0 to 2, from 1 to 2 -/
def functions : List (List Pt) := [[⟨0, 5⟩], [⟨0, 30⟩], [⟨0, 20⟩, ⟨1000, 5⟩, ⟨86400, 20⟩]]
def time (e : Nat) (τ : Rat) : Rat := ((functions[e]?).bind (fun f => evaluate linear 0 f τ)).getD INF
def roads : List (Nat × Nat × (Rat → Rat)) := [(0, 1, time 0), (0, 2, time 1), (1, 2, time 2)]
def fwd : List (List Nat) := [[0], [1], [2]]
def bwd : List (List Nat) := [[], [], []]
def cfg : Cfg := ⟨linear, true, Tol.exact, true, fun e => functions[e]?, fun _ l => l⟩

theorem heads_sorted : HeadsSorted arcs := by
  have hi : ∀ (i : Nat) (a : Nat × Nat), arcs[i]? = some a → (i = 0 ∧ a = (0, 1)) ∨ (i = 1 ∧ a = (0, 2)) ∨ (i = 2 ∧ a = (1, 2)) := by
    intro i a h
    match i, h with
    | 0, h => simp [arcs] at h; simp [← h]
    | 1, h => simp [arcs] at h; simp [← h]
    | 2, h => simp [arcs] at h; simp [← h]
    | i + 3, h => simp [arcs] at h
  intro i j a b hij h1 h2
  rcases hi i a h1 with ⟨rfl, rfl⟩ | ⟨rfl, rfl⟩ | ⟨rfl, rfl⟩ <;> rcases hi j b h2 with ⟨rfl, rfl⟩ | ⟨rfl, rfl⟩ | ⟨rfl, rfl⟩ <;> first | omega | decide

theorem roads_ok : RoadsOK roads cfg.ttf arcs fwd bwd := by
  constructor
  · have key : ∀ e f, functions[e]? = some f → ValidTtf f → ∃ p, cfg.ttf e = some p ∧ ValidTtf p ∧ ∀ τ, TravelTime p τ (time e τ) := by
      intro e f h hv
      refine ⟨f, h, hv, fun τ => ?_⟩
      obtain ⟨y, h1, _, h2⟩ := C72_evaluate_partial linear_ok hv τ
      rw [h2]
      simp [time, h, h1]
    intro e r h
    match e, h with
    | 0, h => simp [roads] at h; subst h; exact key 0 _ rfl (valid_ok (by decide +kernel))
    | 1, h => simp [roads] at h; subst h; exact key 1 _ rfl (valid_ok (by decide +kernel))
    | 2, h => simp [roads] at h; subst h; exact key 2 _ rfl (valid_ok (by decide +kernel))
    | e + 3, h => simp [roads] at h
  · exact ⟨rfl, rfl⟩
  · intro i es h
    match i, h with
    | 0, h => simp [fwd] at h; subst h; exact ⟨by decide, fun e he => by simp at he; subst he; exact ⟨_, _, rfl, rfl, rfl, rfl⟩⟩
    | 1, h => simp [fwd] at h; subst h; exact ⟨by decide, fun e he => by simp at he; subst he; exact ⟨_, _, rfl, rfl, rfl, rfl⟩⟩
    | 2, h => simp [fwd] at h; subst h; exact ⟨by decide, fun e he => by simp at he; subst he; exact ⟨_, _, rfl, rfl, rfl, rfl⟩⟩
    | i + 3, h => simp [fwd] at h
  · intro i es h
    match i, h with
    | 0, h => simp [bwd] at h; subst h; simp
    | 1, h => simp [bwd] at h; subst h; simp
    | 2, h => simp [bwd] at h; subst h; simp
    | i + 3, h => simp [bwd] at h
  · intro e r h _
    match e, h with
    | 0, h => simp [roads] at h; subst h; exact ⟨0, [0], .inl ⟨rfl, rfl, by simp⟩⟩
    | 1, h => simp [roads] at h; subst h; exact ⟨1, [1], .inl ⟨rfl, rfl, by simp⟩⟩
    | 2, h => simp [roads] at h; subst h; exact ⟨2, [2], .inl ⟨rfl, rfl, by simp⟩⟩
    | e + 3, h => simp [roads] at h

/-- the points of the functions are below 31 -/
theorem fn_lt {p : List Pt} (h : p ∈ functions) (τ : Rat) : fn p τ ≤ 30 := by
  have hv : ValidTtf p := by
    simp only [functions, List.mem_cons, List.not_mem_nil, or_false] at h
    rcases h with rfl | rfl | rfl <;> exact valid_ok (by decide +kernel)
  obtain ⟨lo, up, _, l2, _, _, l5⟩ := bounds hv
  have : up ≤ 30 := by
    obtain ⟨q, q1, rfl⟩ := upperBound_mem l2
    simp only [functions, List.mem_cons, List.not_mem_nil, or_false] at h
    rcases h with rfl | rfl | rfl
    · simp at q1; subst q1; decide +kernel
    · simp at q1; subst q1; decide +kernel
    · simp at q1; rcases q1 with rfl | rfl | rfl <;> decide +kernel
  exact le_trans (l5 τ) this

theorem finite : ∀ r ∈ roads, ∀ τ, r.2.2 τ < INF := by
  intro r hr τ
  obtain ⟨e, he⟩ := List.mem_iff_getElem?.1 hr
  obtain ⟨p, q1, _, q3⟩ := roads_fn roads_ok e r he
  rw [q3]
  exact lt_of_le_of_lt (fn_lt (List.mem_of_getElem? q1) τ) (by decide +kernel)

example := C81_bounds_partial hierarchy_ok heads_sorted roads_ok finite (le_refl 0)

/-- the road from 0 to 2 takes 30, the way over 1 never takes more than 25: its shortcut is switched off -/
def pre : Option Both := do precustomize 0 arcs 3 (← applyWeights cfg.ttf fwd, ← applyWeights cfg.ttf bwd)
example : pre.map (fun st => st.1.map (fun s => (s.lower, s.upper, s.constant, s.required))) =
    some [(5, 5, true, true), (INF, INF, true, false), (5, 20, false, true)] := by decide +kernel

/-- the road from 1 to 2 is the only way there -/
example : StandsFor roads arcs fwd bwd true 2 0 (0 + time 2 0) := .up (i := 2) (es := [2]) (e := 2) (r := (1, 2, time 2)) rfl (by simp) rfl

/-! The main customization after the pre-customization (`C76_hierarchy_partial`, `C76_exact_partial`, `C77_customized_partial`) -/

def most (dir : Bool) (i : Nat) : Rat := if i = 2 then 60 else 30

theorem times_below : TimesBelow INF cfg.ttf arcs fwd bwd most := by
  have hm : ∀ dir i, 30 ≤ most dir i := by intro dir i; unfold most; split <;> decide +kernel
  have hp : ∀ e p, cfg.ttf e = some p → ∀ q ∈ p, q.v ≤ 30 := by
    intro e p h q hq
    have : p ∈ functions := List.mem_of_getElem? h
    simp only [functions, List.mem_cons, List.not_mem_nil, or_false] at this
    rcases this with rfl | rfl | rfl
    · simp at hq; subst hq; decide +kernel
    · simp at hq; subst hq; decide +kernel
    · simp at hq; rcases hq with rfl | rfl | rfl <;> decide +kernel
  refine ⟨?_, fun i e es p _ _ h q hq => le_trans (hp e p h q hq) (hm _ _), fun i e es p _ _ h q hq => le_trans (hp e p h q hq) (hm _ _), ?_⟩
  · intro dir i; unfold most; split <;> decide +kernel
  · intro dir i d u z a h1 h2 h3
    have hz := leg_lt hierarchy_ok (hierarchy_ok.up _ _ h1).1 h2 h3
    have hi : ∀ (i : Nat) (a : Nat × Nat), arcs[i]? = some a → (i = 0 ∧ a = (0, 1)) ∨ (i = 1 ∧ a = (0, 2)) ∨ (i = 2 ∧ a = (1, 2)) := by
      intro i a h
      match i, h with
      | 0, h => simp [arcs] at h; simp [← h]
      | 1, h => simp [arcs] at h; simp [← h]
      | 2, h => simp [arcs] at h; simp [← h]
      | i + 3, h => simp [arcs] at h
    have ki : i = 2 := by rcases hi i a h1 with ⟨_, rfl⟩ | ⟨_, rfl⟩ | ⟨h, _⟩ <;> first | (simp only at hz; omega) | exact h
    have kd : d ≠ 2 := by
      subst ki
      rcases hi 2 a h1 with ⟨h, _⟩ | ⟨h, _⟩ | ⟨_, rfl⟩
      · omega
      · omega
      · intro e
        subst e
        simp only [arcs] at h2
        simp at h2
        omega
    have ku : u ≠ 2 := by
      subst ki
      rcases hi 2 a h1 with ⟨h, _⟩ | ⟨h, _⟩ | ⟨_, rfl⟩
      · omega
      · omega
      · intro e
        subst e
        simp only [arcs] at h3
        simp at h3
        omega
    unfold most
    rw [if_neg kd, if_neg ku, if_pos ki]
    decide +kernel

theorem pre_ready : PreReady cfg.pre cfg.ttf arcs fwd bwd := fun _ => ⟨heads_sorted, most, times_below⟩

example : ∃ G, customize cfg arcs 3 parent fwd bwd = some G ∧ G.n = 3 ∧ BoundsOK G (roadNet roads) ∧ EvalOK G (roadNet roads) 3 ∧
    Triangulated (G.net 3 true) (G.net 3 false) (roadNet roads) INF :=
  C76_hierarchy_partial linear_ok rfl (fun _ _ => .refl _) hierarchy_ok roads_ok pre_ready

/-- the useless arc is gone, and the constant one is marked -/
example : (customize cfg arcs 3 parent fwd bwd).map (fun G => G.outgoing.map (fun a => (a.tail, a.head, a.lo, a.up, a.constant))) =
    some [(0, 1, 5, 5, true), (1, 2, 5, 20, false)] := by decide +kernel
example : ((customize cfg arcs 3 parent fwd bwd).bind (fun G => distance false (1/1000) G 3 1000 .new 0 2 995)).map (·.1) = some (some 10) := by decide +kernel

end FtdPreExample
end Verif
