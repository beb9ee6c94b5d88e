import Verif.Proof.PenaltyJudge
import Verif.Model.Sort
import Verif.Proof.Sort
set_option linter.unusedSimpArgs false
set_option linter.unusedVariables false
/- Property C71: alternative routes with the penalty method. -/
namespace Verif
open Spec Penalty

/-- After any queries to the three methods, whatever the searches answered, none has panicked, all replies are right (`ReplyOK`), and the weights in both
directions, the counters and all else but the marks of the last query and the number of searches are as after construction: no query can influence a later
one. -/
theorem C71_alternatives_partial {srtN : (Nat → Nat) → List Nat → List Nat} {srt : (Link → Nat) → List Link → List Link} (hsN : SortOK srtN) (hs : SortOK srt)
    {g : FOGraph} (hg : g.WF) (hn : 0 < g.numNodes) (hpos : ∀ u v w, g.Arc u v w → 0 < w) (hbnd : ∀ u v w, g.Arc u v w → w ≤ INFINITY) :
    ∃ sv, Server.new srtN srt g = some sv ∧ ∀ (dbg : Bool) (cap11 : Nat → Nat) (ask : Search) (sub : Bits.FastClear → Nat → Nat → Option Nat) (qs : List Penalty.Query),
      (∀ d, d ≤ maxDist → cap11 d + 2 * (d / 100) < U32) → SearchOK dbg maxDist sv.orig ask → SubOK sub → (∀ q ∈ qs, q.ends.1 < g.numNodes ∧ q.ends.2 < g.numNodes) →
      ∃ rs sv', answers dbg cap11 ask sub sv qs = some (rs, sv') ∧ List.Forall₂ (ReplyOK g sv ask) qs rs ∧
        sv' = { sv with cont := sv'.cont, calls := sv'.calls } := by
  obtain ⟨sv, h1, h2, h3⟩ := Penalty.new_ok hsN hs hg hn hpos hbnd
  refine ⟨sv, h1, ?_⟩
  intro dbg cap11 ask sub qs hcap hask hsub hq
  obtain ⟨rs, c, k, a1, a2⟩ := answers_ok hcap hsub qs h2 h3 hask hq
  exact ⟨rs, _, a1, a2, rfl⟩

/-- The core that the server searches in is part of the graph: the arcs of the core are arcs of the graph, in the numbering of the server. So the routes of
`ReplyOK` are routes of the graph. -/
theorem C71_core {srtN : (Nat → Nat) → List Nat → List Nat} {srt : (Link → Nat) → List Link → List Link} (hsN : SortOK srtN) (hs : SortOK srt)
    {g : FOGraph} (hg : g.WF) (hn : 0 < g.numNodes) (hpos : ∀ u v w, g.Arc u v w → 0 < w) (hbnd : ∀ u v w, g.Arc u v w → w ≤ INFINITY) {sv : Server}
    (h : Server.new srtN srt g = some sv) : sv.orig.numNodes = g.numNodes ∧
      ∀ r r' w, sv.orig.Arc r r' w → ∃ u v, sv.topo.order.node r = some u ∧ sv.topo.order.node r' = some v ∧ g.Arc u v w := by
  obtain ⟨sv', h1, h2, h3⟩ := Penalty.new_ok hsN hs hg hn hpos hbnd
  rw [h] at h1; injection h1 with h1; subst h1
  exact ⟨h3.nodes, h3.arcs⟩

namespace PenaltyExample

/-- whether edges lead along nodes -/
def follows (fo hd : List Nat) : List Nat → List Nat → Bool
  | [_], [] => true
  | u :: v :: ns, e :: es =>
    match fo[u]?, fo[u + 1]? with
    | some a, some b => decide (a ≤ e) && decide (e < b) && (hd[e]? == some v) && follows fo hd (v :: ns) es
    | _, _ => false
  | _, _ => false

theorem follows_route {fo hd : List Nat} : ∀ {ns es : List Nat}, follows fo hd ns es = true → Route fo hd ns es
  | [u], [], _ => .single u
  | u :: v :: ns, e :: es, h => by
    unfold follows at h
    split at h
    · rename_i a b h1 h2
      simp only [Bool.and_eq_true, decide_eq_true_eq, beq_iff_eq] at h
      exact .cons h1 h2 h.1.1.1 h.1.1.2 h.1.2 (follows_route h.2)
    · simp at h
  | [], [], h => by simp [follows] at h
  | [], _ :: _, h => by simp [follows] at h
  | [_], _ :: _, h => by simp [follows] at h
  | _ :: _ :: _, [], h => by simp [follows] at h

/-- a search: the shortest of some routes, for the weights it is given -/
def pick (lim : Nat) (cands : List (List Nat × List Nat)) : Search := fun _ c =>
  cands.foldl (fun best x =>
    let f : Found := ⟨lenOf c.forward.weight x.2, x.1, x.2⟩
    if follows c.forward.firstOut c.forward.head x.1 x.2 ∧ x.1.head? = some c.s ∧ x.1.getLast? = some c.t ∧ x.1.Nodup ∧ f.dist ≤ lim then
      match best with
      | some b => if f.dist < b.dist then some f else best
      | none => some f
    else best) none

theorem pick_ok (lim : Nat) (g : FOGraph) (cands : List (List Nat × List Nat)) : SearchOK false lim g (pick lim cands) := by
  have key : ∀ (c : Call) (l : List (List Nat × List Nat)) (best : Option Found), (∀ f, best = some f → FoundOK lim c f) → ∀ f, l.foldl (fun best x =>
      let f : Found := ⟨lenOf c.forward.weight x.2, x.1, x.2⟩
      if follows c.forward.firstOut c.forward.head x.1 x.2 ∧ x.1.head? = some c.s ∧ x.1.getLast? = some c.t ∧ x.1.Nodup ∧ f.dist ≤ lim then
        match best with
        | some b => if f.dist < b.dist then some f else best
        | none => some f
      else best) best = some f → FoundOK lim c f := by
    intro c l
    induction l with
    | nil => intro best hb f h; exact hb f h
    | cons x l ih =>
      intro best hb f h
      rw [List.foldl_cons] at h
      refine ih _ ?_ f h
      intro f' hf'
      simp only at hf'
      split at hf'
      · rename_i hx
        have hnew : FoundOK lim c ⟨lenOf c.forward.weight x.2, x.1, x.2⟩ := ⟨follows_route hx.1, hx.2.1, hx.2.2.1, hx.2.2.2.1, Nat.le_refl _, hx.2.2.2.2⟩
        split at hf'
        · split at hf'
          · simp only [Option.some.injEq] at hf'; subst hf'; exact hnew
          · exact hb f' hf'
        · simp only [Option.some.injEq] at hf'; subst hf'; exact hnew
      · exact hb f' hf'
  intro i c f _ h
  exact ⟨key c cands none (by simp) f h, by simp⟩

/-- 0 - 1 - 3 and 0 - 2 - 3 in both directions, and 4 at the end of a dead end that leaves at 0 -/
def dia (a b : Nat) : FOGraph := ⟨[0, 3, 5, 7, 9, 10], [1, 2, 4, 0, 3, 0, 3, 1, 2, 0], [a, b, 7, a, a, b, b, a, b, 7]⟩

theorem dia_wf (a b : Nat) (hb : a < U32 ∧ b < U32) : (dia a b).WF := by
  refine ⟨?_, ?_, ?_, ?_, FOGraph.mono_of_check ?_, ?_⟩ <;> simp [dia, FOGraph.numNodes, FOGraph.numArcs, U32] <;> decide

/-- all routes from 0 to 3, in the numbering of the server -/
def cands : List (List Nat × List Nat) := [([0, 1, 2], [0, 3]), ([0, 3, 2], [1, 7])]

def go (lim : Nat) (cands : List (List Nat × List Nat)) (g : FOGraph) (qs : List Penalty.Query) : Option (Option (List Reply)) :=
  (Server.new isort isort g).map (fun sv => (answers false (fun d => d * 11 / 8) (pick lim cands) (fun _ _ _ => none) sv qs).map Prod.fst)

theorem of_go {lim : Nat} {cands : List (List Nat × List Nat)} {g : FOGraph} {qs : List Penalty.Query} {r : Option (List Reply)} (h : go lim cands g qs = some r) :
    ∃ sv ask, Server.new isort isort g = some sv ∧ SearchOK false lim sv.orig ask ∧
      (answers false (fun d => d * 11 / 8) ask (fun _ _ _ => none) sv qs).map Prod.fst = r := by
  simp only [go, Option.map_eq_some_iff] at h
  obtain ⟨sv, h1, h2⟩ := h
  exact ⟨sv, pick lim cands, h1, pick_ok lim sv.orig cands, h2⟩

/-- the queries of the example and their replies -/
theorem replies : go maxDist cands (dia 10 11) [.one 0 3, .many 0 3, .graph 0 3, .one 4 3] =
    some (some [.one (some [0, 2, 3]), .many (some [[0, 1, 2]]), .graph (some 1), .one (some [0, 2, 3])]) := by decide +kernel

/-- a common part of 50,000,000 milliseconds (almost 14 hours) and then two ways -/
def long : FOGraph := ⟨[0, 1, 4, 6, 8, 11], [1, 0, 2, 3, 1, 4, 1, 4, 2, 3, 0],
  [50000000, 50000000, 20000000, 21000000, 20000000, 20000000, 21000000, 21000000, 20000000, 21000000, 300000000]⟩

/-- the routes from 0 to 4 -/
def longCands : List (List Nat × List Nat) := [([2, 0, 4, 1], [6, 2, 10]), ([2, 0, 3, 1], [6, 1, 8])]

theorem long_reply : go INFINITY longCands long [.one 0 4] = some none := by decide +kernel

theorem zero_reply : go maxDist cands (dia 0 11) [.one 0 3] = some none := by decide +kernel

end PenaltyExample

open PenaltyExample in
/-- The hypotheses of `C71_alternatives_partial` can be met, and replies with alternatives occur. -/
example : ∃ sv rs sv', Server.new isort isort (dia 10 11) = some sv ∧ SearchOK false maxDist sv.orig (pick maxDist cands) ∧ SubOK (fun _ _ _ => none) ∧
    answers false (fun d => d * 11 / 8) (pick maxDist cands) (fun _ _ _ => none) sv [.one 0 3, .many 0 3, .graph 0 3, .one 4 3] = some (rs, sv') ∧
    rs = [.one (some [0, 2, 3]), .many (some [[0, 1, 2]]), .graph (some 1), .one (some [0, 2, 3])] ∧
    List.Forall₂ (ReplyOK (dia 10 11) sv (pick maxDist cands)) [.one 0 3, .many 0 3, .graph 0 3, .one 4 3] rs := by
  have harc : ∀ u v w, (dia 10 11).Arc u v w → 0 < w ∧ w ≤ INFINITY := by
    intro u v w h
    have : w ∈ (dia 10 11).weight := by
      obtain ⟨_, _, e, _, _, _, _, _, hw⟩ := (dia_wf 10 11 (by decide)).arc_iff.1 h
      exact List.mem_of_getElem? hw
    exact (show ∀ w ∈ (dia 10 11).weight, 0 < w ∧ w ≤ INFINITY by decide) w this
  obtain ⟨sv, h1, h2⟩ := C71_alternatives_partial isort_ok isort_ok (dia_wf 10 11 (by decide)) (by decide) (fun u v w h => (harc u v w h).1) (fun u v w h => (harc u v w h).2)
  have hsub : SubOK (fun _ _ _ => none) := by intro c u v d h; simp at h
  obtain ⟨rs, sv', h3, h4, _⟩ := h2 false (fun d => d * 11 / 8) (pick maxDist cands) (fun _ _ _ => none) [.one 0 3, .many 0 3, .graph 0 3, .one 4 3]
    (by intro d hd; unfold maxDist at hd; unfold U32; omega) (pick_ok _ _ _) hsub (by decide)
  refine ⟨sv, rs, sv', h1, pick_ok _ _ _, hsub, h3, ?_, h4⟩
  have := replies
  simp only [go, h1, Option.map_some, h3, Option.some.injEq] at this
  exact this

open PenaltyExample in
/-- Weights of zero: if the shortest path has length zero, the query divides by zero. -/
theorem C71_zero_length_panics : ∃ (g : FOGraph) (sv : Server) (ask : Search), g.WF ∧ Server.new isort isort g = some sv ∧ SearchOK false maxDist sv.orig ask ∧
    answers false (fun d => d * 11 / 8) ask (fun _ _ _ => none) sv [.one 0 3] = none := by
  obtain ⟨sv, ask, h1, h2, h3⟩ := of_go zero_reply
  exact ⟨dia 0 11, sv, ask, dia_wf 0 11 (by decide), h1, h2, by simpa using h3⟩

open PenaltyExample in
/-- Routes that have more than 42,949,672 milliseconds (11.9 hours) in common: the report overflows. -/
theorem C71_long_routes_panic : ∃ (g : FOGraph) (sv : Server) (ask : Search), g.WF ∧ (∀ w ∈ g.weight, 0 < w ∧ w ≤ 300000000) ∧ Server.new isort isort g = some sv ∧
    SearchOK false INFINITY sv.orig ask ∧ answers false (fun d => d * 11 / 8) ask (fun _ _ _ => none) sv [.one 0 4] = none := by
  obtain ⟨sv, ask, h1, h2, h3⟩ := of_go long_reply
  exact ⟨long, sv, ask, ⟨by decide, by decide, by decide, by decide, FOGraph.mono_of_check (by decide), by decide⟩, by decide, h1, h2, by simpa using h3⟩

open PenaltyExample in
/-- An alternative need not start at the source: outside the core it starts where the source is attached to the core. -/
theorem C71_other_source : ∃ (g : FOGraph) (sv : Server) (ask : Search) (p : List Nat), g.WF ∧ (∀ w ∈ g.weight, 0 < w) ∧ Server.new isort isort g = some sv ∧
    SearchOK false maxDist sv.orig ask ∧ (answers false (fun d => d * 11 / 8) ask (fun _ _ _ => none) sv [.one 4 3]).map Prod.fst = some [.one (some p)] ∧
    p.head? ≠ some 4 := by
  have h : go maxDist cands (dia 10 11) [.one 4 3] = some (some [.one (some [0, 2, 3])]) := by decide +kernel
  obtain ⟨sv, ask, h1, h2, h3⟩ := of_go h
  exact ⟨dia 10 11, sv, ask, [0, 2, 3], dia_wf 10 11 (by decide), by decide, h1, h2, h3, by decide⟩

open PenaltyExample in
/-- `alternatives_iterative` returns nodes in the numbering of the server: what it returns need not be a path of the graph. -/
theorem C71_other_numbering : ∃ (g : FOGraph) (sv : Server) (ask : Search) (p : List Nat), g.WF ∧ (∀ w ∈ g.weight, 0 < w) ∧ Server.new isort isort g = some sv ∧
    SearchOK false maxDist sv.orig ask ∧ (answers false (fun d => d * 11 / 8) ask (fun _ _ _ => none) sv [.many 0 3]).map Prod.fst = some [.many (some [p])] ∧
    ¬ ∃ d, PathOf g.Arc p d := by
  have h : go maxDist cands (dia 10 11) [.many 0 3] = some (some [.many (some [[0, 1, 2]])]) := by decide +kernel
  obtain ⟨sv, ask, h1, h2, h3⟩ := of_go h
  refine ⟨dia 10 11, sv, ask, [0, 1, 2], dia_wf 10 11 (by decide), by decide, h1, h2, h3, ?_⟩
  rintro ⟨d, hd⟩
  cases hd with
  | cons _ h2 =>
    cases h2 with
    | cons ha _ =>
      obtain ⟨a, b, e, q1, q2, q3, q4, q5, _⟩ := (dia_wf 10 11 (by decide)).arc_iff.1 ha
      simp only [dia, List.getElem?_cons_succ, List.getElem?_cons_zero, Option.some.injEq] at q1 q2
      have : e = 3 ∨ e = 4 := by omega
      rcases this with rfl | rfl <;> simp [dia] at q5

end Verif
