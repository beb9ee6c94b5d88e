import Verif.Proof.SubPathsLen
import Verif.Props.Sequences
import Verif.Proof.Topocore
set_option linter.unusedSimpArgs false
set_option linter.unusedVariables false
/- Property C61: finding the subpaths of a path that are much longer than necessary. -/
namespace Verif
open Spec UBS

namespace UBS

/-- What a caller has to pass: a threshold that does not decrease with the distance, and a path of the graph shorter than `INFINITY`. -/
structure ValidUbs (g : FOGraph) (thr : Nat → Nat) (path : List Nat) : Prop where
  mono : ∀ a b, a ≤ b → thr a ≤ thr b
  nodes : ∀ v ∈ path, v < g.numNodes
  path : path = [] ∨ ∃ d, d < INFINITY ∧ PathOf g.Arc path d

/-- the arcs of the reversed graph, reversed again -/
theorem rev_reversed {g r : FOGraph} (h : ∀ u v w, GraphOps.linkCount r.linkIter v u w = GraphOps.linkCount g.linkIter u v w) : Rev r.Arc = g.Arc := by
  have ac : ∀ (g : FOGraph) (u v w : Nat), g.Arc u v w ↔ 0 < GraphOps.linkCount g.linkIter u v w := by
    intro g u v w
    unfold FOGraph.Arc GraphOps.linkCount
    cases hl : g.linkIter u with
    | none => simp
    | some ls => simp [List.count_pos_iff]
  funext u v w
  apply propext
  show r.Arc v u w ↔ g.Arc u v w
  rw [ac, ac, h]

theorem find_spec {g r : FOGraph} (hg : g.WF) (hw : g.Bounded) (hr : r.WF) (hrw : r.Bounded) (hn : r.numNodes = g.numNodes) (harc : Rev r.Arc = g.Arc)
    {dbg : Bool} (hpos : dbg = true → ∀ w ∈ g.weight, 0 < w) {srt : List Rng → List Rng} (hsrt : ∀ l, (srt l).Perm l ∧
      (srt l).Pairwise (fun a b => a.start < b.start ∨ a.start = b.start ∧ b.stop ≤ a.stop)) {thr : Nat → Nat} {path : List Nat} (hv : ValidUbs g thr path)
    {st : State (DData Unit) (DData Unit)}
    (hst : SOK g.numNodes (fun d => ∃ a, DData.Refines g.numNodes d a) (fun d => ∃ a, DData.Refines g.numNodes d a) st) :
    ∃ out st', DijServer.find dbg ⟨g, r⟩ srt st thr path = some (out, st') ∧
      SOK g.numNodes (fun d => ∃ a, DData.Refines g.numNodes d a) (fun d => ∃ a, DData.Refines g.numNodes d a) st' ∧ UbsAnswer g.Arc thr path out := by
  have hT := dijOracle_ok hr hrw
  have hS := dijOracle_ok hg hw
  rw [harc, hn] at hT
  refine findUbs_spec hT hS hsrt hv.mono (fun hd u v d hne h => walk_pos hg (hpos hd) hne h) hst hv.nodes (fun _ => ?_)
  rcases hv.path with rfl | ⟨d, hd, hp⟩
  · exact pathDists_nil dbg
  · exact pathDists_spec hg dbg hp hd

theorem bounded_of_rev {g r : FOGraph} (hg : g.WF) (hw : g.Bounded) (hr : r.WF) (h : Rev r.Arc = g.Arc) : r.Bounded := by
  intro w hw'
  obtain ⟨u, ls, l, e1, e2, e3⟩ := hr.weight_link hw'
  have : g.Arc l.node u l.weight := by rw [← h]; exact ⟨ls, e1, e2⟩
  obtain ⟨ls', g1, g2⟩ := this
  rw [← e3]
  have := hg.mem_weights g1 g2
  exact hw _ this

end UBS

/-- **C61.** For every graph, every history of calls of `find_ubs_violating_subpaths` on one server, each with its own threshold and
path: no call panics, and each answers exactly the minimal subpaths that are longer than the distance `d` of their ends by more than
the threshold for `d`, each once, in order; or, if the path visits nodes repeatedly, exactly the subpaths that return to their first
node for the first time. In builds with debug assertions (`dbg`) all weights have to be positive. -/
theorem C61_ubs_subpaths (g : FOGraph) (hg : g.WF) (hw : g.Bounded) (dbg : Bool) (hpos : dbg = true → ∀ w ∈ g.weight, 0 < w)
    (srt : List Rng → List Rng) (hsrt : ∀ l, (srt l).Perm l ∧ (srt l).Pairwise (fun a b => a.start < b.start ∨ a.start = b.start ∧ b.stop ≤ a.stop))
    (calls : List ((Nat → Nat) × List Nat)) (hcalls : ∀ c ∈ calls, ValidUbs g c.1 c.2) :
    ∃ s st outs st', DijServer.new g = some (s, st) ∧ s.run dbg srt st calls = some (outs, st') ∧ outs.length = calls.length ∧
      ∀ (i : Nat) (c : (Nat → Nat) × List Nat) (out : List Rng), calls[i]? = some c → outs[i]? = some out → UbsAnswer g.Arc c.1 c.2 out := by
  obtain ⟨r, h1, h2, h3, _, h4⟩ := GraphOps.reversed_spec hg
  have harc := rev_reversed h4
  have hrw := bounded_of_rev hg hw h2 harc
  have key : ∀ (calls : List ((Nat → Nat) × List Nat)), (∀ c ∈ calls, ValidUbs g c.1 c.2) → ∀ st : State (DData Unit) (DData Unit),
      SOK g.numNodes (fun d => ∃ a, DData.Refines g.numNodes d a) (fun d => ∃ a, DData.Refines g.numNodes d a) st →
      ∃ outs st', DijServer.run dbg ⟨g, r⟩ srt st calls = some (outs, st') ∧ outs.length = calls.length ∧
        ∀ (i : Nat) (c : (Nat → Nat) × List Nat) (out : List Rng), calls[i]? = some c → outs[i]? = some out → UbsAnswer g.Arc c.1 c.2 out := by
    intro calls
    induction calls with
    | nil => intro _ st _; exact ⟨[], st, rfl, rfl, by simp⟩
    | cons c cs ih =>
      intro hc st hst
      obtain ⟨thr, path⟩ := c
      obtain ⟨out, st1, e1, e2, e3⟩ := find_spec hg hw h2 hrw h3 harc hpos hsrt (hc (thr, path) (by simp)) hst
      obtain ⟨outs, st2, f1, f2, f3⟩ := ih (fun c h => hc c (by simp [h])) st1 e2
      refine ⟨out :: outs, st2, by simp [DijServer.run, e1, f1], by simp [f2], ?_⟩
      intro i c o h5 h6
      cases i with
      | zero => simp at h5 h6; subst h5 h6; exact e3
      | succ i => exact f3 i c o (by simpa using h5) (by simpa using h6)
  obtain ⟨outs, st', e1, e2, e3⟩ := key calls hcalls ⟨DData.new g.numNodes (), DData.new g.numNodes (), List.replicate g.numNodes none, List.replicate g.numNodes none⟩
    ⟨⟨_, DData.refines_new _ _⟩, ⟨_, DData.refines_new _ _⟩, rfl, rfl⟩
  exact ⟨⟨g, r⟩, _, outs, st', by simp [DijServer.new, h1], e1, e2, e3⟩

namespace UBS.Example

/-- the path 0, 1, 2, 3, 4 with arcs of weight 10, and arcs 0 → 2 of weight 15, 1 → 5 → 3 of weight 3 each, 3 → 1 -/
def g : FOGraph := ⟨[0, 2, 4, 5, 7, 7, 8], [1, 2, 2, 5, 3, 4, 1, 3], [10, 15, 10, 3, 10, 10, 10, 3]⟩

theorem g_wf : g.WF where
  small := by decide
  mono := FOGraph.mono_of_check (by decide)
  first := by decide
  last := by decide
  weights := by decide
  heads := by decide

def le (a b : Rng) : Prop := a.start < b.start ∨ a.start = b.start ∧ b.stop ≤ a.stop

instance (a b : Rng) : Decidable (le a b) := by unfold le; infer_instance

def insert (x : Rng) : List Rng → List Rng
  | [] => [x]
  | y :: l => if le x y then x :: y :: l else y :: insert x l

/-- one way to sort -/
def sort (l : List Rng) : List Rng := l.foldr insert []

theorem sort_ok (l : List Rng) : (sort l).Perm l ∧ (sort l).Pairwise (fun a b => a.start < b.start ∨ a.start = b.start ∧ b.stop ≤ a.stop) := by
  have h1 : ∀ (x : Rng) (l : List Rng), (insert x l).Perm (x :: l) := by
    intro x l
    induction l with
    | nil => exact .refl _
    | cons y l ih =>
      unfold insert
      split
      · exact .refl _
      · exact (List.Perm.cons y ih).trans (.swap x y l)
  have h2 : ∀ (x : Rng) (l : List Rng), l.Pairwise le → (insert x l).Pairwise le := by
    intro x l
    induction l with
    | nil => intro _; simp [insert]
    | cons y l ih =>
      intro h
      have hc := List.pairwise_cons.1 h
      unfold insert
      split
      · rename_i hxy
        refine List.pairwise_cons.2 ⟨fun z hz => ?_, h⟩
        rcases List.mem_cons.1 hz with rfl | hz
        · exact hxy
        · have := hc.1 z hz; unfold le at *; omega
      · rename_i hxy
        refine List.pairwise_cons.2 ⟨fun z hz => ?_, ih hc.2⟩
        rcases List.mem_cons.1 ((h1 x l).mem_iff.1 hz) with rfl | hz
        · unfold le at *; omega
        · exact hc.1 z hz
  induction l with
  | nil => exact ⟨.refl _, .nil⟩
  | cons x l ih => exact ⟨(h1 x _).trans (.cons x ih.1), h2 x _ ih.2⟩

/-- both thresholds for the same path, and a path with a loop, on one server -/
def calls : List ((Nat → Nat) × List Nat) := [(fun _ => 0, [0, 1, 2, 3, 4]), (fun d => d / 2, [0, 1, 2, 3, 4]), (fun _ => 0, [0, 1, 2, 3, 1, 2])]

def answers (dbg : Bool) (g : FOGraph) (calls : List ((Nat → Nat) × List Nat)) : Option (List (List Rng)) := do
  let (s, st) ← DijServer.new g
  let (outs, _) ← s.run dbg sort st calls
  return outs

theorem valid : ∀ c ∈ calls, ValidUbs g c.1 c.2 := by
  intro c hc
  simp only [calls, List.mem_cons, List.not_mem_nil, or_false] at hc
  have a01 : g.Arc 0 1 10 := ⟨_, rfl, by decide⟩
  have a12 : g.Arc 1 2 10 := ⟨_, rfl, by decide⟩
  have a23 : g.Arc 2 3 10 := ⟨_, rfl, by decide⟩
  have a34 : g.Arc 3 4 10 := ⟨_, rfl, by decide⟩
  have a31 : g.Arc 3 1 10 := ⟨_, rfl, by decide⟩
  rcases hc with rfl | rfl | rfl
  · exact ⟨fun a b _ => Nat.le_refl _, by decide, .inr ⟨_, by decide, .cons a01 (.cons a12 (.cons a23 (.cons a34 (.single 4))))⟩⟩
  · exact ⟨fun a b h => Nat.div_le_div_right h, by decide, .inr ⟨_, by decide, .cons a01 (.cons a12 (.cons a23 (.cons a34 (.single 4))))⟩⟩
  · exact ⟨fun a b _ => Nat.le_refl _, by decide, .inr ⟨_, by decide, .cons a01 (.cons a12 (.cons a23 (.cons a31 (.cons a12 (.single 2)))))⟩⟩

/-- the hypotheses hold, and these are the answers -/
example : g.WF ∧ g.Bounded ∧ (∀ w ∈ g.weight, 0 < w) ∧ (∀ c ∈ calls, ValidUbs g c.1 c.2) ∧
    answers true g calls = some [[⟨0, 2⟩, ⟨1, 3⟩], [⟨1, 3⟩], [⟨1, 4⟩, ⟨2, 5⟩]] :=
  ⟨g_wf, by unfold FOGraph.Bounded; decide +kernel, by decide, valid, by decide +kernel⟩

/-- the arc 0 → 2 has weight 0 -/
def z : FOGraph := ⟨[0, 2, 3, 3], [1, 2, 2], [1, 0, 1]⟩

end UBS.Example

/-- With arcs of weight 0 builds with debug assertions panic although the path is valid (`debug_assert!(shortest_dist > 0)`), others
answer. -/
theorem C61_zero_weight_debug_panic : ∃ g : FOGraph, g.WF ∧ g.Bounded ∧ ∃ path, ValidUbs g (fun _ => 0) path ∧
    UBS.Example.answers true g [(fun _ => 0, path)] = none ∧ UBS.Example.answers false g [(fun _ => 0, path)] = some [[⟨0, 2⟩]] := by
  have a01 : UBS.Example.z.Arc 0 1 1 := ⟨_, rfl, by decide⟩
  have a12 : UBS.Example.z.Arc 1 2 1 := ⟨_, rfl, by decide⟩
  exact ⟨UBS.Example.z, ⟨by decide, by decide, by decide, by decide, FOGraph.mono_of_check (by decide), by decide⟩, by unfold FOGraph.Bounded; decide +kernel, [0, 1, 2],
    ⟨fun a b _ => Nat.le_refl _, by decide, .inr ⟨_, by decide, .cons a01 (.cons a12 (.single 2))⟩⟩, by decide +kernel, by decide +kernel⟩

end Verif
