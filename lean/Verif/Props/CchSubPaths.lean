import Verif.Proof.PathPotRanks
import Verif.Props.SubPaths
import Verif.Props.Perfect
set_option linter.unusedSimpArgs false
set_option linter.unusedVariables false
/- Property C62: finding violating subpaths with the trees of a customizable contraction hierarchy. -/
namespace Verif
open Spec CCH UBS

namespace UBS

theorem cch_find_spec' {n : Nat} {c : Cch} {g : FOGraph} {w0 w : Weights} {p : PW} (hg : g.WF) (hn : g.numNodes = n) (ho : c.order.OK n)
    (hp : Perf n c (InRanks g.Arc c.order.node) w0 w p) (hpos : ∀ x ∈ g.weight, 0 < x) (dbg : Bool) {srt : List Rng → List Rng}
    (hsrt : ∀ l, (srt l).Perm l ∧ (srt l).Pairwise (fun a b => a.start < b.start ∨ a.start = b.start ∧ b.stop ≤ a.stop)) {thr : Nat → Nat} {path : List Nat}
    (hmono : ∀ a b, a ≤ b → thr a ≤ thr b) (hnodes : ∀ v ∈ path, v < g.numNodes) (hpath : path.Nodup → path = [] ∨ ∃ d, d < INFINITY ∧ PathOf g.Arc path d)
    {st : State PathState PathState} (hst : SOK n (PReady n) (PReady n) st) :
    ∃ out st', CchServer.find dbg (CchServer.new c (perfSides n c w p) g).1 srt st thr path = some (out, st') ∧
      SOK n (PReady n) (PReady n) st' ∧ UbsAnswer g.Arc thr path out := by
  have hpos' : ∀ u v l, InRanks g.Arc c.order.node u v l → 0 < l := by
    rintro u v l ⟨a, b, _, _, ls, h1, h2⟩
    exact hpos _ (hg.mem_weights h1 h2)
  have hA : ∀ u v l, g.Arc u v l → u < n ∧ v < n := by
    intro u v l h
    rw [← hn]; exact CCH.FOGraph.WF.arc_lt hg h
  obtain ⟨nodes, h1, h2, h3⟩ := ranks_of ho path (by rw [← hn]; exact hnodes)
  have hlen : st.ranks.length = n := by rw [hst.ranks]; simp
  have hd : nodes.Nodup → ∃ dists, pathDists dbg g path = some dists ∧ Steps (InRanks g.Arc c.order.node) nodes dists := by
    intro hnd
    have hnd' : path.Nodup := by
      rw [← h3]
      exact hnd.map_on (fun x hx y hy h => nd_inj ho (h2 x hx) (h2 y hy) h)
    obtain ⟨dists, e1, e2⟩ : ∃ dists, pathDists dbg g path = some dists ∧ Steps g.Arc path dists := by
      rcases hpath hnd' with h | ⟨d, hd, hp⟩
      · rw [h]; exact pathDists_nil dbg
      · exact pathDists_spec hg dbg hp hd
    exact ⟨dists, e1, steps_ranks ho h2 (by rw [h3]; exact e2)⟩
  have hwp : dbg = true → ∀ u v d, u ≠ v → Walk (InRanks g.Arc c.order.node) u v d → 0 < d := by
    intro _ u v d hne h
    cases h with
    | nil => exact absurd rfl hne
    | cons ha _ => have := hpos' _ _ _ ha; omega
  obtain ⟨out, st', e1, e2, e3⟩ := findUbs_spec (pathOracle_ok (hp.forward hpos') dbg) (pathOracle_ok (hp.backward hpos') dbg) hsrt hmono hwp hst h2 hd
  refine ⟨out, st', ?_, e2, ?_⟩
  · simp only [CchServer.find, CchServer.new, h1, hlen, Option.bind_eq_bind, Option.bind_some]
    exact e1
  · have := (ubsAnswer_iff ho hA h2).1 e3
    rwa [h3] at this

theorem cch_find_spec {n : Nat} {c : Cch} {g : FOGraph} {w0 w : Weights} {p : PW} (hg : g.WF) (hn : g.numNodes = n) (ho : c.order.OK n)
    (hp : Perf n c (InRanks g.Arc c.order.node) w0 w p) (hpos : ∀ x ∈ g.weight, 0 < x) (dbg : Bool) {srt : List Rng → List Rng}
    (hsrt : ∀ l, (srt l).Perm l ∧ (srt l).Pairwise (fun a b => a.start < b.start ∨ a.start = b.start ∧ b.stop ≤ a.stop)) {thr : Nat → Nat} {path : List Nat}
    (hv : ValidUbs g thr path) {st : State PathState PathState} (hst : SOK n (PReady n) (PReady n) st) :
    ∃ out st', CchServer.find dbg (CchServer.new c (perfSides n c w p) g).1 srt st thr path = some (out, st') ∧
      SOK n (PReady n) (PReady n) st' ∧ UbsAnswer g.Arc thr path out :=
  cch_find_spec' hg hn ho hp hpos dbg hsrt hv.mono hv.nodes (fun _ => hv.path) hst

end UBS

section
variable (g : FOGraph) (hg : g.WF) (l : List Nat) (hl : l.length = g.numNodes) (order : NodeOrder)
  (hord : NodeOrder.fromNodeOrder l = some order) (c : Cch) (hc : build g order = some c)
include hg hl hord hc

/-- **C62.** For every graph with positive weights, every node order and every history of calls of `find_ubs_violating_subpaths` on one
server that takes its shortest path trees from the perfectly customized CCH of the graph: no call panics (in particular no recursion of
the path unpacking is deeper than the square of the number of nodes), and each answers exactly the minimal subpaths that are longer
than the distance `d` of their ends by more than the threshold for `d`, each once, in order; or, if the path visits nodes repeatedly,
exactly the subpaths that return to their first node for the first time. The distances are those of the graph, not of the CCH. -/
theorem C62_cch_ubs_subpaths (hpos : ∀ x ∈ g.weight, 0 < x) (dbg : Bool) (srt : List Rng → List Rng)
    (hsrt : ∀ l, (srt l).Perm l ∧ (srt l).Pairwise (fun a b => a.start < b.start ∨ a.start = b.start ∧ b.stop ≤ a.stop))
    (calls : List ((Nat → Nat) × List Nat)) (hcalls : ∀ x ∈ calls, ValidUbs g x.1 x.2) :
    ∃ w fb outs st', customize c g = some w ∧ customizePerfect c w = some fb ∧
      (CchServer.new c fb g).1.run dbg srt (CchServer.new c fb g).2 calls = some (outs, st') ∧ outs.length = calls.length ∧
      ∀ (i : Nat) (x : (Nat → Nat) × List Nat) (out : List Rng), calls[i]? = some x → outs[i]? = some out → UbsAnswer g.Arc x.1 x.2 out := by
  have hok : order.OK g.numNodes := by rw [← hl]; exact NodeOrder.ok_of_fromNodeOrder hord
  rcases build_spec hg hok with h | ⟨c', h1, hgd, hb⟩
  · rw [hc] at h; simp at h
  · rw [hc] at h1; simp at h1; subst h1
    obtain ⟨w, fb, p, w0, k1, k2, _, _, rfl, hp⟩ := perfect_ready hg hok hgd hb (metric := g) ⟨hg, rfl, rfl⟩
    have hoe := hb.order_eq
    rw [← hoe] at hp
    have key : ∀ (calls : List ((Nat → Nat) × List Nat)), (∀ x ∈ calls, ValidUbs g x.1 x.2) → ∀ st : State PathState PathState,
        SOK g.numNodes (PReady g.numNodes) (PReady g.numNodes) st →
        ∃ outs st', CchServer.run dbg (CchServer.new c (perfSides g.numNodes c w p) g).1 srt st calls = some (outs, st') ∧ outs.length = calls.length ∧
          ∀ (i : Nat) (x : (Nat → Nat) × List Nat) (out : List Rng), calls[i]? = some x → outs[i]? = some out → UbsAnswer g.Arc x.1 x.2 out := by
      intro calls
      induction calls with
      | nil => intro _ st _; exact ⟨[], st, rfl, rfl, by simp⟩
      | cons x cs ih =>
        intro hv st hst
        obtain ⟨thr, path⟩ := x
        obtain ⟨out, st1, e1, e2, e3⟩ := cch_find_spec hg rfl (by rw [hoe]; exact hok) hp hpos dbg hsrt (hv (thr, path) (by simp)) hst
        obtain ⟨outs, st2, f1, f2, f3⟩ := ih (fun x h => hv x (by simp [h])) st1 e2
        refine ⟨out :: outs, st2, by simp only [CchServer.run, e1, f1, Option.bind_eq_bind, Option.bind_some, Option.pure_def], by simp [f2], ?_⟩
        intro i x o h5 h6
        cases i with
        | zero => simp at h5 h6; subst h5 h6; exact e3
        | succ i => exact f3 i x o (by simpa using h5) (by simpa using h6)
    have hnn : (perfSides g.numNodes c w p).1.graph.numNodes = g.numNodes := hp.dirs.1.nn
    obtain ⟨outs, st', e1, e2, e3⟩ := key calls hcalls (CchServer.new c (perfSides g.numNodes c w p) g).2 (by
      simp only [CchServer.new, hnn]
      exact ⟨PReady.new _ _, PReady.new _ _, rfl, rfl⟩)
    exact ⟨w, _, outs, st', k1, k2, e1, e2, e3⟩

end

namespace UBS.Example

/-- the server after building, customizing and perfect customization with the given node order -/
def cchAnswers (dbg : Bool) (g : FOGraph) (l : List Nat) (calls : List ((Nat → Nat) × List Nat)) : Option (List (List Rng)) := do
  let order ← NodeOrder.fromNodeOrder l
  let c ← build g order
  let w ← customize c g
  let fb ← customizePerfect c w
  let (outs, _) ← (CchServer.new c fb g).1.run dbg sort (CchServer.new c fb g).2 calls
  return outs

/-- the hypotheses hold (see C61), the build succeeds, and these are the answers -/
example : g.WF ∧ (∀ w ∈ g.weight, 0 < w) ∧ (∀ x ∈ calls, ValidUbs g x.1 x.2) ∧ [2, 0, 5, 4, 1, 3].length = g.numNodes ∧
    cchAnswers true g [2, 0, 5, 4, 1, 3] calls = some [[⟨0, 2⟩, ⟨1, 3⟩], [⟨1, 3⟩], [⟨1, 4⟩, ⟨2, 5⟩]] :=
  ⟨g_wf, by decide, valid, by decide, by decide +kernel⟩

/-- arcs of weight 0 form the cycle 1 → 3 → 2 → 1 -/
def z5 : FOGraph := ⟨[0, 1, 2, 5, 6, 6], [4, 3, 0, 1, 4, 2], [5, 0, 5, 0, 1, 0]⟩

/-- The entries of `target_shortest_path_tree` after `init(target)` and `unpack_path(node)` on a new potential. -/
def treeAfter (dbg : Bool) (g : FOGraph) (l : List Nat) (target node : Nat) : Option (List Nat) := do
  let order ← NodeOrder.fromNodeOrder l
  let c ← build g order
  let w ← customize c g
  let fb ← customizePerfect c w
  let P := forwardPathPot c fb
  let s ← P.init (PathState.new g.numNodes fb.1.head.length) target
  let s ← P.unpack dbg 36 s node
  return s.parents.map Prod.fst

end UBS.Example

/-- Positive weights are needed: with arcs of weight 0, unpacking the path from node 2 to node 4 (`unpack_path` returns) leaves the
cycle 2 → 1 → 3 → 2 in the "tree", although the arc 2 → 4 is the shortest path. -/
theorem C62_zero_weight_cycle : UBS.Example.z5.WF ∧ UBS.Example.z5.Bounded ∧ IsDist UBS.Example.z5.Arc 2 4 1 ∧
    ∀ dbg, ∃ tree, UBS.Example.treeAfter dbg UBS.Example.z5 [0, 1, 2, 3, 4] 4 2 = some tree ∧ tree[2]? = some 1 ∧ tree[1]? = some 3 ∧ tree[3]? = some 2 := by
  have a24 : UBS.Example.z5.Arc 2 4 1 := ⟨_, rfl, by decide⟩
  have hwf : UBS.Example.z5.WF := ⟨by decide, by decide, by decide, by decide, FOGraph.mono_of_check (by decide), by decide⟩
  refine ⟨hwf, by unfold FOGraph.Bounded; decide +kernel, ?_,
    fun dbg => ⟨[5, 3, 1, 2, 4], by cases dbg <;> decide +kernel, rfl, rfl, rfl⟩⟩
  refine ⟨.cons a24 (.nil 4), ?_⟩
  have key : ∀ u v d, Walk UBS.Example.z5.Arc u v d → v = 4 → u ≠ 4 → 1 ≤ d := by
    intro u v d h
    induction h with
    | nil => intro h1 h2; exact absurd h1 h2
    | @cons u x v w d ha _ ih =>
      intro h1 h2
      by_cases hx : x = 4
      · subst hx
        obtain ⟨ls, h3, h4⟩ := ha
        have hu : u < 5 := (CCH.FOGraph.WF.arc_lt hwf ⟨ls, h3, h4⟩).1
        have : ∀ u, u < 5 → ∀ l ∈ (UBS.Example.z5.linkIter u).getD [], l.node = 4 → 1 ≤ l.weight := by decide
        have := this u hu _ (by rw [h3]; exact h4) rfl
        simp only at this
        omega
      · have := ih h1 hx; omega
  intro d' h
  exact key 2 4 d' h rfl (by decide)

/-- With arcs of weight 0 the server based on the CCH does not answer for a valid path, with and without debug assertions, while the
server based on Dijkstra's algorithm does: the search runs into a cycle as in `C62_zero_weight_cycle`. -/
theorem C62_zero_weight_no_answer : ∃ g : FOGraph, g.WF ∧ g.Bounded ∧ ∃ path, ValidUbs g (fun _ => 0) path ∧
    UBS.Example.cchAnswers true g [0, 1, 2, 3, 4] [(fun _ => 0, path)] = none ∧ UBS.Example.cchAnswers false g [0, 1, 2, 3, 4] [(fun _ => 0, path)] = none ∧
    UBS.Example.answers false g [(fun _ => 0, path)] = some [[⟨0, 2⟩]] := by
  have a20 : UBS.Example.z5.Arc 2 0 5 := ⟨_, rfl, by decide⟩
  have a04 : UBS.Example.z5.Arc 0 4 5 := ⟨_, rfl, by decide⟩
  exact ⟨UBS.Example.z5, ⟨by decide, by decide, by decide, by decide, FOGraph.mono_of_check (by decide), by decide⟩, by unfold FOGraph.Bounded; decide +kernel, [2, 0, 4],
    ⟨fun a b _ => Nat.le_refl _, by decide, .inr ⟨_, by decide, .cons a20 (.cons a04 (.single 4))⟩⟩, by decide +kernel, by decide +kernel, by decide +kernel⟩

end Verif
