import Verif.Proof.PathStatsRun
set_option linter.unusedSimpArgs false
set_option linter.unusedVariables false
/- Property C63: repairing paths and measuring them with the trees of a customizable contraction hierarchy. -/
namespace Verif
open Spec CCH UBS

namespace UBS

/-- A call that may be made: a path of the graph with total length below `INFINITY`, a monotone threshold, and what each function needs
besides. For `fix` the bound on the number of rounds is larger than the length of the path. -/
def ValidOp (g : FOGraph) (fuel : Nat) : PathOp → Prop
  | .find thr path => ValidUbs g thr path
  | .findNaive thr path => ValidUbs g thr path ∧ path ≠ []
  | .fix thr _ path => ValidUbs g thr path ∧ ∀ len, CheapestLen g.Arc path len → len < fuel
  | .localOptimality path => ValidUbs g (fun _ => 0) path ∧ path.Nodup
  | .suboptimalStats path => ValidUbs g (fun _ => 0) path ∧ path.Nodup

/-- the right answer -/
def RightReply (A : Nat → Nat → Nat → Prop) : PathOp → Reply → Prop
  | .find thr path, .ranges l => UbsAnswer A thr path l
  | .findNaive thr path, .ranges l => UbsAnswer A thr path l
  | .fix thr _ path, .fixed (.ok none) => NoViolation A thr path
  | .fix thr _ path, .fixed (.ok (some q)) => ¬ NoViolation A thr path ∧ NoViolation A thr q ∧ ShorterPath A path q
  | .fix thr late path, .fixed (.late q) => (∃ i, late i = true) ∧ ¬ NoViolation A thr path ∧ ShorterPath A path q
  | .localOptimality path, .local lo base => LocalOptimality A path base lo
  | .suboptimalStats path, .stats lo base num den => LocalOptimality A path base lo ∧ MaxDetour A path num den
  | _, _ => False

section
variable {n : Nat} {c : Cch} {g : FOGraph} {w0 w : Weights} {p : PW} (hg : g.WF) (hn : g.numNodes = n) (ho : c.order.OK n)
    (hp : Perf n c (InRanks g.Arc c.order.node) w0 w p) (hpos : ∀ x ∈ g.weight, 0 < x) (dbg : Bool) {srt byStart : List Rng → List Rng}
    (hsrt : ∀ l, (srt l).Perm l ∧ (srt l).Pairwise (fun a b => a.start < b.start ∨ a.start = b.start ∧ b.stop ≤ a.stop))
    (hby : ∀ l, (byStart l).Perm l ∧ (byStart l).Pairwise (fun a b => a.start ≤ b.start)) {fuel : Nat} (hfuel : 0 < fuel)
include hg hn ho hp hpos hsrt hby hfuel

theorem op_spec (o : PathOp) (hv : ValidOp g fuel o) {st : State PathState PathState} (hst : SOK n (PReady n) (PReady n) st) :
    ∃ r st', CchServer.op dbg (CchServer.new c (perfSides n c w p) g).1 srt byStart fuel st o = some (r, st') ∧ SOK n (PReady n) (PReady n) st' ∧
      RightReply g.Arc o r := by
  cases o with
  | find thr path =>
    obtain ⟨out, st', e1, e2, e3⟩ := cch_find_spec hg hn ho hp hpos dbg hsrt hv hst
    exact ⟨.ranges out, st', by simp only [CchServer.op, e1, Option.bind_eq_bind, Option.bind_some, Option.pure_def], e2, e3⟩
  | findNaive thr path =>
    obtain ⟨out, st', e1, e2, e3⟩ := findNaive_spec hg hn ho hp hpos dbg hsrt hv.1 hv.2 hst
    exact ⟨.ranges out, st', by simp only [CchServer.op, e1, Option.bind_eq_bind, Option.bind_some, Option.pure_def], e2, e3⟩
  | fix thr late path =>
    obtain ⟨r, st', e1, e2, e3⟩ := fixLoop_spec hg hn ho hp hpos dbg hsrt hby (thr := thr) (late := late) (orig := path) fuel 0 none st hst hv.1 trivial hfuel hv.2
    refine ⟨.fixed r, st', by simp only [CchServer.op, CchServer.fix, e1, Option.bind_eq_bind, Option.bind_some, Option.pure_def], e2, ?_⟩
    match r, e3 with
    | .ok none, e3 => exact e3
    | .ok (some q), ⟨h1, h2, h3, len, h4⟩ => exact ⟨h3, h1, h2.saves.shorter (by omega) h4 h2.head h2.last⟩
    | .late q, ⟨h1, h2, h3, len, h4⟩ => exact ⟨h1, h3, h2.saves.shorter (by omega) h4 h2.head h2.last⟩
  | localOptimality path =>
    obtain ⟨k, base, st', l, e1, e2, e3, e4, e5, e6⟩ := pathStat_spec hg hn ho hp hpos dbg (fun base => base) localOpt hv.1 hv.2
      (fun r len d _ _ _ k => by unfold localOpt; split <;> exact ⟨_, _, rfl⟩) hst
    exact ⟨.local k base, st', by simp only [CchServer.op, CchServer.localOptimality, e1, Option.bind_eq_bind, Option.bind_some, Option.pure_def], e2, localOpt_spec e3 e4 e5⟩
  | suboptimalStats path =>
    obtain ⟨⟨lo, num, den⟩, base, st', l, e1, e2, e3, e4, e5, e6⟩ := pathStat_spec hg hn ho hp hpos dbg (fun base => (base, 0, 1)) (subOpt dbg) hv.1 hv.2
      (fun r len d _ hle hd k => by
        have hc : check dbg (decide (d ≠ 0)) = some () := by
          simp only [check, decide_eq_true (show d ≠ 0 by omega)]; simp
        unfold subOpt
        simp only [hc, Option.bind_eq_bind, Option.bind_some, minus, if_pos hle, Option.pure_def]
        split <;> exact ⟨_, _, rfl⟩) hst
    exact ⟨.stats lo base num den, st', by simp only [CchServer.op, CchServer.suboptimalStats, e1, Option.bind_eq_bind, Option.bind_some, Option.pure_def], e2,
      subOpt_spec e3 e4 e6 e5⟩

end

end UBS

section
variable (g : FOGraph) (hg : g.WF) (l : List Nat) (hl : l.length = g.numNodes) (order : NodeOrder)
  (hord : NodeOrder.fromNodeOrder l = some order) (c : Cch) (hc : build g order = some c)
include hg hl hord hc

/-- **C63.** For every graph with positive weights, every node order and every history of calls on one server that takes its shortest
path trees from the perfectly customized CCH of the graph, no call panics and each gives the right answer:

* `find_ubs_violating_subpaths` and its naive variant (for paths that are not empty): as in C62.
* `fix_violating_subpaths` ends after at most as many rounds as the path is long. It answers `Ok(None)` only if the path has no
  violating subpath; `Ok(Some(q))` only if it has one, and then `q` has none, leads from the first to the last node of the path and is
  shorter; `Err(q)` only if the time is up, with such a shorter path `q`.
* `local_optimality` (for paths without repeated nodes) is the length of the shortest subpath that is no shortest path, by the length
  of the path.
* `suboptimal_stats` is that, and the largest ratio of detour and distance of all subpaths (as an exact fraction). -/
theorem C63_path_repair_and_stats (hpos : ∀ x ∈ g.weight, 0 < x) (dbg : Bool) (srt byStart : List Rng → List Rng)
    (hsrt : ∀ l, (srt l).Perm l ∧ (srt l).Pairwise (fun a b => a.start < b.start ∨ a.start = b.start ∧ b.stop ≤ a.stop))
    (hby : ∀ l, (byStart l).Perm l ∧ (byStart l).Pairwise (fun a b => a.start ≤ b.start)) (fuel : Nat) (hfuel : 0 < fuel)
    (calls : List PathOp) (hcalls : ∀ x ∈ calls, ValidOp g fuel x) :
    ∃ w fb outs st', customize c g = some w ∧ customizePerfect c w = some fb ∧
      (CchServer.new c fb g).1.ops dbg srt byStart fuel (CchServer.new c fb g).2 calls = some (outs, st') ∧ outs.length = calls.length ∧
      ∀ (i : Nat) (x : PathOp) (out : Reply), calls[i]? = some x → outs[i]? = some out → RightReply g.Arc x out := by
  have hok : order.OK g.numNodes := by rw [← hl]; exact NodeOrder.ok_of_fromNodeOrder hord
  rcases build_spec hg hok with h | ⟨c', h1, hgd, hb⟩
  · rw [hc] at h; simp at h
  · rw [hc] at h1; simp at h1; subst h1
    obtain ⟨w, fb, p, w0, k1, k2, _, _, rfl, hp⟩ := perfect_ready hg hok hgd hb (metric := g) ⟨hg, rfl, rfl⟩
    have hoe := hb.order_eq
    rw [← hoe] at hp
    have key : ∀ (calls : List PathOp), (∀ x ∈ calls, ValidOp g fuel x) → ∀ st : State PathState PathState,
        SOK g.numNodes (PReady g.numNodes) (PReady g.numNodes) st →
        ∃ outs st', CchServer.ops dbg (CchServer.new c (perfSides g.numNodes c w p) g).1 srt byStart fuel st calls = some (outs, st') ∧ outs.length = calls.length ∧
          ∀ (i : Nat) (x : PathOp) (out : Reply), calls[i]? = some x → outs[i]? = some out → RightReply g.Arc x out := by
      intro calls
      induction calls with
      | nil => intro _ st _; exact ⟨[], st, rfl, rfl, by simp⟩
      | cons x cs ih =>
        intro hv st hst
        obtain ⟨out, st1, e1, e2, e3⟩ := op_spec hg rfl (by rw [hoe]; exact hok) hp hpos dbg hsrt hby hfuel x (hv x (by simp)) hst
        obtain ⟨outs, st2, f1, f2, f3⟩ := ih (fun x h => hv x (by simp [h])) st1 e2
        refine ⟨out :: outs, st2, by simp only [CchServer.ops, e1, f1, Option.bind_eq_bind, Option.bind_some, Option.pure_def], by simp [f2], ?_⟩
        intro i x o h5 h6
        cases i with
        | zero => simp at h5 h6; subst h5 h6; exact e3
        | succ i => exact f3 i x o (by simpa using h5) (by simpa using h6)
    have hnn : (perfSides g.numNodes c w p).1.graph.numNodes = g.numNodes := hp.dirs.1.nn
    obtain ⟨outs, st', e1, e2, e3⟩ := key calls hcalls (CchServer.new c (perfSides g.numNodes c w p) g).2 (by
      simp only [CchServer.new, hnn]
      exact ⟨PReady.new _ _, PReady.new _ _, rfl, rfl⟩)
    exact ⟨w, _, outs, st', k1, k2, e1, e2, e3⟩

end

/-- With threshold 0 a path without violating subpaths is a shortest path, so `fix_violating_subpaths` then finds shortest paths. -/
theorem C63_no_violation_shortest (A : Nat → Nat → Nat → Prop) (q : List Nat) (s t len : Nat) (hs : q.head? = some s) (ht : q.getLast? = some t)
    (hl : CheapestLen A q len) (h : NoViolation A (fun _ => 0) q) : IsDist A s t len := by
  have hw : ∀ {p : List Nat} {l : Nat}, PathOf A p l → ∀ {x y}, p.head? = some x → p.getLast? = some y → Walk A x y l := by
    intro p l h
    induction h with
    | single u => intro x y h1 h2; simp at h1 h2; subst h1 h2; exact .nil _
    | cons ha _ ih => intro x y h1 h2; simp at h1; subst h1; exact .cons ha (ih (by simp) (by simpa using h2))
  have hwalk := hw hl.1 hs ht
  obtain ⟨d, hd, hle⟩ : ∃ d, IsDist A s t d ∧ d ≤ len := by
    classical
    have hex : ∃ d, Walk A s t d := ⟨len, hwalk⟩
    exact ⟨Nat.find hex, ⟨Nat.find_spec hex, fun d' h' => Nat.find_min' hex h'⟩, Nat.find_min' hex hwalk⟩
  rcases Nat.lt_or_ge d len with hlt | hge
  · exfalso
    rcases Nat.lt_or_ge 1 q.length with hq | hq
    · refine h.2 ⟨0, q.length - 1⟩ ⟨by simp only; omega, s, t, len, d, ?_, ?_, ?_, hd, by simpa using hlt⟩
      · rw [← List.head?_eq_getElem?]; exact hs
      · simp only; rw [← List.getLast?_eq_getElem?]; exact ht
      · have : subPath q ⟨0, q.length - 1⟩ = q := by
          simp only [subPath, List.drop_zero, Nat.sub_zero]
          apply List.take_of_length_le; omega
        rw [this]; exact hl
    · have hp := hl.1
      cases hp with
      | single => omega
      | cons _ h' => cases h' <;> simp at hq
  · have : d = len := by omega
    subst this; exact hd

/-- The naive variant panics on an empty path. -/
theorem C63_naive_empty_path : ∀ (dbg : Bool) (s : CchServer) (srt : List Rng → List Rng) (st : State PathState PathState) (thr : Nat → Nat),
    s.findNaive dbg srt st thr [] = none := by
  intro dbg s srt st thr
  simp [CchServer.findNaive, pathDists, pathDistsFrom, markPath, unmark, minus]

/-- The statistics panic on every path that visits a node twice. -/
theorem C63_stats_repeated_node : ∀ (dbg : Bool) (s : CchServer) (n : Nat) (st : State PathState PathState) (path : List Nat), s.order.OK n →
    st.ranks = List.replicate n none → (∀ v ∈ path, v < n) → ¬ path.Nodup → s.localOptimality dbg st path = none ∧ s.suboptimalStats dbg st path = none := by
  intro dbg s n st path ho hr hlt hnd
  obtain ⟨nodes, h1, h2, h3⟩ := ranks_of ho path hlt
  have hnd' : ¬ nodes.Nodup := fun h => hnd (by rw [← h3]; exact (nodup_iff ho h2).1 h)
  obtain ⟨⟨mr, mv⟩, e1, e2⟩ := markPath_spec h2
  have hmv : mv ≠ [] := fun he => hnd' (e2.nodup.1 he)
  have key : ∀ {κ : Type} (init : Nat → κ) (cb : κ → Rng → Nat → Nat → Option (κ × Bool)), pathStat dbg s init cb st path = none := by
    intro κ init cb
    unfold pathStat
    rw [h1, hr]
    cases hc : check dbg ((List.replicate n (none : Option Nat)).all (· = none)) with
    | none => simp only [hc, Option.bind_eq_bind, Option.bind_some, Option.bind_none]
    | some _ =>
      simp only [hc, e1, Option.bind_eq_bind, Option.bind_some]
      rw [if_pos hmv]
  exact ⟨key _ _, key _ _⟩

namespace UBS.Example

/-- the replies of a server built as in `cchAnswers` -/
def replies (dbg : Bool) (g : FOGraph) (l : List Nat) (fuel : Nat) (calls : List PathOp) : Option (List Reply) := do
  let order ← NodeOrder.fromNodeOrder l
  let c ← build g order
  let w ← customize c g
  let fb ← customizePerfect c w
  let (outs, _) ← (CchServer.new c fb g).1.ops dbg sort sort fuel (CchServer.new c fb g).2 calls
  return outs

/-- all functions, with time and without, also for a path with a loop, on one server -/
def ops : List PathOp := [.find (fun _ => 0) [0, 1, 2, 3, 4], .fix (fun _ => 0) (fun _ => false) [0, 1, 2, 3, 4], .findNaive (fun d => d) [0, 1, 2, 3, 4],
  .fix (fun d => d) (fun _ => true) [0, 1, 2, 3, 1, 2, 3, 4], .fix (fun d => d) (fun _ => false) [0, 1, 2, 3, 1, 2, 3, 4], .fix (fun _ => 0) (fun _ => true) [0, 1, 5, 3, 4],
  .localOptimality [0, 1, 2, 3, 4], .suboptimalStats [0, 1, 2, 3, 4]]

theorem ops_valid : ∀ o ∈ ops, ValidOp g 100 o := by
  have a01 : g.Arc 0 1 10 := ⟨_, rfl, by decide⟩
  have a12 : g.Arc 1 2 10 := ⟨_, rfl, by decide⟩
  have a23 : g.Arc 2 3 10 := ⟨_, rfl, by decide⟩
  have a34 : g.Arc 3 4 10 := ⟨_, rfl, by decide⟩
  have a31 : g.Arc 3 1 10 := ⟨_, rfl, by decide⟩
  have a15 : g.Arc 1 5 3 := ⟨_, rfl, by decide⟩
  have a53 : g.Arc 5 3 3 := ⟨_, rfl, by decide⟩
  have p1 := PathOf.cons a01 (.cons a12 (.cons a23 (.cons a34 (.single 4))))
  have p2 := PathOf.cons a01 (.cons a12 (.cons a23 (.cons a31 (.cons a12 (.cons a23 (.cons a34 (.single 4)))))))
  have p3 := PathOf.cons a01 (.cons a15 (.cons a53 (.cons a34 (.single 4))))
  have v : ∀ {path : List Nat} {d : Nat}, PathOf g.Arc path d → d < 100 → (∀ v ∈ path, v < 6) → ∀ thr : Nat → Nat, (∀ a b, a ≤ b → thr a ≤ thr b) →
      ValidUbs g thr path ∧ ∀ len, CheapestLen g.Arc path len → len < 100 := by
    intro path d hp hd hv thr ht
    exact ⟨⟨ht, hv, .inr ⟨d, Nat.lt_of_lt_of_le hd (by decide), hp⟩⟩, fun len hl => Nat.lt_of_le_of_lt (hl.2 d hp) hd⟩
  have m0 : ∀ a b : Nat, a ≤ b → (fun _ : Nat => 0) a ≤ (fun _ => 0) b := fun _ _ _ => Nat.le_refl _
  have m1 : ∀ a b : Nat, a ≤ b → (fun d : Nat => d) a ≤ (fun d => d) b := fun _ _ h => h
  intro o ho
  simp only [ops, List.mem_cons, List.not_mem_nil, or_false] at ho
  rcases ho with rfl | rfl | rfl | rfl | rfl | rfl | rfl | rfl
  · exact (v p1 (by decide) (by decide) _ m0).1
  · exact v p1 (by decide) (by decide) _ m0
  · exact ⟨(v p1 (by decide) (by decide) _ m1).1, by decide⟩
  · exact v p2 (by decide) (by decide) _ m1
  · exact v p2 (by decide) (by decide) _ m1
  · exact v p3 (by decide) (by decide) _ m0
  · exact ⟨(v p1 (by decide) (by decide) _ m0).1, by decide⟩
  · exact ⟨(v p1 (by decide) (by decide) _ m0).1, by decide⟩

theorem byStart_ok (l : List Rng) : (sort l).Perm l ∧ (sort l).Pairwise (fun a b => a.start ≤ b.start) :=
  ⟨(sort_ok l).1, (sort_ok l).2.imp (fun h => by omega)⟩

/-- the hypotheses hold, the build succeeds, and these are the replies -/
example : g.WF ∧ (∀ w ∈ g.weight, 0 < w) ∧ (∀ o ∈ ops, ValidOp g 100 o) ∧ [2, 0, 5, 4, 1, 3].length = g.numNodes ∧
    replies true g [2, 0, 5, 4, 1, 3] 100 ops = some [.ranges [⟨0, 2⟩, ⟨1, 3⟩], .fixed (.ok (some [0, 1, 5, 3, 4])), .ranges [⟨1, 3⟩],
      .fixed (.late [0, 1, 2, 3, 4]), .fixed (.ok (some [0, 1, 5, 3, 4])), .fixed (.ok none), .local 20 40, .stats 20 40 14 6] :=
  ⟨g_wf, by decide, ops_valid, by decide, by decide +kernel⟩

end UBS.Example

end Verif
