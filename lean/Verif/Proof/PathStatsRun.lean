import Verif.Proof.FixSubPathsRun
import Verif.Proof.PathStats
import Verif.Proof.NaiveSubPaths
set_option linter.unusedSimpArgs false
set_option linter.unusedVariables false
namespace Verif
namespace UBS
open Spec CCH

theorem pathDistsFrom_len {dbg : Bool} {g : FOGraph} : ∀ (path : List Nat) (x : Nat) (ds : List Nat), pathDistsFrom dbg g x path = some ds → ds.length = path.length - 1
  | [], x, ds, h => by simp [pathDistsFrom] at h; subst h; rfl
  | [u], x, ds, h => by simp [pathDistsFrom] at h; subst h; rfl
  | u :: v :: rest, x, ds, h => by
    unfold pathDistsFrom at h
    cases hw : minEdge g u v with
    | none => simp [hw] at h
    | some w =>
      cases hc : check dbg (decide (w ≠ INFINITY)) with
      | none => simp only [hw, hc, Option.bind_eq_bind, Option.bind_some, Option.bind_none] at h; exact absurd h (by simp)
      | some _ =>
        cases ha : add32 x w with
        | none => simp only [hw, hc, ha, Option.bind_eq_bind, Option.bind_some, Option.bind_none] at h; exact absurd h (by simp)
        | some y =>
          cases hr : pathDistsFrom dbg g y (v :: rest) with
          | none => simp only [hw, hc, ha, hr, Option.bind_eq_bind, Option.bind_some, Option.bind_none] at h; exact absurd h (by simp)
          | some ds' =>
            simp only [hw, hc, ha, hr, Option.bind_eq_bind, Option.bind_some, Option.pure_def, Option.some.injEq] at h
            subst h
            have := pathDistsFrom_len (v :: rest) y ds' hr
            simp at this ⊢
            omega

/-- the length of the whole path -/
theorem base_spec {g : FOGraph} (hg : g.WF) {dbg : Bool} {thr : Nat → Nat} {path : List Nat} (hv : ValidUbs g thr path) :
    ∃ dists base, pathDists dbg g path = some dists ∧ Steps g.Arc path dists ∧ dists.getLast? = some base ∧
      (path = [] ∧ base = 0 ∨ CheapestLen g.Arc path base) := by
  rcases hv.path with rfl | ⟨d, hd, hp⟩
  · obtain ⟨dists, h1, h2⟩ := pathDists_nil (g := g) dbg
    simp [pathDists, pathDistsFrom] at h1
    subst h1
    exact ⟨[0], 0, rfl, h2, rfl, .inl ⟨rfl, rfl⟩⟩
  · obtain ⟨dists, h1, h2⟩ := pathDists_spec hg dbg hp hd
    unfold pathDists at h1
    cases hr : pathDistsFrom dbg g 0 path with
    | none => simp [hr] at h1
    | some ds =>
      simp [hr] at h1
      subst h1
      have hl := pathDistsFrom_len path 0 ds hr
      have hpl : 0 < path.length := by cases hp <;> simp
      refine ⟨0 :: ds, (0 :: ds).getD (path.length - 1) 0, by simp [pathDists, hr], h2, ?_, .inr ?_⟩
      · rw [List.getLast?_eq_getElem?, List.getD_eq_getElem?_getD]
        simp only [List.length_cons, hl]
        rw [show path.length - 1 + 1 - 1 = path.length - 1 by omega, List.getElem?_eq_getElem (by simp [hl])]
        rfl
      · have key : ∀ (path ds : List Nat) (x : Nat), Steps g.Arc path (x :: ds) → 0 < path.length → ds.length = path.length - 1 →
            ∃ b, (x :: ds).getD (path.length - 1) 0 = x + b ∧ CheapestLen g.Arc path b := by
          intro path
          induction path with
          | nil => intro _ _ _ h; simp at h
          | cons u path ih =>
            intro ds x hs _ hl
            cases path with
            | nil =>
              refine ⟨0, by simp, .single u, fun _ _ => Nat.zero_le _⟩
            | cons v path =>
              cases ds with
              | nil => simp at hl
              | cons y ds =>
                obtain ⟨s1, s2, s3⟩ := hs.step 0 u v x y rfl rfl rfl rfl
                have hs' : Steps g.Arc (v :: path) (y :: ds) :=
                  ⟨by simpa using hs.len, fun i a b c d h1 h2 h3 h4 => hs.step (i + 1) a b c d (by simpa using h1) (by simpa using h2) (by simpa using h3) (by simpa using h4),
                    fun i a h1 h2 => hs.fin (i + 1) a (by simpa using h1) (by simpa using h2)⟩
                obtain ⟨b, e1, e2⟩ := ih ds y hs' (by simp) (by simpa using hl)
                refine ⟨y - x + b, ?_, .cons s2 e2.1, ?_⟩
                · simp at e1 ⊢; omega
                · intro len hlen
                  cases hlen with
                  | cons ha hp' =>
                    have := s3 _ ha
                    have := e2.2 _ hp'
                    omega
        obtain ⟨b, e1, e2⟩ := key path ds 0 h2 hpl hl
        rw [e1]; simpa using e2

section
variable {n : Nat} {c : Cch} {g : FOGraph} {w0 w : Weights} {p : PW} (hg : g.WF) (hn : g.numNodes = n) (ho : c.order.OK n)
    (hp : Perf n c (InRanks g.Arc c.order.node) w0 w p) (hpos : ∀ x ∈ g.weight, 0 < x) (dbg : Bool)
include hg hn ho hp hpos

theorem pathStat_spec {κ : Type} (init : Nat → κ) (cb : κ → Rng → Nat → Nat → Option (κ × Bool)) {thr : Nat → Nat} {path : List Nat} (hv : ValidUbs g thr path)
    (hnd : path.Nodup) (hcb : ∀ r len d, SubLen g.Arc path r len d → d ≤ len → 0 < d → ∀ k, ∃ k' b, cb k r len d = some (k', b))
    {st : State PathState PathState} (hst : SOK n (PReady n) (PReady n) st) :
    ∃ k base st' l, pathStat dbg (CchServer.new c (perfSides n c w p) g).1 init cb st path = some ((k, base), st') ∧ SOK n (PReady n) (PReady n) st' ∧
      Calls cb (init base) l k ∧ Told g.Arc path l ∧ (path = [] ∧ base = 0 ∨ CheapestLen g.Arc path base) ∧
      ∀ r len d, SubLen g.Arc path r len d → 0 < d := by
  have hpA : ∀ u v l, g.Arc u v l → 0 < l := by
    rintro u v l ⟨ls, h1, h2⟩
    exact hpos _ (hg.mem_weights h1 h2)
  have hpos' : ∀ u v l, InRanks g.Arc c.order.node u v l → 0 < l := by
    rintro u v l ⟨a, b, _, _, h⟩
    exact hpA _ _ _ h
  have hA : ∀ u v l, g.Arc u v l → u < n ∧ v < n := by
    intro u v l h
    rw [← hn]; exact CCH.FOGraph.WF.arc_lt hg h
  have hsub : ∀ r len d, SubLen g.Arc path r len d → 0 < d := by
    rintro r len d ⟨h1, s, t, h2, h3, _, h5⟩
    have hw := h5.1
    cases hw with
    | nil =>
      exfalso
      have hl := (List.getElem?_eq_some_iff.1 h3).1
      exact List.nodup_iff_getElem?_ne_getElem?.1 hnd _ _ h1 hl (by rw [h2, h3])
    | cons ha _ => have := hpA _ _ _ ha; omega
  obtain ⟨nodes, h1, h2, h3⟩ := ranks_of ho path (by rw [← hn]; exact hv.nodes)
  obtain ⟨dists, base, d1, d2, d3, d4⟩ := base_spec hg (dbg := dbg) hv
  have d2' : Steps (InRanks g.Arc c.order.node) nodes dists := steps_ranks ho h2 (by rw [h3]; exact d2)
  have hnd' : nodes.Nodup := (nodup_iff ho h2).2 (by rw [h3]; exact hnd)
  obtain ⟨tgt, src, cache, ranks⟩ := st
  obtain ⟨hR1, hR2, hR3, hR4⟩ := hst
  simp only at hR1 hR2 hR3 hR4
  subst hR3 hR4
  obtain ⟨mr, e1, e2, f, l, e3, e4, e5, e6⟩ := told_spec (pathOracle_ok (hp.forward hpos') dbg) (pathOracle_ok (hp.backward hpos') dbg) (dbg := dbg) (cb := cb) h2 hnd' d2'
    (fun r len d hr hle k => by
      rw [subLen_iff ho hA h2, h3] at hr
      exact hcb r len d hr hle (hsub r len d hr) k) (st := ⟨tgt, src, List.replicate n none, init base⟩) ⟨hR1, hR2, rfl⟩
  have hchk : check dbg ((List.replicate n (none : Option Nat)).all (· = none)) = some () := by
    have : (List.replicate n (none : Option Nat)).all (· = none) = true := by
      rw [List.all_eq_true]; intro y hy; simp [(List.mem_replicate.1 hy).2]
    rw [this]; simp [check]
  refine ⟨f.cb, base, ⟨f.tgt, f.src, f.cache, List.replicate n none⟩, l, ?_, ⟨e4.tgt, e4.src, e4.cache, rfl⟩, e5, by have := e6.ranks ho hA h2; rwa [h3] at this, d4, hsub⟩
  have e3' := e3
  unfold pathStat
  simp only [CchServer.new, h1, hchk, List.length_replicate, e1, d1, d3, Option.bind_eq_bind, Option.bind_some, Option.pure_def]
  rw [if_neg (by simp)]
  simp only [e3', e2, Option.bind_some]

theorem findNaive_spec {srt : List Rng → List Rng} (hsrt : ∀ l, (srt l).Perm l ∧ (srt l).Pairwise (fun a b => a.start < b.start ∨ a.start = b.start ∧ b.stop ≤ a.stop))
    {thr : Nat → Nat} {path : List Nat} (hv : ValidUbs g thr path) (hne : path ≠ []) {st : State PathState PathState} (hst : SOK n (PReady n) (PReady n) st) :
    ∃ out st', CchServer.findNaive dbg (CchServer.new c (perfSides n c w p) g).1 srt st thr path = some (out, st') ∧
      SOK n (PReady n) (PReady n) st' ∧ UbsAnswer g.Arc thr path out := by
  have hpA : ∀ u v l, g.Arc u v l → 0 < l := by
    rintro u v l ⟨ls, h1, h2⟩
    exact hpos _ (hg.mem_weights h1 h2)
  have hpos' : ∀ u v l, InRanks g.Arc c.order.node u v l → 0 < l := by
    rintro u v l ⟨a, b, _, _, h⟩
    exact hpA _ _ _ h
  have hA : ∀ u v l, g.Arc u v l → u < n ∧ v < n := by
    intro u v l h
    rw [← hn]; exact CCH.FOGraph.WF.arc_lt hg h
  obtain ⟨nodes, h1, h2, h3⟩ := ranks_of ho path (by rw [← hn]; exact hv.nodes)
  obtain ⟨dists, base, d1, d2, d3, d4⟩ := base_spec hg (dbg := dbg) hv
  have d2' : Steps (InRanks g.Arc c.order.node) nodes dists := steps_ranks ho h2 (by rw [h3]; exact d2)
  have hnl : 0 < nodes.length := by
    rw [← h3] at hne
    simp at hne
    exact List.length_pos_iff.2 hne
  have hwp : dbg = true → ∀ u v d, u ≠ v → Walk (InRanks g.Arc c.order.node) u v d → 0 < d := by
    intro _ u v d hne h
    cases h with
    | nil => exact absurd rfl hne
    | cons ha _ => have := hpos' _ _ _ ha; omega
  obtain ⟨tgt, src, cache, ranks⟩ := st
  obtain ⟨hR1, hR2, hR3, hR4⟩ := hst
  simp only at hR1 hR2 hR3 hR4
  subst hR3 hR4
  obtain ⟨⟨mr, mv⟩, e1, e2⟩ := markPath_spec h2
  have hun := unmark_spec h2 e2
  simp only at hun
  unfold CchServer.findNaive
  simp only [CchServer.new, d1, h1, e1, hun, Option.bind_eq_bind, Option.bind_some, Option.pure_def]
  by_cases hnd : nodes.Nodup
  · have hmv := e2.nodup.2 hnd
    simp only at hmv
    subst hmv
    rw [if_neg (by simp)]
    obtain ⟨dd, hw⟩ := whole_of hnd h2 e2 d2'
    obtain ⟨l, s', f1, f2, f3, f4⟩ := naiveOuter_spec hw (hp.backward hpos') (dbg := dbg) (thr := thr) hwp (nodes.length - 1) 0 (by omega) src hR2
    have htake := take_zipIdx (nodes := nodes) (p := fun i => nodes.getD i 0) hw.get (k := nodes.length - 1) (by omega)
    obtain ⟨out, o1, o2⟩ := covered_answer (A := InRanks g.Arc c.order.node) (thr := thr) (nodes := nodes) (l := l) hsrt hnd (fun r hr => hw.tooLong.2 (f3 r hr)) (by
      intro r hr
      obtain ⟨k1, k2, k3⟩ := hw.tooLong.1 hr
      obtain ⟨x, hx, h5, h6⟩ := f4 r.start r.stop (by omega) (by omega) k1 k2 k3
      exact ⟨x, hx, by omega, h6⟩)
    have hm : minus nodes.length 1 = some (nodes.length - 1) := by rw [minus, if_pos (show 1 ≤ nodes.length by omega)]
    simp only [hm, htake, f1, o1, Option.bind_some]
    refine ⟨out, _, rfl, ⟨hR1, f2, rfl, rfl⟩, ?_⟩
    have := (ubsAnswer_iff ho hA h2).1 o2
    rwa [h3] at this
  · have hmv : mv ≠ [] := fun he => hnd (e2.nodup.1 he)
    rw [if_pos hmv]
    refine ⟨mv, _, rfl, ⟨hR1, hR2, rfl, rfl⟩, ?_⟩
    have : UbsAnswer (InRanks g.Arc c.order.node) thr nodes mv := by
      refine ⟨fun h => absurd h hnd, fun _ => ⟨fun r => ?_, e2.sorted⟩⟩
      rw [e2.viol]
      refine ⟨fun h => h.1, fun h => ⟨h, ?_⟩⟩
      obtain ⟨_, v, _, h', _⟩ := h
      exact (List.getElem?_eq_some_iff.1 h').1
    have := (ubsAnswer_iff ho hA h2).1 this
    rwa [h3] at this

end
end UBS
end Verif
