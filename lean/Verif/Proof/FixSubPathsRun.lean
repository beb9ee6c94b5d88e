import Verif.Proof.FixSubPathsLoop
import Verif.Props.CchSubPaths
set_option linter.unusedSimpArgs false
set_option linter.unusedVariables false
namespace Verif
namespace UBS
open Spec CCH

section
variable {n : Nat} {c : Cch} {g : FOGraph} {w0 w : Weights} {p : PW} (hg : g.WF) (hn : g.numNodes = n) (ho : c.order.OK n)
    (hp : Perf n c (InRanks g.Arc c.order.node) w0 w p) (hpos : ∀ x ∈ g.weight, 0 < x) (dbg : Bool) {srt byStart : List Rng → List Rng}
    (hsrt : ∀ l, (srt l).Perm l ∧ (srt l).Pairwise (fun a b => a.start < b.start ∨ a.start = b.start ∧ b.stop ≤ a.stop))
    (hby : ∀ l, (byStart l).Perm l ∧ (byStart l).Pairwise (fun a b => a.start ≤ b.start))
include hg hn ho hp hpos hsrt hby

theorem fixOnce_spec {thr : Nat → Nat} {path : List Nat} (hv : ValidUbs g thr path) {st : State PathState PathState} (hst : SOK n (PReady n) (PReady n) st) :
    ∃ r st', fixOnce dbg (CchServer.new c (perfSides n c w p) g).1 srt byStart thr st path = some (r, st') ∧ SOK n (PReady n) (PReady n) st' ∧
      (r = none → NoViolation g.Arc thr path) ∧
      ∀ q, r = some q → ¬ NoViolation g.Arc thr path ∧ ValidUbs g thr q ∧ ∃ len, PathOf g.Arc path len ∧ len < INFINITY ∧ Repaired g.Arc path q := by
  obtain ⟨out, st1, e1, e2, e3⟩ := cch_find_spec hg hn ho hp hpos dbg hsrt hv hst
  unfold fixOnce
  simp only [e1, Option.bind_eq_bind, Option.bind_some, Option.pure_def]
  by_cases hout : out = []
  · rw [if_pos hout]
    exact ⟨none, st1, rfl, e2, fun _ => (noViolation_iff e3).1 hout, by simp⟩
  · rw [if_neg hout]
    have hnv : ¬ NoViolation g.Arc thr path := fun h => hout ((noViolation_iff e3).2 h)
    have hA : ∀ u v l, g.Arc u v l → u < n ∧ v < n := by
      intro u v l h
      rw [← hn]; exact CCH.FOGraph.WF.arc_lt hg h
    have hpA : ∀ u v l, g.Arc u v l → 0 < l := by
      rintro u v l ⟨ls, h1, h2⟩
      exact hpos _ (hg.mem_weights h1 h2)
    have hpos' : ∀ u v l, InRanks g.Arc c.order.node u v l → 0 < l := by
      rintro u v l ⟨a, b, _, _, h⟩
      exact hpA _ _ _ h
    have hpn : ∀ v ∈ path, v < n := by rw [← hn]; exact hv.nodes
    obtain ⟨len, hlen, hpath⟩ : ∃ len, len < INFINITY ∧ PathOf g.Arc path len := by
      rcases hv.path with h | h
      · exfalso
        apply hnv
        subst h
        refine ⟨by simp, ?_⟩
        rintro r ⟨_, s, t, _, _, h, _⟩
        simp at h
      · exact h
    have hlong := longer_of e3 hpA hpath hlen
    have hrl : st1.ranks.length = n := by rw [e2.ranks]; simp
    obtain ⟨f, k, f1, f2, f3, f4⟩ := foldRanges_spec (w := w) (p := p) (g := g) ho hA (hp.forward hpos') dbg hpn (byStart out) 0 ⟨[], 0, st1.tgt⟩ 0
      (fun r hr => hlong r ((hby out).1.mem_iff.1 hr)) e2.tgt (FInv.init path) (by simp)
    have hk : 0 < k := by
      have := retainDisjoint_ne (l := byStart out) (by
        intro h
        exact hout (List.perm_nil.1 (h ▸ (hby out).1.symm)))
      omega
    have hpl : 0 < path.length := by cases hpath <;> simp
    obtain ⟨part, g1, g2⟩ := f3.push (j := path.length - 1) (by have := f3.le; omega) (by omega)
    have hll : path.length - 1 + 1 = path.length := by omega
    rw [hll] at g1 g2
    obtain ⟨x, f0, i1, i2, i3, i4⟩ := g2.step (path.length - 1) hll.symm
    have hrep : Repaired g.Arc path (f.fixed ++ part) := by
      refine ⟨i3, ?_, ?_⟩
      · rw [i2, List.getLast?_append, List.getLast?_eq_getElem? (l := path), i1]; rfl
      · rw [List.take_length] at i4
        exact i4.weaken hk
    rw [hrl]
    simp only [f1, g1, Option.bind_some]
    refine ⟨some (f.fixed ++ part), _, rfl, ⟨f2, e2.src, e2.cache, e2.ranks⟩, by simp, ?_⟩
    intro q hq
    simp only [Option.some.injEq] at hq
    subst hq
    obtain ⟨l', j1, j2⟩ := hrep.saves len hpath
    refine ⟨hnv, ⟨hv.mono, ?_, .inr ⟨l', by omega, j1⟩⟩, len, hpath, hlen, hrep⟩
    rw [hn]
    apply pathOf_mem j1 hA
    intro v hv'
    rw [hrep.head] at hv'
    exact hpn v (List.mem_of_head? hv')

/-- what the loop has found so far -/
def Sofar (A : Nat → Nat → Nat → Prop) (thr : Nat → Nat) (orig : List Nat) : Option (List Nat) → Prop
  | none => True
  | some q => Repaired A orig q ∧ ¬ NoViolation A thr orig ∧ ∃ len, PathOf A orig len

/-- what the loop returns -/
def Done (A : Nat → Nat → Nat → Prop) (thr : Nat → Nat) (late : Nat → Bool) (orig : List Nat) : Fixed → Prop
  | .ok none => NoViolation A thr orig
  | .ok (some q) => NoViolation A thr q ∧ Repaired A orig q ∧ ¬ NoViolation A thr orig ∧ ∃ len, PathOf A orig len
  | .late q => (∃ i, late i = true) ∧ Repaired A orig q ∧ ¬ NoViolation A thr orig ∧ ∃ len, PathOf A orig len

theorem fixLoop_spec {thr : Nat → Nat} {late : Nat → Bool} {orig : List Nat} : ∀ (fuel i : Nat) (res : Option (List Nat)) (st : State PathState PathState),
    SOK n (PReady n) (PReady n) st → ValidUbs g thr (res.getD orig) → Sofar g.Arc thr orig res → 0 < fuel →
    (∀ len, CheapestLen g.Arc (res.getD orig) len → len < fuel) →
    ∃ r st', fixLoop dbg (CchServer.new c (perfSides n c w p) g).1 srt byStart thr late orig fuel i res st = some (r, st') ∧ SOK n (PReady n) (PReady n) st' ∧
      Done g.Arc thr late orig r := by
  intro fuel
  induction fuel with
  | zero => intro i res st _ _ _ h; omega
  | succ fuel ih =>
    intro i res st hst hv hs _ hf
    obtain ⟨r, st1, e1, e2, e3, e4⟩ := fixOnce_spec hg hn ho hp hpos dbg hsrt hby hv hst
    unfold fixLoop
    simp only [e1, Option.bind_eq_bind, Option.bind_some, Option.pure_def]
    cases r with
    | none =>
      refine ⟨_, _, rfl, e2, ?_⟩
      cases res with
      | none => exact e3 rfl
      | some q => exact ⟨e3 rfl, hs⟩
    | some q =>
      obtain ⟨h1, h2, len, h3, h4, h5⟩ := e4 q rfl
      have hs' : Sofar g.Arc thr orig (some q) := by
        cases res with
        | none => exact ⟨h5, h1, len, h3⟩
        | some q' => exact ⟨hs.1.trans h5, hs.2⟩
      dsimp only
      by_cases hl : late (i + 1) = true
      · rw [if_pos hl]
        exact ⟨_, _, rfl, e2, ⟨_, hl⟩, hs'⟩
      · rw [if_neg hl]
        obtain ⟨a, b, ha, hb, hab⟩ := (h5.saves.shorter (by omega) h3 h5.head h5.last).2.2
        have := hf a ha
        refine ih (i + 1) (some q) st1 e2 h2 hs' (by omega) ?_
        intro len' hlen'
        have : len' = b := Nat.le_antisymm (hlen'.2 _ hb.1) (hb.2 _ hlen'.1)
        omega

end

end UBS
end Verif
