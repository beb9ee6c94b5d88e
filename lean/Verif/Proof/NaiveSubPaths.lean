import Verif.Model.FixSubPaths
import Verif.Proof.PathPotRanks
import Verif.Proof.SubPathsUbs
set_option linter.unusedSimpArgs false
set_option linter.unusedVariables false
/- The search for violating subpaths that checks all pairs. -/
namespace Verif
namespace UBS
open Spec CCH

theorem rev_isDist {A : Nat → Nat → Nat → Prop} {s t d : Nat} (h : IsDist A s t d) : IsDist (Rev A) t s d :=
  ⟨Spec.walk_rev.2 h.1, fun d' h' => h.2 d' (Spec.walk_rev.1 h')⟩

section
variable {n : Nat} {A : Nat → Nat → Nat → Prop} {ranks : List (Option Nat)} {nodes dists : List Nat} {p D : Nat → Nat} {dd : Nat → Nat → Nat} {P : PathPot}

/-- the pair is too far apart on the path -/
def Far (thr : Nat → Nat) (D : Nat → Nat) (dd : Nat → Nat → Nat) (i j : Nat) : Prop := dd i j + thr (dd i j) < D j - D i

theorem naiveInner_spec (hw : Whole n A ranks nodes dists p D dd) (hP : HOK n P (Rev A)) {dbg : Bool} {thr : Nat → Nat}
    (hpos : dbg = true → ∀ u v d, u ≠ v → Walk A u v d → 0 < d) {i : Nat} {b : Nat → Nat} : ∀ (m a : Nat), i < a → a + m ≤ nodes.length →
    ∀ (s : PathState) (f : Nat → Option Nat) (u : Nat → Bool), PInv n P (Rev A) (p i) b s f u →
      ∃ r s' f', naiveInner dbg P thr dists i ((List.range' a m).map (fun j => (p j, j))) s = some (r, s') ∧ PInv n P (Rev A) (p i) b s' f' u ∧
        (∀ x, r = some x → x.start = i ∧ a ≤ x.stop ∧ x.stop < a + m ∧ Far thr D dd i x.stop) ∧
        ∀ j, a ≤ j → j < a + m → Far thr D dd i j → ∃ x, r = some x ∧ x.stop ≤ j := by
  intro m
  induction m with
  | zero =>
    intro a _ _ s f u hi
    exact ⟨none, s, f, rfl, hi, by simp, fun j h1 h2 => by omega⟩
  | succ m ih =>
    intro a hia ham s f u hi
    have hd := hw.dist i a (by omega) (by omega)
    have hle := hw.le (i := i) (j := a) (by omega) (by omega)
    have hfin : dd i a < INFINITY := by have := hw.fin a (by omega); omega
    have hmono := (hw.mono (i := i) (j := a) (by omega) (by omega)).1
    obtain ⟨s1, f1, e1, e2, _, _, _⟩ := get_dist hP hi (hw.lt a (by omega)) (rev_isDist hd) hfin
    have c1 : check dbg (decide (dd i a ≤ D a - D i)) = some () := by simp only [check, decide_eq_true hle]; simp
    have c2 : check dbg (decide (0 < dd i a)) = some () := by
      cases dbg with
      | false => simp [check]
      | true =>
        have : 0 < dd i a := hpos rfl _ _ _ (fun he => by have := hw.inj (by omega) (by omega) he; omega) hd.1
        simp [check, this]
    rw [List.range'_succ, List.map_cons]
    unfold naiveInner
    simp only [e1, hw.getD a (by omega), hw.getD i (by omega), minus, if_pos hmono, c1, c2, if_pos hle, Option.bind_eq_bind, Option.bind_some, Option.pure_def]
    by_cases hgt : D a - D i - dd i a > thr (dd i a)
    · rw [if_pos hgt]
      have hfar : Far thr D dd i a := by unfold Far; omega
      refine ⟨_, _, f1, rfl, e2, ?_, ?_⟩
      · intro x hx
        simp only [Option.some.injEq] at hx
        subst hx
        exact ⟨rfl, by simp, by simp, hfar⟩
      · intro j h1 h2 _
        exact ⟨_, rfl, h1⟩
    · rw [if_neg hgt]
      obtain ⟨r, s2, f2, k1, k2, k3, k4⟩ := ih (a + 1) (by omega) (by omega) s1 f1 u e2
      refine ⟨r, s2, f2, k1, k2, ?_, ?_⟩
      · intro x hx
        obtain ⟨h1, h2, h3, h4⟩ := k3 x hx
        exact ⟨h1, by omega, by omega, h4⟩
      · intro j h1 h2 h3
        rcases Nat.lt_or_ge a j with h | h
        · exact k4 j (by omega) (by omega) h3
        · have : j = a := by omega
          subst this
          unfold Far at h3
          omega

theorem drop_zipIdx (h : ∀ i, i < nodes.length → nodes[i]? = some (p i)) (i : Nat) :
    nodes.zipIdx.drop i = (List.range' i (nodes.length - i)).map (fun j => (p j, j)) := by
  apply List.ext_getElem?
  intro k
  simp only [List.getElem?_drop, List.getElem?_zipIdx, List.getElem?_map]
  by_cases hk : k < nodes.length - i
  · rw [h _ (by omega), List.getElem?_range' hk]; simp
  · rw [List.getElem?_eq_none (by omega), List.getElem?_eq_none (by simp; omega)]; rfl

theorem take_zipIdx (h : ∀ i, i < nodes.length → nodes[i]? = some (p i)) {k : Nat} (hk : k ≤ nodes.length) :
    nodes.zipIdx.take k = (List.range' 0 k).map (fun j => (p j, j)) := by
  apply List.ext_getElem?
  intro j
  by_cases hj : j < k
  · rw [List.getElem?_take_of_lt hj, List.getElem?_zipIdx, h _ (by omega), List.getElem?_map, List.getElem?_range' hj]; simp
  · rw [List.getElem?_eq_none (by simp; omega), List.getElem?_eq_none (by simp; omega)]

theorem naiveOuter_spec (hw : Whole n A ranks nodes dists p D dd) (hP : HOK n P (Rev A)) {dbg : Bool} {thr : Nat → Nat}
    (hpos : dbg = true → ∀ u v d, u ≠ v → Walk A u v d → 0 < d) : ∀ (m a : Nat), a + m < nodes.length →
    ∀ s : PathState, PReady n s →
      ∃ out s', naiveOuter dbg P thr dists nodes ((List.range' a m).map (fun j => (p j, j))) s = some (out, s') ∧ PReady n s' ∧
        (∀ x ∈ out, x.start < x.stop ∧ x.stop < nodes.length ∧ Far thr D dd x.start x.stop) ∧
        ∀ i j, a ≤ i → i < a + m → i < j → j < nodes.length → Far thr D dd i j → ∃ x ∈ out, x.start = i ∧ x.stop ≤ j := by
  intro m
  induction m with
  | zero =>
    intro a _ s hs
    exact ⟨[], s, rfl, hs, by simp, fun i j h1 h2 => by omega⟩
  | succ m ih =>
    intro a ham s hs
    obtain ⟨s1, b, e1, e2⟩ := init_spec hP hs.stack hs.pots hs.bwd hs.unp hs.len (hw.lt a (by omega))
    obtain ⟨r, s2, f2, g1, g2, g3, g4⟩ := naiveInner_spec hw hP (thr := thr) hpos (nodes.length - (a + 1)) (a + 1) (i := a) (by omega) (by omega) s1 _ _ e2
    obtain ⟨out, s3, h1, h2, h3, h4⟩ := ih (a + 1) (by omega) s2 g2.ready
    rw [List.range'_succ, List.map_cons]
    unfold naiveOuter
    rw [drop_zipIdx hw.get]
    simp only [e1, g1, h1, Option.bind_eq_bind, Option.bind_some, Option.pure_def]
    refine ⟨_, _, rfl, h2, ?_, ?_⟩
    · intro x hx
      rcases List.mem_append.1 hx with hx | hx
      · obtain ⟨k1, k2, k3, k4⟩ := g3 x (by simpa using hx)
        rw [k1]
        exact ⟨by omega, by omega, k4⟩
      · exact h3 x hx
    · intro i j k1 k2 k3 k4 k5
      rcases Nat.lt_or_ge a i with h | h
      · obtain ⟨x, hx, hh⟩ := h4 i j (by omega) (by omega) k3 k4 k5
        exact ⟨x, List.mem_append.2 (.inr hx), hh⟩
      · have : i = a := by omega
        subst this
        obtain ⟨x, hx, hh⟩ := g4 j (by omega) (by omega) k5
        exact ⟨x, List.mem_append.2 (.inl (by simp [hx])), (g3 x hx).1, hh⟩

end

/-- dropping covered subpaths from a list that contains a part of every subpath that is too long -/
theorem covered_answer {A : Nat → Nat → Nat → Prop} {thr : Nat → Nat} {nodes : List Nat} {l : List Rng} {srt : List Rng → List Rng}
    (hsrt : ∀ l, (srt l).Perm l ∧ (srt l).Pairwise (fun a b => a.start < b.start ∨ a.start = b.start ∧ b.stop ≤ a.stop)) (hnd : nodes.Nodup)
    (hsound : ∀ r ∈ l, TooLong A thr nodes r) (hcomp : ∀ r, TooLong A thr nodes r → ∃ r' ∈ l, r.Contains r') :
    ∃ out, Seq.filterCovered srt l = some out ∧ UbsAnswer A thr nodes out := by
  obtain ⟨out, o1, o2, o3⟩ := Seq.filterCovered_spec (hsrt l).1 (hsrt l).2 (fun r hr => Nat.le_of_lt (hsound r hr).1)
  refine ⟨out, o1, fun _ => ⟨fun r => ?_, o3⟩, fun h => absurd hnd h⟩
  rw [o2]
  constructor
  · rintro ⟨h1, h2⟩
    refine ⟨hsound r h1, fun r' h3 h4 => ?_⟩
    obtain ⟨r2, h5, h6⟩ := hcomp r' h3
    have := h2 r2 h5 ⟨Nat.le_trans h4.1 h6.1, Nat.le_trans h6.2 h4.2⟩
    subst this
    obtain ⟨a1, a2⟩ := r'; obtain ⟨b1, b2⟩ := r2
    simp only [Rng.Contains] at h4 h6
    simp only [Rng.mk.injEq]; omega
  · rintro ⟨h1, h2⟩
    obtain ⟨r2, h5, h6⟩ := hcomp r h1
    have := h2 r2 (hsound r2 h5) h6
    subst this
    exact ⟨h5, fun r' h3 h4 => h2 r' (hsound r' h3) h4⟩

end UBS
end Verif
