import Verif.Model.HubLabels
import Verif.Proof.Sort
import Verif.Proof.GraphOps
import Verif.Proof.CCHPath
import Verif.Proof.CCHBuild
import Verif.Spec.Hierarchy
set_option linter.unusedSimpArgs false
set_option linter.unusedVariables false
/- Lemmas about hub labels. -/
namespace Verif
namespace HL
open Spec CCH

/-- strictly sorted by hub -/
def SS (l : List (Nat × Nat)) : Prop := l.Pairwise (fun p q => p.1 < q.1)

/-- a hub in both lists, with both distances -/
def Common (l1 l2 : List (Nat × Nat)) (h a b : Nat) : Prop := (h, a) ∈ l1 ∧ (h, b) ∈ l2

/-- What `best_hub` computes, starting with `res`. -/
def BestOf (res : Option (Nat × Nat)) (l1 l2 : List (Nat × Nat)) (r : Option (Nat × Nat)) : Prop :=
  (r = res ∧ ∀ h a b, Common l1 l2 h a b → ∃ p, res = some p ∧ p.2 ≤ a + b) ∨
  (∃ h a b, Common l1 l2 h a b ∧ r = some (h, a + b) ∧ (∀ p, res = some p → a + b < p.2) ∧
    ∀ h' a' b', Common l1 l2 h' a' b' → a + b ≤ a' + b' ∧ (h' < h → a + b < a' + b'))

theorem bestOf_congr {res r : Option (Nat × Nat)} {l1 l2 l1' l2' : List (Nat × Nat)} (hc : ∀ h a b, Common l1 l2 h a b ↔ Common l1' l2' h a b)
    (hb : BestOf res l1 l2 r) : BestOf res l1' l2' r := by
  unfold BestOf at *
  simp only [hc] at hb
  exact hb

theorem bestLoop_spec : ∀ (fuel : Nat) (l1 l2 : List (Nat × Nat)) (res : Option (Nat × Nat)), l1.length + l2.length ≤ fuel → SS l1 → SS l2 →
    (∀ h a b, Common l1 l2 h a b → a + b < U32) → ∃ r, bestLoop fuel l1 l2 res = some r ∧ BestOf res l1 l2 r := by
  intro fuel
  induction fuel with
  | zero =>
    intro l1 l2 res hf _ _ _
    have h1 : l1 = [] := List.length_eq_zero_iff.1 (by omega)
    subst h1
    exact ⟨res, by simp [bestLoop], .inl ⟨rfl, fun h a b hc => by simp [Common] at hc⟩⟩
  | succ fuel ih =>
    intro l1 l2 res hf h1 h2 hs
    cases l1 with
    | nil => exact ⟨res, by simp [bestLoop], .inl ⟨rfl, fun h a b hc => by simp [Common] at hc⟩⟩
    | cons x l1 =>
      cases l2 with
      | nil => exact ⟨res, by simp [bestLoop], .inl ⟨rfl, fun h a b hc => by simp [Common] at hc⟩⟩
      | cons y l2 =>
        obtain ⟨x1, x2⟩ := x
        obtain ⟨y1, y2⟩ := y
        have p1 := List.pairwise_cons.1 h1
        have p2 := List.pairwise_cons.1 h2
        simp only at p1 p2
        simp only [List.length_cons] at hf
        by_cases hlt : x1 < y1
        · have hc : ∀ h a b, Common l1 ((y1, y2) :: l2) h a b ↔ Common ((x1, x2) :: l1) ((y1, y2) :: l2) h a b := by
            intro h a b
            refine ⟨fun ⟨a1, a2⟩ => ⟨by simp [a1], a2⟩, fun ⟨a1, a2⟩ => ⟨?_, a2⟩⟩
            rcases List.mem_cons.1 a1 with he | he
            · simp at he
              rcases List.mem_cons.1 a2 with he2 | he2
              · simp at he2; omega
              · have := p2.1 _ he2; simp at this; omega
            · exact he
          obtain ⟨r, e1, e2⟩ := ih l1 ((y1, y2) :: l2) res (by simp; omega) p1.2 h2 (fun h a b c => hs h a b ((hc h a b).1 c))
          exact ⟨r, by simp [bestLoop, hlt, e1], bestOf_congr hc e2⟩
        · by_cases hgt : y1 < x1
          · have hc : ∀ h a b, Common ((x1, x2) :: l1) l2 h a b ↔ Common ((x1, x2) :: l1) ((y1, y2) :: l2) h a b := by
              intro h a b
              refine ⟨fun ⟨a1, a2⟩ => ⟨a1, by simp [a2]⟩, fun ⟨a1, a2⟩ => ⟨a1, ?_⟩⟩
              rcases List.mem_cons.1 a2 with he | he
              · simp at he
                rcases List.mem_cons.1 a1 with he2 | he2
                · simp at he2; omega
                · have := p1.1 _ he2; simp at this; omega
              · exact he
            obtain ⟨r, e1, e2⟩ := ih ((x1, x2) :: l1) l2 res (by simp; omega) h1 p2.2 (fun h a b c => hs h a b ((hc h a b).1 c))
            exact ⟨r, by simp [bestLoop, hlt, hgt, e1], bestOf_congr hc e2⟩
          · have hxy : x1 = y1 := by omega
            subst hxy
            have hfirst : Common ((x1, x2) :: l1) ((x1, y2) :: l2) x1 x2 y2 := ⟨by simp, by simp⟩
            have hc : ∀ h a b, Common ((x1, x2) :: l1) ((x1, y2) :: l2) h a b ↔ (h = x1 ∧ a = x2 ∧ b = y2) ∨ (x1 < h ∧ Common l1 l2 h a b) := by
              intro h a b
              constructor
              · rintro ⟨a1, a2⟩
                rcases List.mem_cons.1 a1 with he | he
                · simp at he
                  rcases List.mem_cons.1 a2 with he2 | he2
                  · simp at he2; exact .inl ⟨he.1, he.2, he2.2⟩
                  · have := p2.1 _ he2; simp at this; omega
                · have h3 := p1.1 _ he
                  simp at h3
                  rcases List.mem_cons.1 a2 with he2 | he2
                  · simp at he2; omega
                  · exact .inr ⟨h3, he, he2⟩
              · rintro (⟨rfl, rfl, rfl⟩ | ⟨_, a1, a2⟩)
                · exact hfirst
                · exact ⟨by simp [a1], by simp [a2]⟩
            have hadd : add32 x2 y2 = some (x2 + y2) := add32_of_lt (hs _ _ _ hfirst)
            obtain ⟨r, e1, e2⟩ := ih l1 l2 (better res x1 (x2 + y2)) (by omega) p1.2 p2.2 (fun h a b c => hs h a b ⟨by simp [c.1], by simp [c.2]⟩)
            refine ⟨r, by simp [bestLoop, hadd, e1], ?_⟩
            clear e1
            -- the new candidate is (x1, x2 + y2), or it is worse than the old one
            have key : (∀ p, res = some p → x2 + y2 < p.2) → BestOf (some (x1, x2 + y2)) l1 l2 r → BestOf res ((x1, x2) :: l1) ((x1, y2) :: l2) r := by
              rintro hres (⟨rfl, h4⟩ | ⟨h, a, b, h3, rfl, h4, h5⟩)
              · refine .inr ⟨x1, x2, y2, hfirst, rfl, hres, ?_⟩
                intro h' a' b' c
                rcases (hc h' a' b').1 c with ⟨rfl, rfl, rfl⟩ | ⟨h6, h7⟩
                · exact ⟨Nat.le_refl _, fun h => by omega⟩
                · obtain ⟨p, h8, h9⟩ := h4 _ _ _ h7
                  simp at h8; subst h8
                  exact ⟨h9, fun h => by omega⟩
              · have h8 := h4 _ rfl
                simp only at h8
                refine .inr ⟨h, a, b, ⟨by simp [h3.1], by simp [h3.2]⟩, rfl, fun p hp => by have := hres p hp; omega, ?_⟩
                intro h' a' b' c
                rcases (hc h' a' b').1 c with ⟨rfl, rfl, rfl⟩ | ⟨h6, h7⟩
                · exact ⟨by omega, fun _ => h8⟩
                · exact h5 _ _ _ h7
            cases res with
            | none => exact key (by simp) e2
            | some p =>
              obtain ⟨ph, pb⟩ := p
              by_cases hb : x2 + y2 < pb
              · simp only [better, hb, if_true] at e2
                exact key (by simpa using hb) e2
              · simp only [better, hb, if_false] at e2
                rcases e2 with ⟨rfl, h4⟩ | ⟨h, a, b, h3, rfl, h4, h5⟩
                · refine .inl ⟨rfl, ?_⟩
                  intro h' a' b' c
                  rcases (hc h' a' b').1 c with ⟨rfl, rfl, rfl⟩ | ⟨h6, h7⟩
                  · exact ⟨_, rfl, by simp; omega⟩
                  · exact h4 _ _ _ h7
                · have h8 := h4 _ rfl
                  simp only at h8
                  refine .inr ⟨h, a, b, ⟨by simp [h3.1], by simp [h3.2]⟩, rfl, h4, ?_⟩
                  intro h' a' b' c
                  rcases (hc h' a' b').1 c with ⟨rfl, rfl, rfl⟩ | ⟨h6, h7⟩
                  · exact ⟨by omega, fun _ => by omega⟩
                  · exact h5 _ _ _ h7

theorem bestHub_spec {l1 l2 : List (Nat × Nat)} (h1 : SS l1) (h2 : SS l2) (hs : ∀ h a b, Common l1 l2 h a b → a + b < U32) :
    ∃ r, bestHub l1 l2 = some r ∧ ((r = none ∧ ∀ h a b, ¬ Common l1 l2 h a b) ∨ ∃ h a b, Common l1 l2 h a b ∧ r = some (h, a + b) ∧
      ∀ h' a' b', Common l1 l2 h' a' b' → a + b ≤ a' + b' ∧ (h' < h → a + b < a' + b')) := by
  obtain ⟨r, e1, e2⟩ := bestLoop_spec (l1.length + l2.length) l1 l2 none (Nat.le_refl _) h1 h2 hs
  refine ⟨r, e1, ?_⟩
  rcases e2 with ⟨rfl, h⟩ | ⟨h, a, b, h3, h4, _, h5⟩
  · refine .inl ⟨rfl, fun h' a b c => ?_⟩
    obtain ⟨p, hp, _⟩ := h h' a b c
    simp at hp
  · exact .inr ⟨h, a, b, h3, h4, h5⟩

/-! ### Normalisation -/

/-- equal elements are next to each other, hubs do not decrease, one distance per hub -/
def Grouped (l : List (Nat × Nat)) : Prop := l.Pairwise (fun p q => p.1 < q.1 ∨ p = q)

theorem setMins_spec : ∀ (l : List (Nat × Nat)), l.Pairwise (fun p q => p.1 ≤ q.1) → Grouped (setMins l) ∧ (∀ p ∈ setMins l, p ∈ l) ∧
    ∀ p ∈ l, ∃ m, m ≤ p.2 ∧ (p.1, m) ∈ setMins l := by
  intro l
  induction l with
  | nil => intro _; exact ⟨List.Pairwise.nil, by simp [setMins], by simp⟩
  | cons x l ih =>
    intro hp
    obtain ⟨h1, h2⟩ := List.pairwise_cons.1 hp
    obtain ⟨i1, i2, i3⟩ := ih h2
    unfold setMins
    cases hm : setMins l with
    | nil =>
      rw [hm] at i3
      have : l = [] := by
        cases l with
        | nil => rfl
        | cons y l => obtain ⟨m, _, h⟩ := i3 y (by simp); simp at h
      subst this
      exact ⟨List.pairwise_singleton _ _, by simp, fun p hp => ⟨p.2, Nat.le_refl _, by simpa using hp⟩⟩
    | cons y r =>
      rw [hm] at i1 i2 i3
      simp only
      have hy := h1 y (i2 y (by simp))
      have hg := List.pairwise_cons.1 i1
      by_cases hxy : x.1 = y.1
      · rw [if_pos hxy]
        -- the elements with hub x.1 are copies of y
        have htw : ∀ p ∈ (y :: r).takeWhile (fun p => p.1 == x.1), p = y := by
          intro p hp'
          have h3 := List.all_eq_true.1 (List.all_takeWhile (p := fun p : Nat × Nat => p.1 == x.1)) p hp'
          simp at h3
          rcases List.mem_cons.1 ((List.takeWhile_prefix _).subset hp') with h4 | h4
          · exact h4
          · rcases hg.1 p h4 with h5 | h5
            · omega
            · exact h5.symm
        have hdw : ∀ p ∈ (y :: r).dropWhile (fun p => p.1 == x.1), x.1 < p.1 ∧ p ∈ y :: r := by
          have hgen : ∀ (l : List (Nat × Nat)), Grouped l → (∀ p ∈ l, x.1 ≤ p.1) → ∀ p ∈ l.dropWhile (fun p => p.1 == x.1), x.1 < p.1 := by
            intro l
            induction l with
            | nil => intro _ _ p hp; simp at hp
            | cons z l ih' =>
              intro hgr hge p hp'
              rw [List.dropWhile_cons] at hp'
              by_cases hz : z.1 = x.1
              · simp [hz] at hp'
                exact ih' (List.pairwise_cons.1 hgr).2 (fun q hq => hge q (by simp [hq])) p hp'
              · simp [hz] at hp'
                have hzx := hge z (by simp)
                rcases hp' with rfl | hp'
                · omega
                · rcases (List.pairwise_cons.1 hgr).1 p hp' with h6 | h6
                  · omega
                  · rw [← h6]; omega
          intro p hp'
          refine ⟨hgen _ i1 ?_ p hp', (List.dropWhile_suffix _).subset hp'⟩
          intro q hq
          exact h1 q (i2 q hq)
        have hmem : ∀ p, p ∈ (x.1, min x.2 y.2) :: ((y :: r).takeWhile (fun p => p.1 == x.1)).map (fun p => (p.1, min x.2 y.2)) ++ (y :: r).dropWhile (fun p => p.1 == x.1) →
            p = (x.1, min x.2 y.2) ∨ (x.1 < p.1 ∧ p ∈ y :: r) := by
          intro p hp'
          simp only [List.cons_append, List.mem_cons, List.mem_append, List.mem_map] at hp'
          rcases hp' with h3 | ⟨q, hq, rfl⟩ | h3
          · exact .inl h3
          · left; rw [htw q hq, hxy]
          · exact .inr (hdw p h3)
        refine ⟨?_, ?_, ?_⟩
        · -- grouped
          have hA : ∀ p ∈ ((y :: r).takeWhile (fun p => p.1 == x.1)).map (fun p => (p.1, min x.2 y.2)), p = (x.1, min x.2 y.2) := by
            intro p hp'
            obtain ⟨q, hq, rfl⟩ := List.mem_map.1 hp'
            rw [htw q hq, hxy]
          show List.Pairwise _ _
          rw [List.cons_append, List.pairwise_cons]
          constructor
          · intro p hp'
            rcases hmem p (by simp only [List.cons_append, List.mem_cons]; exact .inr hp') with h3 | h3
            · exact .inr h3.symm
            · exact .inl h3.1
          · rw [List.pairwise_append]
            refine ⟨?_, ?_, ?_⟩
            · rw [List.pairwise_iff_getElem]
              intro i j hi hj _
              right
              rw [hA _ (List.getElem_mem hi), hA _ (List.getElem_mem hj)]
            · exact i1.sublist (List.dropWhile_sublist _)
            · intro p hp' q hq
              rw [hA p hp']
              exact .inl (hdw q hq).1
        · intro p hp'
          rcases hmem p hp' with rfl | h3
          · by_cases hmin : x.2 ≤ y.2
            · rw [Nat.min_eq_left hmin]; simp
            · rw [Nat.min_eq_right (by omega), hxy]
              exact List.mem_cons_of_mem _ (i2 y (by simp))
          · exact List.mem_cons_of_mem _ (i2 p h3.2)
        · intro p hp'
          rcases List.mem_cons.1 hp' with rfl | hp'
          · exact ⟨min p.2 y.2, by omega, by simp⟩
          · obtain ⟨m, h3, h4⟩ := i3 p hp'
            by_cases hpx : p.1 = x.1
            · refine ⟨min x.2 y.2, ?_, by rw [hpx]; simp⟩
              have : (p.1, m) = y := by
                rcases List.mem_cons.1 h4 with h5 | h5
                · exact h5
                · rcases hg.1 _ h5 with h6 | h6
                  · simp at h6; omega
                  · exact h6.symm
              rw [← this] 
              simp; omega
            · refine ⟨m, h3, ?_⟩
              rw [← List.takeWhile_append_dropWhile (p := fun q : Nat × Nat => q.1 == x.1) (l := y :: r)] at h4
              rcases List.mem_append.1 h4 with h5 | h5
              · have := List.all_eq_true.1 (List.all_takeWhile (p := fun p : Nat × Nat => p.1 == x.1)) _ h5
                simp at this; omega
              · exact List.mem_append_right _ h5
      · rw [if_neg hxy]
        refine ⟨?_, ?_, ?_⟩
        · refine List.pairwise_cons.2 ⟨?_, i1⟩
          intro p hp'
          left
          rcases List.mem_cons.1 hp' with rfl | hp'
          · omega
          · rcases hg.1 p hp' with h3 | h3
            · omega
            · rw [← h3]; omega
        · intro p hp'
          rcases List.mem_cons.1 hp' with rfl | hp'
          · simp
          · exact List.mem_cons_of_mem _ (i2 p hp')
        · intro p hp'
          rcases List.mem_cons.1 hp' with rfl | hp'
          · exact ⟨p.2, Nat.le_refl _, by simp⟩
          · obtain ⟨m, h3, h4⟩ := i3 p hp'
            exact ⟨m, h3, List.mem_cons_of_mem _ h4⟩

theorem dedup_grouped (l : List (Nat × Nat)) (h : Grouped l) : SS (dedup l) := by
  fun_induction dedup l with
  | case1 => exact List.Pairwise.nil
  | case2 => exact List.pairwise_singleton _ _
  | case3 a l ih => exact ih (List.pairwise_cons.1 h).2
  | case4 a b l hab ih =>
    have hp := List.pairwise_cons.1 h
    refine List.pairwise_cons.2 ⟨?_, ih hp.2⟩
    intro z hz
    rw [mem_dedup] at hz
    have hb := (hp.1 b (by simp)).resolve_right hab
    rcases List.mem_cons.1 hz with rfl | hz
    · exact hb
    · rcases (List.pairwise_cons.1 hp.2).1 z hz with h3 | h3
      · omega
      · rw [← h3]; exact hb

theorem normalise_spec {l : List (Nat × Nat)} (hl : ∀ p ∈ l, p.2 < U32) : SS (normalise l) ∧ (∀ p ∈ normalise l, p ∈ l) ∧
    ∀ p ∈ l, ∃ m, m ≤ p.2 ∧ (p.1, m) ∈ normalise l := by
  obtain ⟨h1, h2⟩ := isort_ok (fun p : Nat × Nat => p.1 * U32 + p.2) l
  obtain ⟨h3, h4, h5⟩ := setMins_spec (isort (fun p : Nat × Nat => p.1 * U32 + p.2) l) (by
    refine List.Pairwise.imp_of_mem ?_ h2
    intro p q hp hq h
    have hp' := hl p (h1.mem_iff.1 hp)
    have hq' := hl q (h1.mem_iff.1 hq)
    apply Classical.byContradiction
    intro hn
    have : (q.1 + 1) * U32 ≤ p.1 * U32 := Nat.mul_le_mul_right _ (by omega)
    rw [Nat.add_mul] at this
    omega)
  refine ⟨dedup_grouped _ h3, ?_, ?_⟩
  · intro p hp
    unfold normalise at hp
    rw [mem_dedup] at hp
    exact h1.mem_iff.1 (h4 p hp)
  · intro p hp
    obtain ⟨m, h6, h7⟩ := h5 p (h1.mem_iff.2 hp)
    exact ⟨m, h6, by unfold normalise; rw [mem_dedup]; exact h7⟩

/-! ### Labels -/

variable {n : Nat}

/-- Upward graph without overflow: arcs lead upwards and every upward path has length at most `INFINITY`. -/
structure UpFin (n : Nat) (g : FOGraph) : Prop where
  wf : g.WF
  nn : g.numNodes = n
  up : ∀ u v w, g.Arc u v w → u < v
  fin : ∀ u v d, UpWalk g.Arc u v d → d ≤ INFINITY

theorem UpFin.lt {g : FOGraph} (hg : UpFin n g) {u v d : Nat} (h : UpWalk g.Arc u v d) (hu : u < n) : v < n := by
  induction h with
  | nil => exact hu
  | cons h1 _ _ ih =>
    obtain ⟨ls, h2, h3⟩ := h1
    have := hg.wf.mem_heads h2 h3
    rw [hg.nn] at this
    exact ih this

/-- `l` is a label of `u`: sorted, made of upward paths, with the node itself -/
structure Lab (A : Nat → Nat → Nat → Prop) (u : Nat) (l : List (Nat × Nat)) : Prop where
  ss : SS l
  self : (u, 0) ∈ l
  sound : ∀ p ∈ l, UpWalk A u p.1 p.2

theorem common_lt {g g' : FOGraph} (hg : UpFin n g) (hg' : UpFin n g') {u v : Nat} {l l' : List (Nat × Nat)} (h : Lab g.Arc u l) (h' : Lab g'.Arc v l') :
    ∀ x a b, Common l l' x a b → a + b < U32 := by
  rintro x a b ⟨h1, h2⟩
  have e1 := hg.fin _ _ _ (h.sound _ h1)
  have e2 := hg'.fin _ _ _ (h'.sound _ h2)
  simp only [INFINITY, U32] at *
  omega

/-- Collecting the labels of the neighbours. -/
theorem extend_spec {g : FOGraph} (hg : UpFin n g) {labels : List (List (Nat × Nat))} {x : Nat} (hx : x < n)
    (hlab : ∀ u, x < u → u < n → ∃ l, labels[u]? = some l ∧ Lab g.Arc u l) {ls : List Link} (hls : g.linkIter x = some ls) :
    ∃ o, ls.foldlM (extend labels x) [(x, 0)] = some o ∧ (x, 0) ∈ o ∧ (∀ p ∈ o, UpWalk g.Arc x p.1 p.2) ∧
      ∀ y w l p, g.Arc x y w → labels[y]? = some l → p ∈ l → (p.1, p.2 + w) ∈ o := by
  obtain ⟨o, h1, h2, h3, h4⟩ := GraphOps.foldlM_inv (extend labels x)
    (fun P o => (x, 0) ∈ o ∧ (∀ p ∈ o, UpWalk g.Arc x p.1 p.2) ∧ ∀ k ∈ P, ∀ l p, labels[k.node]? = some l → p ∈ l → (p.1, p.2 + k.weight) ∈ o) ls (by
      rintro P k Q o hE ⟨i1, i2, i3⟩
      have hk : g.Arc x k.node k.weight := ⟨ls, hls, by rw [hE]; simp⟩
      have hlt := hg.up _ _ _ hk
      have hkn : k.node < n := by
        rw [← hg.nn]; exact hg.wf.mem_heads hls (l := k) (by rw [hE]; simp)
      obtain ⟨l, h1, h2⟩ := hlab _ hlt hkn
      have hw : ∀ p ∈ l, UpWalk g.Arc x p.1 (p.2 + k.weight) := by
        intro p hp
        rw [Nat.add_comm]
        exact .cons hk hlt (h2.sound p hp)
      have hm : l.mapM (fun p => (add32 p.2 k.weight).map (fun w => (p.1, w))) = some (l.map (fun p => (p.1, p.2 + k.weight))) := by
        apply mapM_some
        intro p hp
        have := hg.fin _ _ _ (hw p hp)
        rw [add32_of_lt (by simp only [INFINITY, U32] at *; omega)]
        rfl
      refine ⟨o ++ l.map (fun p => (p.1, p.2 + k.weight)), by simp [extend, hlt, h1, hm], by simp [i1], ?_, ?_⟩
      · intro p hp
        rcases List.mem_append.1 hp with h | h
        · exact i2 p h
        · obtain ⟨q, hq, rfl⟩ := List.mem_map.1 h
          exact hw q hq
      · intro k' hk' l' p hl' hp
        rcases List.mem_append.1 hk' with h | h
        · exact List.mem_append_left _ (i3 k' h l' p hl' hp)
        · simp at h
          subst h
          rw [h1] at hl'
          simp at hl'; subst hl'
          exact List.mem_append_right _ (List.mem_map.2 ⟨p, hp, rfl⟩)) [(x, 0)]
    ⟨by simp, by intro p hp; simp at hp; subst hp; exact .nil x, by simp⟩
  refine ⟨o, h1, h2, h3, ?_⟩
  intro y w l p ⟨ls', h5, h6⟩ h7 h8
  rw [hls] at h5; simp at h5; subst h5
  exact h4 _ h6 l p h7 h8

/-- `C`: up-down paths between `u` and `v` are covered by a common hub of the two labels. -/
def Covered (A A' : Nat → Nat → Nat → Prop) (u v : Nat) (l l' : List (Nat × Nat)) : Prop :=
  ∀ d, UpDown A A' u v d → ∃ h a b, Common l l' h a b ∧ a + b ≤ d

theorem covered_flip {A A' : Nat → Nat → Nat → Prop} {u v : Nat} {l l' : List (Nat × Nat)} (h : Covered A A' u v l l') : Covered A' A v u l' l := by
  intro d hd
  obtain ⟨x, a, b, h1, h2⟩ := h d hd.flip
  exact ⟨x, b, a, ⟨h1.2, h1.1⟩, by omega⟩

/-- The label of `x` before pruning. -/
theorem unpruned {g g' : FOGraph} (hg : UpFin n g) {labels : List (List (Nat × Nat))} {x : Nat} (hx : x < n) {L : Nat → List (Nat × Nat)}
    (hlab : ∀ u, x < u → u < n → ∃ l, labels[u]? = some l ∧ Lab g.Arc u l) (hL : ∀ v, x < v → v < n → ∀ u l, x < u → labels[u]? = some l → Covered g.Arc g'.Arc u v l (L v))
    {ls : List Link} (hls : g.linkIter x = some ls) (hg' : UpFin n g') :
    ∃ o, ls.foldlM (extend labels x) [(x, 0)] = some o ∧ Lab g.Arc x (normalise o) ∧
      ∀ v, x < v → v < n → Covered g.Arc g'.Arc x v (normalise o) (L v) := by
  obtain ⟨o, h1, h2, h3, h4⟩ := extend_spec hg hx hlab hls
  obtain ⟨n1, n2, n3⟩ := normalise_spec (l := o) (by
    intro p hp
    have := hg.fin _ _ _ (h3 p hp)
    simp only [INFINITY, U32] at *
    omega)
  refine ⟨o, h1, ⟨n1, ?_, fun p hp => h3 p (n2 p hp)⟩, ?_⟩
  · obtain ⟨m, h5, h6⟩ := n3 _ h2
    simp only at h5 h6
    have : m = 0 := by omega
    subst this
    exact h6
  · rintro v hv hvn d ⟨m, a, b, h5, h6, rfl⟩
    cases h5 with
    | nil => have := h6.le; omega
    | @cons _ y _ w d' h7 h8 h9 =>
      have hy : y < n := by
        obtain ⟨ls', e1, e2⟩ := h7
        have := hg.wf.mem_heads e1 e2
        rwa [hg.nn] at this
      obtain ⟨l, e1, e2⟩ := hlab y h8 hy
      obtain ⟨h, a', b', e3, e4⟩ := hL v hv hvn y l h8 e1 (d' + b) ⟨m, d', b, h9, h6, rfl⟩
      obtain ⟨m', e5, e6⟩ := n3 _ (h4 y w l (h, a') h7 e1 e3.1)
      simp only at e5 e6
      exact ⟨h, m', b', ⟨e6, e3.2⟩, by omega⟩

/-- Pruning keeps a best hub for every other node. -/
theorem pruned {A A' : Nat → Nat → Nat → Prop} {x : Nat} {U : List (Nat × Nat)} {L : Nat → List (Nat × Nat)} (hU : Lab A x U)
    (hL : ∀ v, x < v → v < n → Lab A' v (L v)) (hn : ∀ {u v d}, UpWalk A u v d → u < n → v < n) (hx : x < n)
    (hc : ∀ v, x < v → v < n → Covered A A' x v U (L v))
    (tri : ∀ u m v a b, u < n → m < n → v < n → UpDown A A' u m a → UpDown A A' m v b → ∃ d, d ≤ a + b ∧ UpDown A A' u v d) (kept : Nat × Nat → Prop)
    (hk : ∀ p ∈ U, x < p.1 → kept p ∨ ∃ g a b, g ≠ p.1 ∧ Common U (L p.1) g a b ∧ a + b ≤ p.2 ∧ (p.1 < g → a + b < p.2))
    {v : Nat} (hv : x < v) (hvn : v < n) : ∀ d, UpDown A A' x v d → ∃ h a b, Common U (L v) h a b ∧ kept (h, a) ∧ a + b ≤ d := by
  intro d
  induction d using Nat.strongRecOn with
  | ind d ih =>
    intro hd
    obtain ⟨h, a, b, h1, h2⟩ := hc v hv hvn d hd
    have hvh := (hL v hv hvn).sound _ h1.2
    have hxh := hU.sound _ h1.1
    have hhn := hn hxh hx
    simp only at hvh hxh hhn
    have hxlt : x < h := by have := hvh.le; omega
    rcases hk _ h1.1 hxlt with hkp | ⟨g, a', b', e1, e2, e3, e4⟩
    · exact ⟨h, a, b, h1, hkp, h2⟩
    · simp only at e1 e2 e3 e4
      have hhg := (hL h hxlt hhn).sound _ e2.2
      have := hhg.le
      simp only at this
      have hs := e4 (by omega)
      obtain ⟨d', f1, f2⟩ := tri x h v (a' + b') b hx hhn hvn ⟨g, a', b', hU.sound _ e2.1, hhg, rfl⟩ ⟨h, 0, b, .nil h, hvh, by omega⟩
      obtain ⟨h', a2, b2, f3, f4, f5⟩ := ih d' (by omega) f2
      exact ⟨h', a2, b2, f3, f4, by omega⟩

/-- the test used for pruning -/
def keep (p : Nat × Nat) (r : Option (Nat × Nat)) : Bool := match r with
  | some (via, _) => via == p.1
  | none => true

/-- State after the nodes `≥ k` were processed. -/
structure HInv (n k : Nat) (up down : FOGraph) (st : List (List (Nat × Nat)) × List (List (Nat × Nat))) : Prop where
  l1 : st.1.length = n
  l2 : st.2.length = n
  e1 : ∀ u, u < k → u < n → st.1[u]? = some []
  e2 : ∀ u, u < k → u < n → st.2[u]? = some []
  o : ∀ u, k ≤ u → u < n → ∃ l, st.1[u]? = some l ∧ Lab up.Arc u l
  i : ∀ u, k ≤ u → u < n → ∃ l, st.2[u]? = some l ∧ Lab down.Arc u l
  c : ∀ (u v : Nat) l l', k ≤ u → k ≤ v → st.1[u]? = some l → st.2[v]? = some l' → Covered up.Arc down.Arc u v l l'

theorem step_spec {up down : FOGraph} (hu : UpFin n up) (hd : UpFin n down)
    (tri : ∀ u m v a b, u < n → m < n → v < n → UpDown up.Arc down.Arc u m a → UpDown up.Arc down.Arc m v b → ∃ d, d ≤ a + b ∧ UpDown up.Arc down.Arc u v d)
    {x : Nat} (hx : x < n) {st : List (List (Nat × Nat)) × List (List (Nat × Nat))} (hi : HInv n (x + 1) up down st) :
    ∃ st', step up down st x = some st' ∧ HInv n x up down st' := by
  obtain ⟨outs, ins⟩ := st
  obtain ⟨l1, l2, e1, e2, ho, hin, hc⟩ := hi
  simp only at l1 l2 e1 e2 ho hin hc
  have gl1 : ∀ {u l}, outs[u]? = some l → outs.getD u [] = l := fun h => by simp [List.getD_eq_getElem?_getD, h]
  have gl2 : ∀ {u l}, ins[u]? = some l → ins.getD u [] = l := fun h => by simp [List.getD_eq_getElem?_getD, h]
  obtain ⟨lu, hlu⟩ := hu.wf.total (v := x) (by rw [hu.nn]; exact hx)
  obtain ⟨ld, hld⟩ := hd.wf.total (v := x) (by rw [hd.nn]; exact hx)
  obtain ⟨o, o1, o2, o3⟩ := unpruned (g' := down) hu hx (L := fun v => ins.getD v []) (fun u h1 h2 => ho u h1 h2) (by
    intro v hv hvn u l hul hl
    obtain ⟨l', h1, _⟩ := hin v hv hvn
    rw [gl2 h1]
    exact hc u v l l' hul hv hl h1) hlu hd
  obtain ⟨i, i1, i2, i3⟩ := unpruned (g' := up) hd hx (L := fun v => outs.getD v []) (fun u h1 h2 => hin u h1 h2) (by
    intro v hv hvn u l hul hl
    obtain ⟨l', h1, _⟩ := ho v hv hvn
    rw [gl1 h1]
    exact covered_flip (hc v u l' l hv hul h1 hl)) hld hu
  generalize hU : normalise o = U at *
  generalize hI : normalise i = I at *
  have hLo : ∀ v, x < v → v < n → Lab up.Arc v (outs.getD v []) := fun v h1 h2 => by
    obtain ⟨l, h3, h4⟩ := ho v h1 h2; rw [gl1 h3]; exact h4
  have hLi : ∀ v, x < v → v < n → Lab down.Arc v (ins.getD v []) := fun v h1 h2 => by
    obtain ⟨l, h3, h4⟩ := hin v h1 h2; rw [gl2 h3]; exact h4
  have gi : ∀ v, v < n → (ins.set x I)[v]? = some (if v = x then I else ins.getD v []) := by
    intro v hv
    rw [List.getElem?_set]
    by_cases h : x = v
    · subst h; simp [l2, hx]
    · rw [if_neg h, if_neg (fun e => h e.symm), List.getElem?_eq_getElem (by omega)]
      simp [List.getD_eq_getElem?_getD, List.getElem?_eq_getElem (show v < ins.length by omega)]
  -- pruning the outgoing label
  have hbo : ∀ p ∈ U, ∃ r, bestHub U (if p.1 = x then I else ins.getD p.1 []) = some r ∧ ((keep p r = true) ∨
      ∃ g a b, g ≠ p.1 ∧ Common U (if p.1 = x then I else ins.getD p.1 []) g a b ∧ a + b ≤ p.2 ∧ (p.1 < g → a + b < p.2)) := by
    intro p hp
    have hpn := hu.lt (o2.sound p hp) hx
    have hple := (o2.sound p hp).le
    have hl : Lab down.Arc p.1 (if p.1 = x then I else ins.getD p.1 []) := by
      by_cases h : p.1 = x
      · rw [if_pos h, h]; exact i2
      · rw [if_neg h]; exact hLi _ (by omega) hpn
    obtain ⟨r, r1, r2⟩ := bestHub_spec o2.ss hl.ss (common_lt hu hd o2 hl)
    refine ⟨r, r1, ?_⟩
    rcases r2 with ⟨rfl, _⟩ | ⟨h, a, b, c1, rfl, c2⟩
    · exact .inl rfl
    · by_cases hh : h = p.1
      · left; simp [keep, hh]
      · right
        obtain ⟨d1, d2⟩ := c2 p.1 p.2 0 ⟨hp, hl.self⟩
        exact ⟨h, a, b, hh, c1, by omega, fun h => by have := d2 h; omega⟩
  have hfo : ∃ q, U.filterM (fun p => do let l ← (ins.set x I)[p.1]?; isBest p.1 (bestHub U l)) = some (U.filter q) ∧
      ∀ p ∈ U, q p = true ∨ ∃ g a b, g ≠ p.1 ∧ Common U (if p.1 = x then I else ins.getD p.1 []) g a b ∧ a + b ≤ p.2 ∧ (p.1 < g → a + b < p.2) := by
    refine ⟨fun p => keep p ((bestHub U (if p.1 = x then I else ins.getD p.1 [])).getD none), filterM_some ?_, ?_⟩
    · intro p hp
      obtain ⟨r, r1, _⟩ := hbo p hp
      rw [gi _ (hu.lt (o2.sound p hp) hx)]
      simp only [Option.bind_eq_bind, Option.bind_some, r1, isBest, Option.map_some, Option.getD_some]
      rfl
    · intro p hp
      obtain ⟨r, r1, r2⟩ := hbo p hp
      simp only [r1, Option.getD_some]
      exact r2
  obtain ⟨qo, hqo, hqo'⟩ := hfo
  have hLO : Lab up.Arc x (U.filter qo) := by
    refine ⟨o2.ss.sublist List.filter_sublist, List.mem_filter.2 ⟨o2.self, ?_⟩, fun p hp => o2.sound p (List.mem_filter.1 hp).1⟩
    rcases hqo' _ o2.self with h | ⟨g, a, b, h1, h2, h3, h4⟩
    · exact h
    · simp only at h1 h2 h3 h4
      have := (o2.sound _ h2.1).le
      simp only at this
      have := h4 (by omega)
      omega
  have hCO : ∀ v, x < v → v < n → Covered up.Arc down.Arc x v (U.filter qo) (ins.getD v []) := by
    intro v hv hvn d hdd
    obtain ⟨h, a, b, h1, h2, h3⟩ := pruned (n := n) o2 hLi (fun h1 h2 => hu.lt h1 h2) hx o3 tri (fun p => qo p = true) (by
      intro p hp hlt
      have := hqo' p hp
      rwa [if_neg (by omega)] at this) hv hvn d hdd
    exact ⟨h, a, b, ⟨List.mem_filter.2 ⟨h1.1, h2⟩, h1.2⟩, h3⟩
  -- pruning the incoming label
  have go : ∀ v, v < n → ((outs.set x U).set x (U.filter qo))[v]? = some (if v = x then U.filter qo else outs.getD v []) := by
    intro v hv
    rw [List.set_set, List.getElem?_set]
    by_cases h : x = v
    · subst h; simp [l1, hx]
    · rw [if_neg h, if_neg (fun e => h e.symm), List.getElem?_eq_getElem (by omega)]
      simp [List.getD_eq_getElem?_getD, List.getElem?_eq_getElem (show v < outs.length by omega)]
  have hbi : ∀ p ∈ I, ∃ r, bestHub (if p.1 = x then U.filter qo else outs.getD p.1 []) I = some r ∧ ((keep p r = true) ∨
      ∃ g a b, g ≠ p.1 ∧ Common I (if p.1 = x then U.filter qo else outs.getD p.1 []) g a b ∧ a + b ≤ p.2 ∧ (p.1 < g → a + b < p.2)) := by
    intro p hp
    have hpn := hd.lt (i2.sound p hp) hx
    have hple := (i2.sound p hp).le
    have hl : Lab up.Arc p.1 (if p.1 = x then U.filter qo else outs.getD p.1 []) := by
      by_cases h : p.1 = x
      · rw [if_pos h, h]; exact hLO
      · rw [if_neg h]; exact hLo _ (by omega) hpn
    obtain ⟨r, r1, r2⟩ := bestHub_spec hl.ss i2.ss (common_lt hu hd hl i2)
    refine ⟨r, r1, ?_⟩
    rcases r2 with ⟨rfl, _⟩ | ⟨h, a, b, c1, rfl, c2⟩
    · exact .inl rfl
    · by_cases hh : h = p.1
      · left; simp [keep, hh]
      · right
        obtain ⟨d1, d2⟩ := c2 p.1 0 p.2 ⟨hl.self, hp⟩
        exact ⟨h, b, a, hh, ⟨c1.2, c1.1⟩, by omega, fun h => by have := d2 h; omega⟩
  have hfi : ∃ q, I.filterM (fun p => do let l ← ((outs.set x U).set x (U.filter qo))[p.1]?; isBest p.1 (bestHub l I)) = some (I.filter q) ∧
      ∀ p ∈ I, q p = true ∨ ∃ g a b, g ≠ p.1 ∧ Common I (if p.1 = x then U.filter qo else outs.getD p.1 []) g a b ∧ a + b ≤ p.2 ∧ (p.1 < g → a + b < p.2) := by
    refine ⟨fun p => keep p ((bestHub (if p.1 = x then U.filter qo else outs.getD p.1 []) I).getD none), filterM_some ?_, ?_⟩
    · intro p hp
      obtain ⟨r, r1, _⟩ := hbi p hp
      rw [go _ (hd.lt (i2.sound p hp) hx)]
      simp only [Option.bind_eq_bind, Option.bind_some, r1, isBest, Option.map_some, Option.getD_some]
      rfl
    · intro p hp
      obtain ⟨r, r1, r2⟩ := hbi p hp
      simp only [r1, Option.getD_some]
      exact r2
  obtain ⟨qi, hqi, hqi'⟩ := hfi
  have hLI : Lab down.Arc x (I.filter qi) := by
    refine ⟨i2.ss.sublist List.filter_sublist, List.mem_filter.2 ⟨i2.self, ?_⟩, fun p hp => i2.sound p (List.mem_filter.1 hp).1⟩
    rcases hqi' _ i2.self with h | ⟨g, a, b, h1, h2, h3, h4⟩
    · exact h
    · simp only at h1 h2 h3 h4
      have := (i2.sound _ h2.1).le
      simp only at this
      have := h4 (by omega)
      omega
  have hCI : ∀ v, x < v → v < n → Covered down.Arc up.Arc x v (I.filter qi) (outs.getD v []) := by
    intro v hv hvn d hdd
    obtain ⟨h, a, b, h1, h2, h3⟩ := pruned (n := n) i2 hLo (fun h1 h2 => hd.lt h1 h2) hx i3 (by
      intro u m v a b h1 h2 h3 h4 h5
      obtain ⟨d, h6, h7⟩ := tri v m u b a h3 h2 h1 h5.flip h4.flip
      exact ⟨d, by omega, h7.flip⟩) (fun p => qi p = true) (by
      intro p hp hlt
      have := hqi' p hp
      rwa [if_neg (by omega)] at this) hv hvn d hdd
    exact ⟨h, a, b, ⟨List.mem_filter.2 ⟨h1.1, h2⟩, h1.2⟩, h3⟩
  -- the new state
  have gI : ∀ v, v < n → ((ins.set x I).set x (I.filter qi))[v]? = some (if v = x then I.filter qi else ins.getD v []) := by
    intro v hv
    rw [List.set_set, List.getElem?_set]
    by_cases h : x = v
    · subst h; simp [l2, hx]
    · rw [if_neg h, if_neg (fun e => h e.symm), List.getElem?_eq_getElem (by omega)]
      simp [List.getD_eq_getElem?_getD, List.getElem?_eq_getElem (show v < ins.length by omega)]
  refine ⟨((outs.set x U).set x (U.filter qo), (ins.set x I).set x (I.filter qi)), ?_, ?_⟩
  · have u1 : upd outs x U = some (outs.set x U) := upd_of_lt _ (by omega)
    have u2 : upd ins x I = some (ins.set x I) := upd_of_lt _ (by omega)
    have u3 : upd (outs.set x U) x (U.filter qo) = some ((outs.set x U).set x (U.filter qo)) := upd_of_lt _ (by simp; omega)
    have u4 : upd (ins.set x I) x (I.filter qi) = some ((ins.set x I).set x (I.filter qi)) := upd_of_lt _ (by simp; omega)
    simp only [Option.bind_eq_bind] at hqo hqi
    simp only [step, e1 x (by omega) hx, e2 x (by omega) hx, hlu, hld, List.nil_append, o1, i1, hU, hI, Option.bind_eq_bind, Option.bind_some, Option.pure_def, u1, u2]
    rw [hqo]
    simp only [Option.bind_some, u3]
    rw [hqi]
    simp only [Option.bind_some, u4]
  · refine ⟨by simp [l1], by simp [l2], ?_, ?_, ?_, ?_, ?_⟩
    · intro u h1 h2
      simp only
      rw [List.set_set, List.getElem?_set_ne (by omega)]
      exact e1 u (by omega) h2
    · intro u h1 h2
      simp only
      rw [List.set_set, List.getElem?_set_ne (by omega)]
      exact e2 u (by omega) h2
    · intro u h1 h2
      refine ⟨_, go u h2, ?_⟩
      by_cases h : u = x
      · subst h; simp [hLO]
      · rw [if_neg h]; exact hLo u (by omega) h2
    · intro u h1 h2
      refine ⟨_, gI u h2, ?_⟩
      by_cases h : u = x
      · subst h; simp [hLI]
      · rw [if_neg h]; exact hLi u (by omega) h2
    · intro u v l l' h1 h2 h3 h4
      simp only at h3 h4
      have hun : u < n := by have := (List.getElem?_eq_some_iff.1 h3).1; simp [l1] at this; exact this
      have hvn : v < n := by have := (List.getElem?_eq_some_iff.1 h4).1; simp [l2] at this; exact this
      rw [go u hun] at h3
      rw [gI v hvn] at h4
      simp only [Option.some.injEq] at h3 h4
      subst h3 h4
      by_cases hux : u = x
      · subst hux
        by_cases hvx : v = u
        · subst hvx
          intro d _
          exact ⟨v, 0, 0, ⟨by simpa using hLO.self, by simpa using hLI.self⟩, by omega⟩
        · rw [if_pos rfl, if_neg hvx]
          exact hCO v (by omega) hvn
      · by_cases hvx : v = x
        · subst hvx
          rw [if_pos rfl, if_neg hux]
          exact covered_flip (hCI u (by omega) hun)
        · rw [if_neg hux, if_neg hvx]
          obtain ⟨l, f1, _⟩ := ho u (by omega) hun
          obtain ⟨l', f2, _⟩ := hin v (by omega) hvn
          rw [gl1 f1, gl2 f2]
          exact hc u v l l' (by omega) (by omega) f1 f2

theorem build_hl_spec {up down : FOGraph} (hu : UpFin n up) (hd : UpFin n down)
    (tri : ∀ u m v a b, u < n → m < n → v < n → UpDown up.Arc down.Arc u m a → UpDown up.Arc down.Arc m v b → ∃ d, d ≤ a + b ∧ UpDown up.Arc down.Arc u v d) :
    ∃ st, HL.build up down = some st ∧ HInv n 0 up down st := by
  have key : ∀ k, k ≤ n → ∀ st, HInv n k up down st → ∃ st', (List.range k).reverse.foldlM (step up down) st = some st' ∧ HInv n 0 up down st' := by
    intro k
    induction k with
    | zero => intro _ st h; exact ⟨st, rfl, h⟩
    | succ k ih =>
      intro hk st h
      obtain ⟨st1, h1, h2⟩ := step_spec hu hd tri (x := k) (by omega) h
      obtain ⟨st2, h3, h4⟩ := ih (by omega) st1 h2
      refine ⟨st2, ?_, h4⟩
      rw [List.range_succ, List.reverse_append]
      simp only [List.reverse_cons, List.reverse_nil, List.nil_append, List.singleton_append, List.foldlM_cons, h1, Option.bind_eq_bind, Option.bind_some]
      exact h3
  unfold HL.build
  rw [hu.nn]
  apply key n (Nat.le_refl _)
  have he : ∀ u, u < n → (List.replicate n ([] : List (Nat × Nat)))[u]? = some [] := fun u h => by simp [List.getElem?_replicate, h]
  exact ⟨by simp, by simp, fun u _ h => he u h, fun u _ h => he u h, fun u h1 h2 => by omega, fun u h1 h2 => by omega, fun u v l l' h1 h2 h3 h4 => by
    have := (List.getElem?_eq_some_iff.1 h3).1; simp at this; omega⟩

/-- The best common hub gives the shortest up-down path. -/
theorem hub_spec {up down : FOGraph} (hu : UpFin n up) (hd : UpFin n down) {st : List (List (Nat × Nat)) × List (List (Nat × Nat))} (hi : HInv n 0 up down st)
    {x y : Nat} (hx : x < n) (hy : y < n) : ∃ r, hubAndDist st x y = some r ∧ ((r = none ∧ ∀ d, ¬ UpDown up.Arc down.Arc x y d) ∨
      ∃ h a b, r = some (h, a + b) ∧ UpWalk up.Arc x h a ∧ UpWalk down.Arc y h b ∧ ∀ d, UpDown up.Arc down.Arc x y d → a + b ≤ d) := by
  obtain ⟨l, h1, h2⟩ := hi.o x (Nat.zero_le _) hx
  obtain ⟨l', h3, h4⟩ := hi.i y (Nat.zero_le _) hy
  have hc := hi.c x y l l' (Nat.zero_le _) (Nat.zero_le _) h1 h3
  obtain ⟨r, r1, r2⟩ := bestHub_spec h2.ss h4.ss (common_lt hu hd h2 h4)
  refine ⟨r, by simp [hubAndDist, h1, h3, r1], ?_⟩
  rcases r2 with ⟨rfl, c⟩ | ⟨h, a, b, c1, rfl, c2⟩
  · refine .inl ⟨rfl, fun d hdd => ?_⟩
    obtain ⟨h, a, b, h5, _⟩ := hc d hdd
    exact c h a b h5
  · refine .inr ⟨h, a, b, rfl, h2.sound _ c1.1, h4.sound _ c1.2, fun d hdd => ?_⟩
    obtain ⟨h', a', b', h5, h6⟩ := hc d hdd
    have := (c2 h' a' b' h5).1
    omega

end HL
end Verif
