import Verif.Spec.MinMaxBounds
import Verif.Proof.CCHPotential
set_option linter.unusedSimpArgs false
set_option linter.unusedVariables false
/- The potential with bounds that depend on time: a simulation by two ordinary potentials, and the meaning of the upper bounds. -/
namespace Verif
namespace MinMax
open CCH Spec

theorem slice_map {α β : Type} (f : α → β) (l : List α) (a b : Nat) : slice (l.map f) a b = (slice l a b).map (List.map f) := by
  unfold slice
  simp only [List.length_map]
  split <;> simp [List.map_take, List.map_drop]

theorem zip_proj (w : Bounds → Nat) : ∀ (hs : List Nat) (bs : List Bounds),
    List.zipWith Link.mk hs (bs.map w) = (hs.zip bs).map (fun l => (⟨l.1, w l.2⟩ : Link))
  | [], _ => by simp
  | _ :: _, [] => by simp
  | h :: hs, b :: bs => by simp [zip_proj w hs bs]

theorem linkIter_proj (g : BGraph) (w : Bounds → Nat) (v : Nat) :
    (g.proj w).linkIter v = (g.links v).map (List.map (fun l => (⟨l.1, w l.2⟩ : Link))) := by
  simp only [FOGraph.linkIter, FOGraph.range, BGraph.links, BGraph.proj, Option.bind_eq_bind, Option.pure_def]
  cases g.firstOut[v]? with
  | none => rfl
  | some a =>
    cases g.firstOut[v + 1]? with
    | none => rfl
    | some b =>
      simp only [Option.bind_some, slice_map]
      cases slice g.head a b with
      | none => rfl
      | some hs =>
        cases slice g.bounds a b with
        | none => rfl
        | some bs => simp [zip_proj]

theorem arc_proj {g : BGraph} {w : Bounds → Nat} {u v x : Nat} : (g.proj w).Arc u v x ↔ ∃ b, BArc g u v b ∧ x = w b := by
  unfold FOGraph.Arc BArc
  rw [linkIter_proj]
  cases g.links u with
  | none => simp
  | some ls =>
    simp only [Option.map_some, Option.some.injEq, exists_eq_left', List.mem_map, Link.mk.injEq, Prod.exists]
    constructor
    · rintro ⟨a, b, h1, rfl, rfl⟩; exact ⟨b, h1, rfl⟩
    · rintro ⟨b, h1, rfl⟩; exact ⟨v, b, h1, rfl, rfl⟩

theorem linkIterIds_fst {g : FOGraph} {v : Nat} {ls : List (Link × Nat)} (h : g.linkIterIds v = some ls) : g.linkIter v = some (ls.map (·.1)) := by
  unfold FOGraph.linkIterIds at h
  unfold FOGraph.linkIter
  obtain ⟨⟨a, b⟩, h1, h⟩ := Option.bind_eq_some_iff.1 h
  obtain ⟨hs, h2, h⟩ := Option.bind_eq_some_iff.1 h
  obtain ⟨ws, h3, h⟩ := Option.bind_eq_some_iff.1 h
  simp only [Option.pure_def, Option.some.injEq] at h
  simp only [h1, h2, h3, Option.bind_eq_bind, Option.bind_some, Option.pure_def, Option.some.injEq]
  rw [← h]
  have l1 : hs.length = b - a := by
    unfold slice at h2; split at h2
    · simp only [Option.some.injEq] at h2; rw [← h2]; simp; omega
    · exact nomatch h2
  rw [show (fun x : Link × Nat => x.1) = Prod.fst from rfl, List.map_fst_zip]
  simp [l1]; omega

/-! ### the bounds as functions -/

abbrev Pr := Nat × Nat

def comb (dep : Nat) (c : Pr) (b : Bounds) (old : Pr) : Pr := (min old.1 (c.1 + b.lower), min old.2 (c.2 + b.tdUpper (dep + c.1)))

structure Small (b : Bounds) : Prop where
  lo : b.lower ≤ INFINITY
  live : b.liveUpper ≤ INFINITY
  pred : b.predictedUpper ≤ b.liveUpper

theorem Small.td {b : Bounds} (h : Small b) (t : Nat) : b.tdUpper t ≤ b.liveUpper := by
  unfold Bounds.tdUpper; split
  · exact h.pred
  · exact Nat.le_refl _

theorem combine_ok {dep : Nat} (hd : dep ≤ INFINITY) {c old : Pr} {b : Bounds} (hb : Small b) (h1 : c.1 ≤ INFINITY) (h2 : c.2 ≤ INFINITY) :
    combine dep c b old = some (comb dep c b old) := by
  have := hb.lo; have := hb.live; have := hb.td (dep + c.1)
  have e1 : add32 c.1 b.lower = some (c.1 + b.lower) := add32_of_lt (by unfold INFINITY at *; unfold U32; omega)
  have e2 : add32 dep c.1 = some (dep + c.1) := add32_of_lt (by unfold INFINITY at *; unfold U32; omega)
  have e3 : add32 c.2 (b.tdUpper (dep + c.1)) = some (c.2 + b.tdUpper (dep + c.1)) := add32_of_lt (by unfold INFINITY at *; unfold U32; omega)
  simp only [combine, e1, e2, e3, Option.bind_eq_bind, Option.bind_some, Option.pure_def, comb]

/-- what the bounds of a node mean -/
structure Good (trip : Nat → Nat → Nat → Nat → Prop) (src dep x : Nat) (c : Pr) : Prop where
  lo : c.1 ≤ INFINITY
  up : c.2 ≤ INFINITY
  way : c.2 < INFINITY → ∃ a, trip src x dep a ∧ dep + c.1 ≤ a ∧ a ≤ dep + c.2

theorem Good.comb {trip : Nat → Nat → Nat → Nat → Prop} (ht : Traffic trip) {src dep now x y : Nat} (hn : now ≤ dep) {c old : Pr} {b : Bounds}
    (h1 : Good trip src dep x c) (h2 : Good trip src dep y old) (hb : Means trip now x y b) : Good trip src dep y (comb dep c b old) := by
  refine ⟨le_trans (Nat.min_le_left _ _) h2.lo, le_trans (Nat.min_le_left _ _) h2.up, ?_⟩
  intro hlt
  simp only [MinMax.comb] at hlt ⊢
  by_cases hc : old.2 ≤ c.2 + b.tdUpper (dep + c.1)
  · rw [Nat.min_eq_left hc] at hlt ⊢
    obtain ⟨a, a1, a2, a3⟩ := h2.way hlt
    exact ⟨a, a1, by have := Nat.min_le_left old.1 (c.1 + b.lower); omega, a3⟩
  · have hc' : c.2 + b.tdUpper (dep + c.1) ≤ old.2 := by omega
    rw [Nat.min_eq_right hc'] at hlt ⊢
    obtain ⟨a, a1, a2, a3⟩ := h1.way (by omega)
    have hstep : ∃ a', trip x y a a' ∧ a + b.lower ≤ a' ∧ a' ≤ a + b.tdUpper (dep + c.1) := by
      unfold Bounds.tdUpper at hlt ⊢
      split at hlt
      · rename_i hv; simp only [hv, if_true]; exact hb.pred (by omega) a (by simp only [Nat.max_le]; omega)
      · rename_i hv; simp only [hv, if_false]; exact hb.live (by omega) a (by omega)
    obtain ⟨a', b1, b2, b3⟩ := hstep
    exact ⟨a', ht.goOn _ _ _ _ _ _ a1 b1, by have := Nat.min_le_right old.1 (c.1 + b.lower); omega, by omega⟩

/-! ### one node -/

def upF (dep : Nat) (c : Pr) (f : Nat → Pr) (l : Nat × Bounds) : Nat → Pr := fupd f l.1 (comb dep c l.2 (f l.1))
def lowF (w : Bounds → Nat) (d : Nat) (g : Nat → Nat) (l : Nat × Bounds) : Nat → Nat := fupd g l.1 (min (g l.1) (d + w l.2))

/-- the bounds follow the lower distances and stay below the pessimistic ones -/
def Sim (f : Nat → Pr) (g1 g2 : Nat → Nat) : Prop := ∀ x, (f x).1 = g1 x ∧ (f x).2 ≤ g2 x

theorem Sim.step {f : Nat → Pr} {g1 g2 : Nat → Nat} (h : Sim f g1 g2) {dep : Nat} {c : Pr} {d1 d2 : Nat} (h1 : c.1 = d1) (h2 : c.2 ≤ d2)
    {l : Nat × Bounds} (hb : Small l.2) : Sim (upF dep c f l) (lowF Bounds.lower d1 g1 l) (lowF Bounds.liveUpper d2 g2 l) := by
  intro x
  unfold upF lowF
  by_cases hx : x = l.1
  · subst hx
    have a := h l.1; have := hb.td (dep + c.1)
    simp only [fupd, if_true, comb]
    refine ⟨by rw [a.1, h1], ?_⟩
    exact Nat.le_min.2 ⟨le_trans (Nat.min_le_left _ _) a.2, le_trans (Nat.min_le_right _ _) (by omega)⟩
  · rw [fupd_of_ne _ _ hx, fupd_of_ne _ _ hx, fupd_of_ne _ _ hx]; exact h x

theorem Sim.fold {dep : Nat} {c : Pr} {d1 d2 : Nat} (h1 : c.1 = d1) (h2 : c.2 ≤ d2) : ∀ (ls : List (Nat × Bounds)), (∀ l ∈ ls, Small l.2) →
    ∀ {f : Nat → Pr} {g1 g2 : Nat → Nat}, Sim f g1 g2 →
    Sim (ls.foldl (upF dep c) f) (ls.foldl (lowF Bounds.lower d1) g1) (ls.foldl (lowF Bounds.liveUpper d2) g2)
  | [], _, _, _, _, h => h
  | l :: ls, hl, _, _, _, h => Sim.fold h1 h2 ls (fun l' h' => hl l' (List.mem_cons_of_mem _ h')) (h.step h1 h2 (hl l List.mem_cons_self))

theorem relaxUp_fold {n dep cur : Nat} (hd : dep ≤ INFINITY) {c : Pr} (c1 : c.1 ≤ INFINITY) (c2 : c.2 ≤ INFINITY) (hcur : cur < n) :
    ∀ (ls : List (Nat × Bounds)), (∀ l ∈ ls, l.1 < n ∧ l.1 ≠ cur ∧ Small l.2) → ∀ (V : TSVec Pr) (f : Nat → Pr), TRep n (INFINITY, INFINITY) V f → f cur = c →
      ∃ V', ls.foldlM (relaxUp dep cur) V = some V' ∧ TRep n (INFINITY, INFINITY) V' (ls.foldl (upF dep c) f)
  | [], _, V, f, hV, _ => ⟨V, rfl, hV⟩
  | l :: ls, hl, V, f, hV, hc => by
    obtain ⟨l1, l2, l3⟩ := hl l List.mem_cons_self
    obtain ⟨V1, h1, h2⟩ := hV.modify l1 (comb dep c l.2 (f l.1))
    obtain ⟨V', h3, h4⟩ := relaxUp_fold hd c1 c2 hcur ls (fun l' h' => hl l' (List.mem_cons_of_mem _ h')) V1 _ h2 (by rw [fupd_of_ne _ _ (Ne.symm l2)]; exact hc)
    refine ⟨V', ?_, h4⟩
    simp only [List.foldlM_cons, relaxUp, hV.get hcur, hc, hV.get l1, combine_ok hd l3 c1 c2, Option.bind_eq_bind, Option.bind_some, h1]
    exact h3

theorem tsRelax_fold {n d : Nat} {w : Bounds → Nat} (hd : d ≤ INFINITY) :
    ∀ (ls : List (Nat × Bounds)), (∀ l ∈ ls, l.1 < n ∧ w l.2 ≤ INFINITY) → ∀ (lsI : List (Link × Nat)), lsI.map (·.1) = ls.map (fun l => (⟨l.1, w l.2⟩ : Link)) →
      ∀ (v : TSVec Nat) (g : Nat → Nat), TRep n INFINITY v g →
      ∃ v', lsI.foldlM (tsRelax d) v = some v' ∧ TRep n INFINITY v' (ls.foldl (lowF w d) g)
  | [], _, lsI, he, v, g, hv => by
    cases lsI with
    | nil => exact ⟨v, rfl, hv⟩
    | cons a b => exact nomatch he
  | l :: ls, hl, lsI, he, v, g, hv => by
    cases lsI with
    | nil => exact nomatch he
    | cons a lsI =>
      obtain ⟨a, i⟩ := a
      simp only [List.map_cons, List.cons.injEq] at he
      obtain ⟨rfl, he⟩ := he
      obtain ⟨l1, l2⟩ := hl l List.mem_cons_self
      have h1 : add32 d (w l.2) = some (d + w l.2) := add32_of_lt (by unfold INFINITY at *; unfold U32; omega)
      have hrec := fun v g hv => tsRelax_fold hd ls (fun l' h' => hl l' (List.mem_cons_of_mem _ h')) lsI he v g hv
      by_cases hlt : d + w l.2 < g l.1
      · obtain ⟨v1, h2, h3⟩ := hv.modify l1 (d + w l.2)
        obtain ⟨v', h4, h5⟩ := hrec v1 _ h3
        refine ⟨v', ?_, ?_⟩
        · simp only [List.foldlM_cons, tsRelax, h1, hv.get l1, Option.bind_eq_bind, Option.bind_some, if_pos hlt, h2]; exact h4
        · rw [List.foldl_cons, lowF, Nat.min_eq_right (by omega)]; exact h5
      · obtain ⟨v', h4, h5⟩ := hrec v g hv
        refine ⟨v', ?_, ?_⟩
        · simp only [List.foldlM_cons, tsRelax, h1, hv.get l1, Option.bind_eq_bind, Option.bind_some, if_neg hlt]; exact h4
        · have : lowF w d g l = g := by
            funext x; unfold lowF; rw [Nat.min_eq_left (by omega)]
            by_cases hx : x = l.1
            · subst hx; simp [fupd]
            · rw [fupd_of_ne _ _ hx]
          rw [List.foldl_cons, this]; exact h5

theorem good_fold {trip : Nat → Nat → Nat → Nat → Prop} (ht : Traffic trip) {src dep now p : Nat} (hn : now ≤ dep) {c : Pr} (hc : Good trip src dep p c) :
    ∀ (ls : List (Nat × Bounds)), (∀ l ∈ ls, Means trip now p l.1 l.2) → ∀ (f : Nat → Pr), (∀ x, Good trip src dep x (f x)) →
      ∀ x, Good trip src dep x (ls.foldl (upF dep c) f x)
  | [], _, f, hf => hf
  | l :: ls, hl, f, hf => by
    rw [List.foldl_cons]
    apply good_fold ht hn hc ls (fun l' h' => hl l' (List.mem_cons_of_mem _ h'))
    intro x
    unfold upF
    by_cases hx : x = l.1
    · subst hx; simp only [fupd, if_true]; exact hc.comb ht hn (hf l.1) (hl l List.mem_cons_self)
    · rw [fupd_of_ne _ _ hx]; exact hf x

/-! ### the upward search -/

/-- the arcs of one direction -/
structure DOK (n : Nat) (tree : List (Option Nat)) (g : BGraph) : Prop where
  dir : DirOK n tree (g.proj Bounds.lower)
  small : ∀ u v b, BArc g u v b → Small b

theorem DOK.arc {n : Nat} {tree : List (Option Nat)} {g : BGraph} (h : DOK n tree g) {u v : Nat} {b : Bounds} (hb : BArc g u v b) :
    u < v ∧ v < n ∧ Anc (par tree) u v := by
  have ha : (g.proj Bounds.lower).Arc u v b.lower := arc_proj.2 ⟨b, hb, rfl⟩
  have := (FOGraph.WF.arc_lt h.dir.wf ha).2
  rw [h.dir.nn] at this
  exact ⟨h.dir.up ha, this, h.dir.anc ha⟩

theorem DOK.live {n : Nat} {tree : List (Option Nat)} {g : BGraph} (h : DOK n tree g) : DirOK n tree (g.proj Bounds.liveUpper) := by
  have hw := h.dir.wf
  refine ⟨⟨hw.small, hw.first, hw.last, ?_, hw.mono, hw.heads⟩, h.dir.nn, ?_, ?_, ?_⟩
  · have := hw.weights; simp only [BGraph.proj, List.length_map] at this ⊢; exact this
  · intro u v w ha; obtain ⟨b, h1, _⟩ := arc_proj.1 ha; exact (h.arc h1).1
  · intro u v w ha; obtain ⟨b, h1, _⟩ := arc_proj.1 ha; exact (h.arc h1).2.2
  · intro u v w ha; obtain ⟨b, h1, rfl⟩ := arc_proj.1 ha; exact (h.small u v b h1).live

theorem DOK.links {n : Nat} {tree : List (Option Nat)} {g : BGraph} (h : DOK n tree g) {u : Nat} (hu : u < n) : ∃ ls, g.links u = some ls := by
  obtain ⟨ls, h1⟩ := h.dir.wf.total (show u < (g.proj Bounds.lower).numNodes by rw [h.dir.nn]; exact hu)
  rw [linkIter_proj] at h1
  cases hg : g.links u with
  | none => rw [hg] at h1; exact nomatch h1
  | some ls => exact ⟨ls, rfl⟩

theorem ids_of {g : BGraph} {w : Bounds → Nat} {u : Nat} {ls : List (Nat × Bounds)} (h : g.links u = some ls) {lsI : List (Link × Nat)}
    (hI : (g.proj w).linkIterIds u = some lsI) : lsI.map (·.1) = ls.map (fun l => (⟨l.1, w l.2⟩ : Link)) := by
  have := linkIterIds_fst hI
  rw [linkIter_proj, h] at this
  simpa using this.symm

section
variable {n : Nat} {tree : List (Option Nat)} {trip : Nat → Nat → Nat → Nat → Prop} {src dep now : Nat}

theorem walk_sim (ht : TreeOK n tree) {F : BGraph} (hF : DOK n tree F) (htr : Traffic trip) (hn : now ≤ dep) (hd : dep ≤ INFINITY)
    (hm : ∀ u v b, BArc F u v b → Means trip now u v b) :
    ∀ (fuel : Nat) (next : Option Nat), (∀ p, next = some p → p < n) → ∀ (V : TSVec Pr) (f : Nat → Pr) (v1 v2 : TSVec Nat) (g1 g2 : Nat → Nat),
      TRep n (INFINITY, INFINITY) V f → TRep n INFINITY v1 g1 → TRep n INFINITY v2 g2 → Sim f g1 g2 → (∀ x, Good trip src dep x (f x)) → (∀ x, g2 x ≤ INFINITY) →
      ∀ v1' v2', tsWalk (F.proj Bounds.lower) tree fuel v1 next = some v1' → tsWalk (F.proj Bounds.liveUpper) tree fuel v2 next = some v2' →
      ∃ V' f' g1' g2', walk F tree dep fuel V next = some V' ∧ TRep n (INFINITY, INFINITY) V' f' ∧ TRep n INFINITY v1' g1' ∧ TRep n INFINITY v2' g2' ∧
        Sim f' g1' g2' ∧ ∀ x, Good trip src dep x (f' x) := by
  intro fuel
  induction fuel with
  | zero =>
    intro next hnx V f v1 v2 g1 g2 hV h1 h2 hs hg hg2 v1' v2' e1 e2
    cases next with
    | none =>
      simp only [tsWalk, Option.some.injEq] at e1 e2; subst e1 e2
      exact ⟨V, f, g1, g2, rfl, hV, h1, h2, hs, hg⟩
    | some p => exact nomatch e1
  | succ fuel ih =>
    intro next hnx V f v1 v2 g1 g2 hV h1 h2 hs hg hg2 v1' v2' e1 e2
    cases next with
    | none =>
      simp only [tsWalk, Option.some.injEq] at e1 e2; subst e1 e2
      exact ⟨V, f, g1, g2, rfl, hV, h1, h2, hs, hg⟩
    | some p =>
      have hp := hnx p rfl
      obtain ⟨ls, hls⟩ := hF.links hp
      obtain ⟨lsI1, hI1, _⟩ := links_spec hF.dir hp
      obtain ⟨lsI2, hI2, _⟩ := links_spec hF.live hp
      have htree : tree[p]? = some (par tree p) := by
        have : p < tree.length := by rw [ht.len]; exact hp
        simp [par, List.getElem?_eq_getElem this]
      have harc : ∀ l ∈ ls, BArc F p l.1 l.2 := fun l hl => ⟨ls, hls, hl⟩
      have hsm : ∀ l ∈ ls, Small l.2 := fun l hl => hF.small _ _ _ (harc l hl)
      obtain ⟨V1, k1, k2⟩ := relaxUp_fold hd (hg p).lo (hg p).up hp ls (fun l hl => by
        have := hF.arc (harc l hl); exact ⟨this.2.1, by omega, hsm l hl⟩) V f hV rfl
      obtain ⟨w1, k3, k4⟩ := tsRelax_fold (w := Bounds.lower) (d := g1 p) (by rw [← (hs p).1]; exact (hg p).lo) ls (fun l hl =>
        ⟨(hF.arc (harc l hl)).2.1, (hsm l hl).lo⟩) lsI1 (ids_of hls hI1) v1 g1 h1
      obtain ⟨w2, k5, k6⟩ := tsRelax_fold (w := Bounds.liveUpper) (d := g2 p) (hg2 p) ls (fun l hl =>
        ⟨(hF.arc (harc l hl)).2.1, (hsm l hl).live⟩) lsI2 (ids_of hls hI2) v2 g2 h2
      simp only [tsWalk, h1.get hp, htree, hI1, k3, Option.bind_eq_bind, Option.bind_some] at e1
      simp only [tsWalk, h2.get hp, htree, hI2, k5, Option.bind_eq_bind, Option.bind_some] at e2
      obtain ⟨V', f', g1', g2', r1, r2⟩ := ih (par tree p) (fun q hq => (ht.up hq).2) V1 _ w1 w2 _ _ k2 k4 k6 (hs.fold (hs p).1 (hs p).2 ls hsm)
        (good_fold htr hn (hg p) ls (fun l hl => hm _ _ _ (harc l hl)) f hg) (by
          have key : ∀ (ls : List (Nat × Bounds)) (g : Nat → Nat), (∀ x, g x ≤ INFINITY) → ∀ x, ls.foldl (lowF Bounds.liveUpper (g2 p)) g x ≤ INFINITY := by
            intro ls
            induction ls with
            | nil => intro g h; exact h
            | cons l ls ih =>
              intro g h; rw [List.foldl_cons]; apply ih
              intro x; unfold lowF
              by_cases hx : x = l.1
              · subst hx; simp only [fupd, if_true]; exact le_trans (Nat.min_le_left _ _) (h _)
              · rw [fupd_of_ne _ _ hx]; exact h x
          exact key ls g2 hg2) v1' v2' e1 e2
      refine ⟨V', f', g1', g2', ?_, r2⟩
      rw [walk]
      simp only [hls, k1, htree, Option.bind_eq_bind, Option.bind_some]
      exact r1

/-! ### the questions -/

/-- the known bounds follow the known potentials -/
inductive SimO (trip : Nat → Nat → Nat → Nat → Prop) (src dep x : Nat) : Option Pr → Option Nat → Option Nat → Prop
  | none : SimO trip src dep x none none none
  | some {c : Pr} {d1 d2 : Nat} : c.1 = d1 → c.2 ≤ d2 → Good trip src dep x c → SimO trip src dep x (some c) (some d1) (some d2)

theorem climb_sim (ht : TreeOK n tree) {P : TSVec (Option Pr)} {p1 p2 : TSVec (Option Nat)} {f : Nat → Option Pr} {g1 g2 : Nat → Option Nat}
    (hP : TRep n none P f) (h1 : TRep n none p1 g1) (h2 : TRep n none p2 g2) (hs : ∀ x, SimO trip src dep x (f x) (g1 x) (g2 x)) :
    ∀ (fuel : Nat) (stack : List Nat) (cur : Nat), cur < n → climb tree P fuel stack cur = CCH.climb tree p1 fuel stack cur ∧
      climb tree P fuel stack cur = CCH.climb tree p2 fuel stack cur := by
  intro fuel
  induction fuel with
  | zero => intro stack cur _; exact ⟨rfl, rfl⟩
  | succ fuel ih =>
    intro stack cur hc
    have htree : tree[cur]? = some (par tree cur) := by
      have : cur < tree.length := by rw [ht.len]; exact hc
      simp [par, List.getElem?_eq_getElem this]
    have hx := hs cur
    simp only [climb, CCH.climb, hP.get hc, h1.get hc, h2.get hc, htree, Option.bind_eq_bind, Option.bind_some]
    generalize f cur = a at hx
    generalize g1 cur = b at hx
    generalize g2 cur = c at hx
    cases hx with
    | some _ _ _ => exact ⟨rfl, rfl⟩
    | none =>
      simp only
      cases hq : par tree cur with
      | none => exact ⟨rfl, rfl⟩
      | some q => exact ih (cur :: stack) q (ht.up hq).2

theorem relaxDown_sim (htr : Traffic trip) (hn : now ≤ dep) (hd : dep ≤ INFINITY) {x : Nat} {P : TSVec (Option Pr)} {p1 p2 : TSVec (Option Nat)} {f : Nat → Option Pr} {g1 g2 : Nat → Option Nat}
    (hP : TRep n none P f) (h1 : TRep n none p1 g1) (h2 : TRep n none p2 g2) (hs : ∀ x, SimO trip src dep x (f x) (g1 x) (g2 x)) :
    ∀ (ls : List (Nat × Bounds)), (∀ l ∈ ls, l.1 < n ∧ Small l.2 ∧ Means trip now l.1 x l.2) → ∀ (c : Pr) (d1 d2 e1 e2 : Nat), c.1 = d1 → c.2 ≤ d2 → Good trip src dep x c →
      (ls.map (fun l => (⟨l.1, l.2.lower⟩ : Link))).foldlM (potRelax p1) d1 = some e1 → (ls.map (fun l => (⟨l.1, l.2.liveUpper⟩ : Link))).foldlM (potRelax p2) d2 = some e2 →
      ∃ c', ls.foldlM (relaxDown dep P) c = some c' ∧ c'.1 = e1 ∧ c'.2 ≤ e2 ∧ Good trip src dep x c'
  | [], _, c, d1, d2, e1, e2, a1, a2, a3, k1, k2 => by
    simp only [List.map_nil, List.foldlM_nil, Option.pure_def, Option.some.injEq] at k1 k2
    subst k1 k2
    exact ⟨c, rfl, a1, a2, a3⟩
  | l :: ls, hl, c, d1, d2, e1, e2, a1, a2, a3, k1, k2 => by
    obtain ⟨l1, l2, l3⟩ := hl l List.mem_cons_self
    have hx := hs l.1
    simp only [List.map_cons, List.foldlM_cons, potRelax, h1.get l1, Option.bind_eq_bind, Option.bind_some] at k1
    simp only [List.map_cons, List.foldlM_cons, potRelax, h2.get l1, Option.bind_eq_bind, Option.bind_some] at k2
    rw [List.foldlM_cons]
    simp only [relaxDown, hP.get l1, Option.bind_eq_bind, Option.bind_some]
    generalize f l.1 = a at hx
    generalize g1 l.1 = b1 at hx k1
    generalize g2 l.1 = b2 at hx k2
    cases hx with
    | none => exact nomatch k1
    | @some c0 b1 b2 q1 q2 q3 =>
      simp only [Option.bind_some] at k1 k2 ⊢
      rw [combine_ok hd l2 q3.lo q3.up]
      simp only [Option.bind_some]
      obtain ⟨y1, m1, k1⟩ := Option.bind_eq_some_iff.1 k1
      obtain ⟨y2, m2, k2⟩ := Option.bind_eq_some_iff.1 k2
      obtain ⟨z1, n1, m1⟩ := Option.bind_eq_some_iff.1 m1
      obtain ⟨z2, n2, m2⟩ := Option.bind_eq_some_iff.1 m2
      simp only [Option.pure_def, Option.some.injEq] at m1 m2
      have r1 : z1 = l.2.lower + b1 := by unfold add32 at n1; split at n1 <;> simp_all
      have r2 : z2 = l.2.liveUpper + b2 := by unfold add32 at n2; split at n2 <;> simp_all
      subst m1 m2 r1 r2
      have := l2.td (dep + c0.1)
      refine relaxDown_sim htr hn hd hP h1 h2 hs ls (fun l' h' => hl l' (List.mem_cons_of_mem _ h')) (comb dep c0 l.2 c) _ _ e1 e2 ?_ ?_ (q3.comb htr hn a3 l3) k1 k2
      · simp only [comb]; rw [a1, q1, Nat.add_comm]
      · simp only [comb]
        exact Nat.le_min.2 ⟨le_trans (Nat.min_le_left _ _) a2, le_trans (Nat.min_le_right _ _) (by omega)⟩

theorem popAll_sim {B : BGraph} (hB : DOK n tree B) (htr : Traffic trip) (hn : now ≤ dep) (hd : dep ≤ INFINITY)
    (hm : ∀ u v b, BArc B u v b → Means trip now v u b) {D : TSVec Pr} {e1 e2 : TSVec Nat} {f : Nat → Pr} {g1 g2 : Nat → Nat}
    (hD : TRep n (INFINITY, INFINITY) D f) (hd1 : TRep n INFINITY e1 g1) (hd2 : TRep n INFINITY e2 g2) (hs : Sim f g1 g2) (hg : ∀ x, Good trip src dep x (f x)) :
    ∀ (st : List Nat), (∀ x ∈ st, x < n) → ∀ (P : TSVec (Option Pr)) (p1 p2 : TSVec (Option Nat)) (q : Nat → Option Pr) (q1 q2 : Nat → Option Nat),
      TRep n none P q → TRep n none p1 q1 → TRep n none p2 q2 → (∀ x, SimO trip src dep x (q x) (q1 x) (q2 x)) → ∀ p1' p2',
      CCH.popAll (B.proj Bounds.lower) e1 st p1 = some p1' → CCH.popAll (B.proj Bounds.liveUpper) e2 st p2 = some p2' →
      ∃ P' q' q1' q2', popAll B dep D st P = some P' ∧ TRep n none P' q' ∧ TRep n none p1' q1' ∧ TRep n none p2' q2' ∧ ∀ x, SimO trip src dep x (q' x) (q1' x) (q2' x)
  | [], _, P, p1, p2, q, q1, q2, hP, h1, h2, hq, p1', p2', k1, k2 => by
    simp only [CCH.popAll, Option.some.injEq] at k1 k2; subst k1 k2
    exact ⟨P, q, q1, q2, rfl, hP, h1, h2, hq⟩
  | x :: st, hst, P, p1, p2, q, q1, q2, hP, h1, h2, hq, p1', p2', k1, k2 => by
    have hx := hst x List.mem_cons_self
    obtain ⟨ls, hls⟩ := hB.links hx
    have harc : ∀ l ∈ ls, BArc B x l.1 l.2 := fun l hl => ⟨ls, hls, hl⟩
    simp only [CCH.popAll, hd1.get hx, linkIter_proj, hls, Option.map_some, Option.bind_eq_bind, Option.bind_some] at k1
    simp only [CCH.popAll, hd2.get hx, linkIter_proj, hls, Option.map_some, Option.bind_eq_bind, Option.bind_some] at k2
    obtain ⟨y1, m1, k1⟩ := Option.bind_eq_some_iff.1 k1
    obtain ⟨y2, m2, k2⟩ := Option.bind_eq_some_iff.1 k2
    obtain ⟨c, r1, r2, r3, r4⟩ := relaxDown_sim htr hn hd hP h1 h2 hq ls (fun l hl =>
      ⟨(hB.arc (harc l hl)).2.1, hB.small _ _ _ (harc l hl), hm _ _ _ (harc l hl)⟩) (f x) (g1 x) (g2 x) y1 y2 (hs x).1 (hs x).2 (hg x) m1 m2
    obtain ⟨P1, s1, s2⟩ := hP.modify hx (some c)
    obtain ⟨u1, t1, t2⟩ := h1.modify hx (some y1)
    obtain ⟨u2, t3, t4⟩ := h2.modify hx (some y2)
    simp only [t1, Option.bind_some] at k1
    simp only [t3, Option.bind_some] at k2
    obtain ⟨P', q', q1', q2', z1, z2⟩ := popAll_sim hB htr hn hd hm hD hd1 hd2 hs hg st (fun y hy => hst y (List.mem_cons_of_mem _ hy)) P1 u1 u2 _ _ _ s2 t2 t4 (by
      intro y
      by_cases hy : y = x
      · subst hy; simp only [fupd, if_true]; exact .some r2 r3 r4
      · rw [fupd_of_ne _ _ hy, fupd_of_ne _ _ hy, fupd_of_ne _ _ hy]; exact hq y) p1' p2' k1 k2
    refine ⟨P', q', q1', q2', ?_, z2⟩
    simp only [popAll, hD.get hx, hls, r1, s1, Option.bind_eq_bind, Option.bind_some]
    exact z1

/-! ### histories -/

/-- a potential between calls, before the first start -/
structure Fresh (n : Nat) (S : State) : Prop where
  stack : S.stack = []
  dist : ∃ f, TRep n (INFINITY, INFINITY) S.fwDist f
  pots : ∃ q, TRep n none S.pots q

/-- a potential after a start -/
structure Full (n : Nat) (tree : List (Option Nat)) (F B : BGraph) (trip : Nat → Nat → Nat → Nat → Prop) (src dep : Nat) (S : State) (s1 s2 : PotState) : Prop where
  stack : S.stack = []
  leave : S.departure = dep
  dist : ∃ f g1 g2, TRep n (INFINITY, INFINITY) S.fwDist f ∧ TRep n INFINITY s1.bwDist g1 ∧ TRep n INFINITY s2.bwDist g2 ∧ Sim f g1 g2 ∧ ∀ x, Good trip src dep x (f x)
  pots : ∃ q q1 q2, TRep n none S.pots q ∧ TRep n none s1.pots q1 ∧ TRep n none s2.pots q2 ∧ ∀ x, SimO trip src dep x (q x) (q1 x) (q2 x)
  low : PotOK n tree (B.proj Bounds.lower) (F.proj Bounds.lower) src s1
  live : PotOK n tree (B.proj Bounds.liveUpper) (F.proj Bounds.liveUpper) src s2

theorem Full.fresh {F B : BGraph} {S : State} {s1 s2 : PotState} (h : Full n tree F B trip src dep S s1 s2) : Fresh n S := by
  obtain ⟨f, _, _, h1, _⟩ := h.dist
  obtain ⟨q, _, _, h2, _⟩ := h.pots
  exact ⟨h.stack, ⟨f, h1⟩, ⟨q, h2⟩⟩

theorem fresh_new : Fresh n (State.new n) := ⟨rfl, ⟨_, TRep.new⟩, ⟨_, TRep.new⟩⟩

theorem init_sim (ht : TreeOK n tree) {F B : BGraph} (hF : DOK n tree F) (htr : Traffic trip) (hst : ∀ x t, trip x x t t) (hn : now ≤ dep) (hd : dep ≤ INFINITY)
    (hm : ∀ u v b, BArc F u v b → Means trip now u v b) {S : State} (hS : Fresh n S) (hs : src < n) :
    ∃ S' s1 s2, init F tree S src dep = some S' ∧ Full n tree F B trip src dep S' s1 s2 := by
  obtain ⟨s1, a1, a2⟩ := potInit_spec (fw := B.proj Bounds.lower) ht hF.dir (potReady_new (n := n)) hs
  obtain ⟨s2, a3, a4⟩ := potInit_spec (fw := B.proj Bounds.liveUpper) ht hF.live (potReady_new (n := n)) hs
  obtain ⟨f0, hf0⟩ := hS.dist
  obtain ⟨q0, hq0⟩ := hS.pots
  obtain ⟨V, b1, b2⟩ := hf0.reset.modify hs (0, 0)
  unfold potInit at a1 a3
  obtain ⟨w1, c1, a1⟩ := Option.bind_eq_some_iff.1 a1
  obtain ⟨w2, c2, a3⟩ := Option.bind_eq_some_iff.1 a3
  simp only [Option.pure_def, Option.some.injEq] at a1 a3
  have hnew : TRep n INFINITY ((PotState.new n).bwDist.reset) (fun _ => INFINITY) := TRep.reset (TRep.new (d := INFINITY))
  obtain ⟨v, d1, d2⟩ := hnew.modify hs 0
  unfold tsQuery at c1 c2
  obtain ⟨_, _, c1⟩ := Option.bind_eq_some_iff.1 c1
  obtain ⟨_, _, c2⟩ := Option.bind_eq_some_iff.1 c2
  simp only [d1, Option.bind_eq_bind, Option.bind_some] at c1 c2
  obtain ⟨V', f', g1', g2', r1, r2, r3, r4, r5, r6⟩ := walk_sim (src := src) ht hF htr hn hd hm (tree.length + 1) (some src) (by intro p hp; simp at hp; omega) V _ v v _ _ b2 d2 d2 (by
      intro x
      by_cases hx : x = src
      · subst hx; simp [fupd]
      · rw [fupd_of_ne _ _ hx, fupd_of_ne _ _ hx]; exact ⟨rfl, Nat.le_refl _⟩) (by
      intro x
      by_cases hx : x = src
      · subst hx; simp only [fupd, if_true]
        exact ⟨Nat.zero_le _, Nat.zero_le _, fun _ => ⟨dep, hst x dep, by simp, by simp⟩⟩
      · rw [fupd_of_ne _ _ hx]
        exact ⟨Nat.le_refl _, Nat.le_refl _, fun h => absurd h (Nat.lt_irrefl _)⟩) (by
      intro x
      by_cases hx : x = src
      · subst hx; simp [fupd]
      · rw [fupd_of_ne _ _ hx]) w1 w2 c1 c2
  refine ⟨⟨S.stack, V', S.pots.reset, dep⟩, s1, s2, ?_, ⟨hS.stack, rfl, ⟨f', g1', g2', r2, by rw [← a1]; exact r3, by rw [← a3]; exact r4, r5, r6⟩, ?_, a2, a4⟩⟩
  · simp only [init, b1, r1, Option.bind_eq_bind, Option.bind_some, Option.pure_def]
  · refine ⟨_, _, _, hq0.reset, ?_, ?_, fun x => .none⟩
    · rw [← a1]; exact TRep.reset (TRep.new (d := none))
    · rw [← a3]; exact TRep.reset (TRep.new (d := none))

theorem stackRest_lt : ∀ {x : Nat} {st : List Nat}, StackRest n tree x st → ∀ y ∈ st, y < n
  | _, [], _, _, h => nomatch h
  | _, z :: r, h, y, hy => by
    rcases List.mem_cons.1 hy with rfl | hy
    · exact h.1
    · exact stackRest_lt h.2.2 y hy

theorem stackOK_lt {f : Nat → Option Nat} {st : List Nat} (h : StackOK n tree f st) : ∀ y ∈ st, y < n := by
  cases h with
  | nil => intro y hy; exact nomatch hy
  | one h1 _ h3 =>
    intro y hy
    rcases List.mem_cons.1 hy with rfl | hy
    · exact h1
    · exact stackRest_lt h3 y hy

theorem potential_sim (ht : TreeOK n tree) {F B : BGraph} (hB : DOK n tree B) (htr : Traffic trip) (hn : now ≤ dep) (hd : dep ≤ INFINITY)
    (hm : ∀ u v b, BArc B u v b → Means trip now v u b) {S : State} {s1 s2 : PotState} (h : Full n tree F B trip src dep S s1 s2) {v : Nat} (hv : v < n) :
    ∃ S' s1' s2' c, potential B tree S v = some (S', if c.1 < INFINITY then some c else none) ∧ Full n tree F B trip src dep S' s1' s2' ∧ Good trip src dep v c ∧
      CapMin (UpDown (F.proj Bounds.lower).Arc (B.proj Bounds.lower).Arc src v) c.1 ∧
      ∃ d, CapMin (UpDown (F.proj Bounds.liveUpper).Arc (B.proj Bounds.liveUpper).Arc src v) d ∧ c.2 ≤ d := by
  have swap : ∀ {F B : Nat → Nat → Nat → Prop} {x : Nat}, CapMin (UpDown B F v src) x → CapMin (UpDown F B src v) x := by
    intro F B x hx
    refine ⟨hx.ub, fun hlt => ?_, ?_⟩
    · obtain ⟨m, a, b, h1, h2, h3⟩ := hx.sound hlt; exact ⟨m, b, a, h2, h1, by omega⟩
    · rintro d ⟨m, a, b, h1, h2, h3⟩; exact hx.le d ⟨m, b, a, h2, h1, by omega⟩
  obtain ⟨f, g1, g2, k1, k2, k3, k4, k5⟩ := h.dist
  obtain ⟨q, q1, q2, l1, l2, l3, l4⟩ := h.pots
  obtain ⟨t1, x1, m1, m2, m3⟩ := potGet_spec ht hB.dir h.low hv
  obtain ⟨t2, x2, m4, m5, m6⟩ := potGet_spec ht hB.live h.live hv
  unfold potGet at m1 m4
  obtain ⟨st1, n1, m1⟩ := Option.bind_eq_some_iff.1 m1
  obtain ⟨st2, n2, m4⟩ := Option.bind_eq_some_iff.1 m4
  obtain ⟨p1, n3, m1⟩ := Option.bind_eq_some_iff.1 m1
  obtain ⟨p2, n4, m4⟩ := Option.bind_eq_some_iff.1 m4
  obtain ⟨o1, n5, m1⟩ := Option.bind_eq_some_iff.1 m1
  obtain ⟨o2, n6, m4⟩ := Option.bind_eq_some_iff.1 m4
  obtain ⟨y1, n7, m1⟩ := Option.bind_eq_some_iff.1 m1
  obtain ⟨y2, n8, m4⟩ := Option.bind_eq_some_iff.1 m4
  simp only [Option.pure_def, Option.some.injEq, Prod.mk.injEq] at m1 m4
  obtain ⟨M1, M1'⟩ := m1
  obtain ⟨M4, M4'⟩ := m4
  subst n7 n8
  rw [h.low.stack] at n1
  rw [h.live.stack] at n2
  obtain ⟨cl1, cl2⟩ := climb_sim ht l1 l2 l3 l4 (tree.length + 1) [] v hv
  have hst : st1 = st2 := by
    have : CCH.climb tree s1.pots (tree.length + 1) [] v = CCH.climb tree s2.pots (tree.length + 1) [] v := cl1.symm.trans cl2
    rw [n1, n2] at this; exact Option.some.inj this
  subst hst
  obtain ⟨st', e1, e2, _, _⟩ := climb_spec ht l2 (tree.length + 1) [] v hv (by rw [ht.len]; omega) trivial
  rw [n1] at e1
  simp only [Option.some.injEq] at e1; subst e1
  obtain ⟨P', q', q1', q2', r1, r2, r3, r4, r5⟩ := popAll_sim hB htr hn hd hm k1 k2 k3 k4 k5 st1 (stackOK_lt e2) S.pots s1.pots s2.pots q q1 q2 l1 l2 l3 l4 p1 p2 n3 n4
  have hx := r5 v
  rw [r3.get hv] at n5
  rw [r4.get hv] at n6
  simp only [Option.some.injEq] at n5 n6
  have e3 : (q' v) = some (y1, (q' v).get!.2) ∧ (q' v).get!.2 ≤ y2 ∧ Good trip src dep v (y1, (q' v).get!.2) := by
    rw [n5, n6] at hx
    generalize q' v = a at hx ⊢
    cases hx with
    | @some c _ _ w1 w2 w3 =>
      obtain ⟨c1, c2⟩ := c
      simp only at w1; subst w1
      exact ⟨rfl, w2, w3⟩
  obtain ⟨e3, e4, e5⟩ := e3
  generalize (q' v).get!.2 = u at e3 e4 e5
  have f1 : y1 = x1 := by
    have := e5.lo; have := m3.ub
    simp only at *
    split at M1' <;> split at M1' <;> simp at M1' <;> omega
  have f2 : u ≤ x2 := by
    have := e5.up; have := m6.ub
    simp only at *
    split at M4' <;> split at M4' <;> simp at M4' <;> omega
  refine ⟨⟨[], S.fwDist, P', S.departure⟩, t1, t2, (y1, u), ?_, ⟨rfl, h.leave, ⟨f, g1, g2, k1, ?_, ?_, k4, k5⟩, ⟨q', q1', q2', r2, ?_, ?_, r5⟩, m2, m5⟩, e5, ?_, x2, swap m6, f2⟩
  · simp only [potential, h.stack, h.leave, cl1, n1, r1, r2.get hv, e3, Option.bind_eq_bind, Option.bind_some, Option.pure_def]
  · rw [← M1]; exact k2
  · rw [← M4]; exact k3
  · rw [← M1]; exact r3
  · rw [← M4]; exact r4
  · rw [f1]; exact swap m3

end

end MinMax
end Verif
