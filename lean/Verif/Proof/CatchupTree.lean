import Verif.Spec.CatchupGraph
import Mathlib.Tactic.Linarith
set_option linter.unusedSimpArgs false
set_option linter.unusedVariables false
/- The bounds computed in the elimination tree, for one direction of the corridor query of CATCHUp. -/
namespace Verif.Catchup
open Fl

theorem flt_iff {eps x y : Rat} : flt eps x y = true ↔ x + eps < y := by
  unfold flt; simp only [decide_eq_true_eq]; constructor <;> intro h <;> linarith

theorem flt_false {eps x y : Rat} : flt eps x y = false ↔ y ≤ x + eps := by
  rw [← Bool.not_eq_true, flt_iff, not_lt]

theorem mem_links {as : List Arc} {v : Nat} {p : Nat × Arc} : p ∈ links as v ↔ as[p.1]? = some p.2 ∧ p.2.tail = v := by
  unfold links
  simp only [List.mem_filter, List.mem_map, Prod.exists, beq_iff_eq, List.mem_zipIdx_iff_getElem?]
  constructor
  · rintro ⟨⟨a, i, h, rfl⟩, h2⟩; exact ⟨h, h2⟩
  · rintro ⟨h, h2⟩; exact ⟨⟨p.2, p.1, h, rfl⟩, h2⟩

theorem AncS.trans {par : Nat → Option Nat} {o x y : Nat} (h : AncS par o x) (h2 : AncS par x y) : AncS par o y := by
  induction h2 with
  | refl => exact h
  | up _ hp ih => exact .up ih hp

theorem AncS.le {par : Nat → Option Nat} (hp : ∀ v w, par v = some w → v < w) {o x : Nat} (h : AncS par o x) : o ≤ x := by
  induction h with
  | refl => exact Nat.le_refl _
  | up _ h ih => have := hp _ _ h; omega

theorem AncS.head {par : Nat → Option Nat} {o x : Nat} (h : AncS par o x) : x = o ∨ ∃ p, par o = some p ∧ AncS par p x := by
  induction h with
  | refl => exact .inl rfl
  | up _ hp ih =>
    rcases ih with rfl | ⟨p, h1, h2⟩
    · exact .inr ⟨_, hp, .refl⟩
    · exact .inr ⟨p, h1, .up h2 hp⟩

theorem AncS.total {par : Nat → Option Nat} {o x y : Nat} (h : AncS par o x) (h2 : AncS par o y) : AncS par x y ∨ AncS par y x := by
  induction h with
  | refl => exact .inl h2
  | @up a b ha hp ih =>
    rcases ih with h | h
    · rcases h.head with rfl | ⟨p, h3, h4⟩
      · exact .inr (.up .refl hp)
      · rw [hp] at h3; injection h3 with h3; subst h3; exact .inl h4
    · exact .inr (.up h hp)

theorem AncS.next {par : Nat → Option Nat} (hp : ∀ v w, par v = some w → v < w) {o w x : Nat} (h : AncS par o w) (h2 : AncS par o x) (hl : w < x) :
    ∃ p, par w = some p ∧ p ≤ x := by
  rcases h.total h2 with h3 | h3
  · rcases h3.head with rfl | ⟨p, h4, h5⟩
    · omega
    · exact ⟨p, h4, h5.le hp⟩
  · have := h3.le hp; omega

/-- nodes already visited, if `f` is the next one -/
def Below (f : Option Nat) (x : Nat) : Prop := ∀ w, f = some w → x < w

theorem below_next {par : Nat → Option Nat} (hp : ∀ v w, par v = some w → v < w) {o w x : Nat} (h : AncS par o w) (h2 : AncS par o x)
    (hb : Below (par w) x) : x < w ∨ x = w := by
  rcases Nat.lt_trichotomy x w with h3 | h3 | h3
  · exact .inl h3
  · exact .inr h3
  · obtain ⟨p, h4, h5⟩ := h.next hp h2 h3
    have := hb p h4; omega

theorem below_up {par : Nat → Option Nat} (hp : ∀ v w, par v = some w → v < w) {w x : Nat} (h : x ≤ w) : Below (par w) x := by
  intro p hp2; have := hp _ _ hp2; omega

/-- The tree contains the arcs. -/
structure TreeOK (par : Nat → Option Nat) (as : List Arc) : Prop where
  par_lt : ∀ v w, par v = some w → v < w
  arc_lt : ∀ a ∈ as, a.tail < a.head
  anc : ∀ a ∈ as, AncS par a.tail a.head
  lo : ∀ a ∈ as, 0 ≤ a.lo
  up : ∀ a ∈ as, 0 ≤ a.up

/-- Nodes on promising paths, with the time it takes to get there. -/
inductive Opt (as : List Arc) (ok : Nat → Rat → Prop) (o : Nat) : Nat → Rat → Prop where
  | base : Opt as ok o o 0
  | step {x id : Nat} {v v' : Rat} {a : Arc} : Opt as ok o x v → as[id]? = some a → a.tail = x → v + a.lo ≤ v' → ok a.head v' → Opt as ok o a.head v'

/-- what is needed of the upper bounds -/
structure UOK (as : List Arc) (U ok : Nat → Rat → Prop) : Prop where
  mono : ∀ x u u', U x u → u ≤ u' → U x u'
  arc : ∀ a ∈ as, ∀ u, 0 ≤ u → U a.tail u → U a.head (u + a.up)
  le : ∀ x u v, ok x v → U x u → v ≤ u

theorem Opt.anc {as : List Arc} {par : Nat → Option Nat} (ht : TreeOK par as) {ok : Nat → Rat → Prop} {o x : Nat} {v : Rat} (h : Opt as ok o x v) :
    AncS par o x := by
  induction h with
  | base => exact .refl
  | step _ ha htl _ _ ih => exact ih.trans (htl ▸ ht.anc _ (List.mem_of_getElem? ha))

/-! ## One node -/

structure Relaxed (U ok : Nat → Rat → Prop) (w : Nat) (lo up : Rat) (L : List (Nat × Arc)) (d d' : Nodes) : Prop where
  other : ∀ x, (∀ p ∈ L, p.2.head ≠ x) → d' x = d x
  keep : ∀ x, ∀ l ∈ (d x).labels, l ∈ (d' x).labels
  new : ∀ x, ∀ l ∈ (d' x).labels, l ∈ (d x).labels ∨ ∃ p ∈ L, p.2.head = x ∧ l = ⟨p.2.lo + lo, w, p.1⟩
  low : ∀ x, (d' x).lower ≤ (d x).lower
  pos : ∀ x, 0 ≤ (d' x).lower ∧ 0 ≤ (d' x).upper
  upper : ∀ x, U x (d' x).upper
  hit : ∀ p ∈ L, ∀ v', ok p.2.head v' → p.2.lo + lo ≤ v' → (∃ l ∈ (d' p.2.head).labels, l.id = p.1 ∧ l.parent = w) ∧ (d' p.2.head).lower ≤ v'

theorem relaxed {as : List Arc} {U ok : Nat → Rat → Prop} (hU : UOK as U ok) {eps : Rat} (he : 0 ≤ eps) (w : Nat) (lo up : Rat) (hlo : 0 ≤ lo) (hup : 0 ≤ up)
    (hw : U w up) : ∀ (L : List (Nat × Arc)) (d : Nodes), (∀ p ∈ L, p.2 ∈ as ∧ p.2.tail = w ∧ 0 ≤ p.2.lo ∧ 0 ≤ p.2.up) → (∀ x, 0 ≤ (d x).lower ∧ 0 ≤ (d x).upper) →
      (∀ x, U x (d x).upper) → Relaxed U ok w lo up L d (L.foldl (relaxBounds eps w lo up) d) := by
  intro L
  induction L with
  | nil =>
    intro d _ h1 h2
    exact ⟨fun _ _ => rfl, fun _ _ h => h, fun _ _ h => .inl h, fun _ => le_refl _, h1, h2, fun p hp => by simp at hp⟩
  | cons p L ih =>
    intro d hL h1 h2
    obtain ⟨ha, htl, hpl, hpu⟩ := hL p (by simp)
    have hs : Relaxed U ok w lo up [p] d (relaxBounds eps w lo up d p) := by
      unfold relaxBounds
      by_cases hc : flt eps (d p.2.head).upper (p.2.lo + lo) = true
      · simp only [hc, if_true]
        refine ⟨fun _ _ => rfl, fun _ _ h => h, fun _ _ h => .inl h, fun _ => le_refl _, h1, h2, ?_⟩
        intro q hq v' hok hv
        simp only [List.mem_singleton] at hq; subst hq
        have := hU.le _ _ _ hok (h2 q.2.head)
        rw [flt_iff] at hc; linarith
      · simp only [hc, Bool.false_eq_true, if_false]
        have hnw : ∀ x (n : NData), fupd d p.2.head n x = if x = p.2.head then n else d x := fun _ _ => rfl
        refine ⟨?_, ?_, ?_, ?_, ?_, ?_, ?_⟩
        · intro x hx
          have := hx p (by simp)
          rw [hnw, if_neg (Ne.symm this)]
        · intro x l hl
          rw [hnw]; split
          · next h => subst h; simp [hl]
          · exact hl
        · intro x l hl
          rw [hnw] at hl; split at hl
          · next h =>
            subst h
            simp only [List.mem_append, List.mem_singleton] at hl
            rcases hl with hl | hl
            · exact .inl hl
            · exact .inr ⟨p, by simp, rfl, hl⟩
          · exact .inl hl
        · intro x
          rw [hnw]; split
          · next h => subst h; exact min_le_right _ _
          · exact le_refl _
        · intro x
          rw [hnw]; split
          · exact ⟨le_min (by linarith) (h1 _).1, le_min (by linarith) (h1 _).2⟩
          · exact h1 x
        · intro x
          rw [hnw]; split
          · next h =>
            subst h
            simp only
            rcases le_total (p.2.up + up) (d p.2.head).upper with h | h
            · rw [min_eq_left h, add_comm]; exact hU.arc _ ha _ hup (htl ▸ hw)
            · rw [min_eq_right h]; exact h2 _
          · exact h2 x
        · intro q hq v' hok hv
          simp only [List.mem_singleton] at hq; subst hq
          rw [hnw, if_pos rfl]
          exact ⟨⟨_, by simp; right; rfl, rfl, rfl⟩, le_trans (min_le_left _ _) hv⟩
    have ht := ih (relaxBounds eps w lo up d p) (fun q hq => hL q (by simp [hq])) hs.pos hs.upper
    rw [List.foldl_cons]
    refine ⟨?_, ?_, ?_, ?_, ht.pos, ht.upper, ?_⟩
    · intro x hx
      rw [ht.other x (fun q hq => hx q (by simp [hq])), hs.other x (fun q hq => hx q (by simp only [List.mem_singleton] at hq; simp [hq]))]
    · intro x l hl; exact ht.keep x l (hs.keep x l hl)
    · intro x l hl
      rcases ht.new x l hl with h | ⟨q, hq, h⟩
      · rcases hs.new x l h with h | ⟨q, hq, h⟩
        · exact .inl h
        · exact .inr ⟨q, by simp only [List.mem_singleton] at hq; simp [hq], h⟩
      · exact .inr ⟨q, by simp [hq], h⟩
    · intro x; exact le_trans (ht.low x) (hs.low x)
    · intro q hq v' hok hv
      rw [List.mem_cons] at hq
      rcases hq with rfl | hq
      · obtain ⟨⟨l, h1, h2⟩, h3⟩ := hs.hit q (by simp) v' hok hv
        exact ⟨⟨l, ht.keep _ _ h1, h2⟩, le_trans (ht.low _) h3⟩
      · exact ht.hit q hq v' hok hv

/-! ## The search in one direction -/

structure DInv (par : Nat → Option Nat) (as : List Arc) (U ok : Nat → Rat → Prop) (o : Nat) (f : Option Nat) (path : List Nat) (d : Nodes) : Prop where
  upper : ∀ x, U x (d x).upper
  pos : ∀ x, 0 ≤ (d x).lower ∧ 0 ≤ (d x).upper
  lab : ∀ x, ∀ l ∈ (d x).labels, ∃ a, as[l.id]? = some a ∧ a.tail = l.parent ∧ a.head = x ∧ l.lower = a.lo + (d l.parent).lower ∧ Below f l.parent
  sorted : path.Pairwise (· > ·)
  below : ∀ x ∈ path, Below f x
  base : (d o).lower ≤ 0
  opt : ∀ x v, Opt as ok o x v → Below f x → x ∈ path
  step : ∀ x v id a v', Opt as ok o x v → as[id]? = some a → a.tail = x → v + a.lo ≤ v' → ok a.head v' → Below f x →
    (∃ l ∈ (d a.head).labels, l.id = id ∧ l.parent = x) ∧ (d a.head).lower ≤ v'
  clean : ∀ x, ¬ AncS par o x → d x = .none
  front : ∀ w, f = some w → AncS par o w

variable {par : Nat → Option Nat} {as : List Arc} {U ok : Nat → Rat → Prop} {o : Nat} {path : List Nat} {d : Nodes} {eps : Rat}

theorem DInv.low {f : Option Nat} (h : DInv par as U ok o f path d) (ht : TreeOK par as) {x : Nat} {v : Rat} (hx : Opt as ok o x v)
    (hb : ∀ w, f = some w → x ≤ w) : (d x).lower ≤ v := by
  cases hx with
  | base => exact h.base
  | step h1 ha htl hv hok =>
    refine (h.step _ _ _ _ _ h1 ha htl hv hok ?_).2
    intro w hw
    have := hb w hw
    have := ht.arc_lt _ (List.mem_of_getElem? ha)
    omega

theorem DInv.skip {w : Nat} (h : DInv par as U ok o (some w) path d) (ht : TreeOK par as) {tu : Rat} (htu : ∀ x v, Opt as ok o x v → v ≤ tu)
    (hw : (d w).lower > tu) : DInv par as U ok o (par w) path d := by
  have hanc := h.front w rfl
  have hno : ∀ v, ¬ Opt as ok o w v := by
    intro v hv
    have := h.low ht hv (fun _ e => by injection e with e; omega)
    have := htu _ _ hv
    linarith
  have hlt : ∀ x v, Opt as ok o x v → Below (par w) x → Below (some w) x := by
    intro x v hx hb
    rcases below_next ht.par_lt hanc (hx.anc ht) hb with h1 | rfl
    · intro _ e; injection e with e; omega
    · exact absurd hx (hno v)
  have hup : ∀ x, Below (some w) x → Below (par w) x := fun x hb => below_up ht.par_lt (Nat.le_of_lt (hb w rfl))
  refine ⟨h.upper, h.pos, ?_, h.sorted, fun x hx => hup x (h.below x hx), h.base, fun x v hx hb => h.opt x v hx (hlt x v hx hb), ?_, h.clean, ?_⟩
  · intro x l hl
    obtain ⟨a, h1, h2, h3, h4, h5⟩ := h.lab x l hl
    exact ⟨a, h1, h2, h3, h4, hup _ h5⟩
  · intro x v id a v' hx ha htl hv hok hb
    exact h.step x v id a v' hx ha htl hv hok (hlt x v hx hb)
  · intro y hy; exact .up hanc hy

theorem DInv.settle {w : Nat} (h : DInv par as U ok o (some w) path d) (ht : TreeOK par as) (hU : UOK as U ok) (he : 0 ≤ eps) :
    DInv par as U ok o (par w) (w :: path) (settle eps as w d) ∧ ∀ x, x ≤ w → settle eps as w d x = d x := by
  have hanc := h.front w rfl
  have hL : ∀ p ∈ links as w, p.2 ∈ as ∧ p.2.tail = w ∧ 0 ≤ p.2.lo ∧ 0 ≤ p.2.up := by
    intro p hp
    obtain ⟨h1, h2⟩ := mem_links.1 hp
    have := List.mem_of_getElem? h1
    exact ⟨this, h2, ht.lo _ this, ht.up _ this⟩
  have R := relaxed hU he w (d w).lower (d w).upper (h.pos w).1 (h.pos w).2 (h.upper w) (links as w) d hL h.pos h.upper
  have hgt : ∀ p ∈ links as w, w < p.2.head := by
    intro p hp
    obtain ⟨h1, h2, _⟩ := hL p hp
    have := ht.arc_lt _ h1; omega
  have hle : ∀ x, x ≤ w → Catchup.settle eps as w d x = d x := by
    intro x hx
    apply R.other
    intro p hp e
    have := hgt p hp; omega
  have hup : ∀ x, Below (some w) x → Below (par w) x := fun x hb => below_up ht.par_lt (Nat.le_of_lt (hb w rfl))
  refine ⟨⟨R.upper, R.pos, ?_, ?_, ?_, ?_, ?_, ?_, ?_, ?_⟩, hle⟩
  · intro x l hl
    rcases R.new x l hl with h1 | ⟨p, hp, hx, rfl⟩
    · obtain ⟨a, h1, h2, h3, h4, h5⟩ := h.lab x l h1
      refine ⟨a, h1, h2, h3, ?_, hup _ h5⟩
      have := hle l.parent (Nat.le_of_lt (h5 w rfl))
      rw [this]; exact h4
    · refine ⟨p.2, (mem_links.1 hp).1, (mem_links.1 hp).2, hx, ?_, below_up ht.par_lt (Nat.le_refl _)⟩
      have := hle w (Nat.le_refl _)
      simp only [this]
  · rw [List.pairwise_cons]
    exact ⟨fun x hx => h.below x hx w rfl, h.sorted⟩
  · intro x hx
    rw [List.mem_cons] at hx
    rcases hx with rfl | hx
    · exact below_up ht.par_lt (Nat.le_refl _)
    · exact hup x (h.below x hx)
  · exact le_trans (R.low o) h.base
  · intro x v hx hb
    rcases below_next ht.par_lt hanc (hx.anc ht) hb with h1 | rfl
    · exact List.mem_cons_of_mem _ (h.opt x v hx (fun _ e => by injection e with e; omega))
    · simp
  · intro x v id a v' hx ha htl hv hok hb
    rcases below_next ht.par_lt hanc (hx.anc ht) hb with h1 | rfl
    · obtain ⟨⟨l, h2, h3⟩, h4⟩ := h.step x v id a v' hx ha htl hv hok (fun _ e => by injection e with e; omega)
      exact ⟨⟨l, R.keep _ _ h2, h3⟩, le_trans (R.low _) h4⟩
    · have := h.low ht hx (fun _ e => by injection e with e; omega)
      exact R.hit (id, a) (mem_links.2 ⟨ha, htl⟩) v' hok (by simp only; linarith)
  · intro x hx
    refine (R.other x ?_).trans (h.clean x hx)
    intro p hp e
    obtain ⟨h1, h2, _⟩ := hL p hp
    exact hx (hanc.trans (e ▸ h2 ▸ ht.anc _ h1))
  · intro y hy; exact .up hanc hy

end Verif.Catchup
