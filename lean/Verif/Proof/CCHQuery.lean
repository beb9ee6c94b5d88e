import Verif.Proof.CCHExact
import Verif.Proof.DijkstraStatic
set_option linter.unusedSimpArgs false
set_option linter.unusedVariables false
/- The elimination tree query, for any pair of upward graphs whose arcs lead to ancestors. -/
namespace Verif
namespace CCH
open Spec GraphOps FOGraph

/-- the parent function of an elimination tree -/
def par (tree : List (Option Nat)) (v : Nat) : Option Nat := (tree[v]?).getD none

/-- the tree of a query -/
structure TreeOK (n : Nat) (tree : List (Option Nat)) : Prop where
  len : tree.length = n
  up : ∀ {x p}, par tree x = some p → x < p ∧ p < n

/-- one search direction -/
structure DirOK (n : Nat) (tree : List (Option Nat)) (g : FOGraph) : Prop where
  wf : g.WF
  nn : g.numNodes = n
  up : ∀ {u v w}, g.Arc u v w → u < v
  anc : ∀ {u v w}, g.Arc u v w → Anc (par tree) u v
  bound : ∀ {u v w}, g.Arc u v w → w ≤ INFINITY

/-- the arc of `g` with id `e` -/
abbrev _root_.Verif.FOGraph.E (g : FOGraph) (e u v w : Nat) : Prop := EdgeAt g.firstOut g.head g.weight e u v w

theorem DirOK.arc {n : Nat} {tree : List (Option Nat)} {g : FOGraph} (h : DirOK n tree g) {e u v w : Nat} (he : g.E e u v w) : g.Arc u v w :=
  (edgeAt_arc h.wf).2 ⟨e, he⟩

theorem links_spec {n : Nat} {tree : List (Option Nat)} {g : FOGraph} (h : DirOK n tree g) {v : Nat} (hv : v < n) :
    ∃ ls, g.linkIterIds v = some ls ∧ (∀ l ∈ ls, g.E l.2 v l.1.node l.1.weight) ∧
      ∀ x w, g.Arc v x w → ∃ l ∈ ls, l.1.node = x ∧ l.1.weight = w := by
  obtain ⟨ls, hls⟩ := idProb_total h.wf (by rw [h.nn]; exact hv)
  refine ⟨ls, hls, ?_, ?_⟩
  · intro l hl
    exact (h.wf.mem_linkIterIds (l := l.1) (e := l.2) hls hl).2
  · rintro x w ⟨lks, h1, h2⟩
    obtain ⟨hv', rfl⟩ := h.wf.linkIterIds hls
    rw [h.wf.linkIter, List.getElem?_eq_getElem hv'] at h1
    simp at h1; subst h1
    obtain ⟨i, hi⟩ := List.mem_iff_getElem?.1 h2
    have hil := (List.getElem?_eq_some_iff.1 hi).1
    refine ⟨(⟨x, w⟩, i + (g.adj.take v).flatten.length), ?_, rfl, rfl⟩
    apply List.mem_of_getElem? (i := i)
    rw [List.getElem?_zip_eq_some]
    exact ⟨hi, by simp only [List.getElem?_map, List.getElem?_range hil, Option.map_some]⟩

variable {n : Nat} {tree : List (Option Nat)}

theorem TreeOK.anc_le (h : TreeOK n tree) {u x : Nat} (ha : Anc (par tree) u x) : u ≤ x := by
  induction ha with
  | refl => omega
  | step hp _ ih => have := (h.up hp).1; omega

theorem TreeOK.anc_lt (h : TreeOK n tree) {u x : Nat} (ha : Anc (par tree) u x) (hu : u < n) : x < n := by
  induction ha with
  | refl => exact hu
  | step hp _ ih => exact ih (h.up hp).2

/-- ancestors form a chain -/
theorem TreeOK.anc_total (h : TreeOK n tree) {u x y : Nat} (hx : Anc (par tree) u x) (hy : Anc (par tree) u y) (hxy : x ≤ y) : Anc (par tree) x y := by
  induction hx with
  | refl => exact hy
  | @step u p x hp hx ih =>
    cases hy with
    | refl => have := h.anc_le hx; have := (h.up hp).1; omega
    | step hp' hy' =>
      rw [hp] at hp'; simp at hp'; subst hp'
      exact ih hy' hxy

theorem DirOK.upwalk_anc {g : FOGraph} (h : DirOK n tree g) {s x d : Nat} (hw : UpWalk g.Arc s x d) : Anc (par tree) s x := by
  induction hw with
  | nil => exact .refl _
  | cons ha _ _ ih => exact (h.anc ha).trans ih

/-- nodes that a walk has still to visit -/
def Pending (tree : List (Option Nat)) (next : Option Nat) (x : Nat) : Prop := ∃ f, next = some f ∧ Anc (par tree) f x

theorem pending_some {f x : Nat} : Pending tree (some f) x ↔ x = f ∨ Pending tree (par tree f) x := by
  constructor
  · rintro ⟨f', h1, h2⟩
    simp at h1; subst h1
    cases h2 with
    | refl => exact .inl rfl
    | step hp ha => exact .inr ⟨_, hp, ha⟩
  · rintro (rfl | ⟨f', h1, h2⟩)
    · exact ⟨x, rfl, .refl x⟩
    · exact ⟨f, rfl, .step h1 h2⟩

theorem pending_none {x : Nat} : ¬ Pending tree none x := by rintro ⟨f, h, _⟩; simp at h

theorem TreeOK.pending_par (h : TreeOK n tree) {f x : Nat} (hp : Pending tree (par tree f) x) : f < x := by
  obtain ⟨p, h1, h2⟩ := hp
  have := (h.up h1).1; have := h.anc_le h2; omega

/-- The parent pointers below `x` form a path from `s` to `x` of weight `d`. `C d' a` relates the weight `d'` of each prefix of
at least one arc to the weight `a` of every alternative whose last but one node is lower. -/
inductive Chain (C : Nat → Nat → Prop) (g : FOGraph) (s : Nat) (P : Nat → Nat × Nat) : Nat → Nat → Prop
  | nil : Chain C g s P s 0
  | snoc {y x e w d : Nat} : Chain C g s P y d → P x = (y, e) → g.E e y x w →
      (∀ y' w' a', y' < y → g.Arc y' x w' → UpWalk g.Arc s y' a' → C (d + w) (a' + w')) → Chain C g s P x (d + w)

theorem Chain.upwalk {g : FOGraph} (hg : DirOK n tree g) {C : Nat → Nat → Prop} {s x d : Nat} {P : Nat → Nat × Nat} (h : Chain C g s P x d) :
    UpWalk g.Arc s x d := by
  induction h with
  | nil => exact .nil s
  | snoc _ _ he _ ih => exact ih.snoc (hg.arc he) (hg.up (hg.arc he))

theorem Chain.mono {g : FOGraph} {C C' : Nat → Nat → Prop} {s x d : Nat} {P : Nat → Nat × Nat} (h : Chain C g s P x d) :
    (∀ d' a, d' ≤ d → C d' a → C' d' a) → Chain C' g s P x d := by
  induction h with
  | nil => intro _; exact .nil
  | snoc _ hp he hlow ih =>
    intro hC
    exact .snoc (ih (fun d' a hd h => hC d' a (by omega) h)) hp he (fun y' w' a' h1 h2 h3 => hC _ _ (Nat.le_refl _) (hlow y' w' a' h1 h2 h3))

theorem Chain.frame {g : FOGraph} (hg : DirOK n tree g) {C : Nat → Nat → Prop} {s x d : Nat} {P P' : Nat → Nat × Nat} (h : Chain C g s P x d) :
    (∀ y, y ≤ x → P' y = P y) → Chain C g s P' x d := by
  induction h with
  | nil => intro _; exact .nil
  | snoc _ hp he hlow ih =>
    intro hP
    have := hg.up (hg.arc he)
    exact .snoc (ih (fun y hy => hP y (by omega))) (by rw [hP _ (Nat.le_refl _), hp]) he hlow

namespace ETWalk
/-- the distance label of a node -/
def D (w : ETWalk) (x : Nat) : Nat := (w.dist[x]?).getD INFINITY
/-- the parent pointer of a node -/
def P (w : ETWalk) (x : Nat) : Nat × Nat := (w.parents[x]?).getD (0, 0)
end ETWalk

/-- `C` of `Chain` during the search, for the current tentative distance `T` -/
def Unless (T : Nat) (d a : Nat) : Prop := d < a ∨ T ≤ a

/-- Invariant of one walk. -/
structure WInv (n : Nat) (tree : List (Option Nat)) (g : FOGraph) (s T : Nat) (w : ETWalk) : Prop where
  dlen : w.dist.length = n
  plen : w.parents.length = n
  next : ∀ f, w.next = some f → Anc (par tree) s f ∧ f < n
  bnd : ∀ x, w.D x ≤ INFINITY
  pend : ∀ x, w.D x ≠ INFINITY → Pending tree w.next x
  src : Pending tree w.next s → w.D s = 0
  sound : ∀ x, w.D x < INFINITY → Chain (Unless T) g s w.P x (w.D x)
  parent : ∀ x, w.D x < INFINITY → x ≠ s → ¬ Pending tree w.next (w.P x).1
  compl : ∀ y x wt a, ¬ Pending tree w.next y → Pending tree w.next x → g.Arc y x wt → UpWalk g.Arc s y a → w.D x ≤ a + wt ∨ T ≤ a + wt

theorem WInv.mono {g : FOGraph} {s T T' : Nat} {w : ETWalk} (h : WInv n tree g s T w) (hT : T' ≤ T) : WInv n tree g s T' w := by
  refine { h with sound := ?_, compl := ?_ }
  · intro x hx
    refine (h.sound x hx).mono ?_
    rintro d' a _ (h1 | h1)
    · exact .inl h1
    · exact .inr (by omega)
  · intro y x wt a h1 h2 h3 h4
    have := h.compl y x wt a h1 h2 h3 h4
    omega

theorem WInv.get {g : FOGraph} {s T : Nat} {w : ETWalk} (h : WInv n tree g s T w) {x : Nat} (hx : x < n) : w.dist[x]? = some (w.D x) := by
  rw [← h.dlen] at hx
  simp [ETWalk.D, List.getElem?_eq_getElem hx]

/-- Nodes that can be reached below the front are done. -/
theorem WInv.done {g : FOGraph} (ht : TreeOK n tree) {s T : Nat} {w : ETWalk} {f y : Nat} (hf : w.next = some f) (hy : y < f) : ¬ Pending tree w.next y := by
  rintro ⟨f', h1, h2⟩
  rw [hf] at h1; simp at h1; subst h1
  have := ht.anc_le h2; omega

/-- The label of the next node is final. -/
theorem WInv.front {g : FOGraph} (ht : TreeOK n tree) (hg : DirOK n tree g) {s T : Nat} {w : ETWalk} (h : WInv n tree g s T w) {f : Nat} (hf : w.next = some f) {a : Nat}
    (ha : UpWalk g.Arc s f a) : w.D f ≤ a ∨ T ≤ a := by
  have hlast : ∀ {s f a}, UpWalk g.Arc s f a → (s = f ∧ a = 0) ∨ ∃ y a' wt, UpWalk g.Arc s y a' ∧ g.Arc y f wt ∧ a = a' + wt := by
    intro s f a h
    induction h with
    | nil => exact .inl ⟨rfl, rfl⟩
    | @cons u v t w d h1 h2 h3 ih =>
      rcases ih with ⟨rfl, rfl⟩ | ⟨y, a', wt, h4, h5, rfl⟩
      · exact .inr ⟨u, 0, w, .nil u, h1, by omega⟩
      · exact .inr ⟨y, w + a', wt, .cons h1 h2 h4, h5, by omega⟩
  have hpf : Pending tree w.next f := ⟨f, hf, .refl f⟩
  rcases hlast ha with ⟨rfl, rfl⟩ | ⟨y, a', wt, h1, h2, rfl⟩
  · rw [h.src hpf]; exact .inl (Nat.le_refl _)
  · exact h.compl y f wt a' (WInv.done ht (g := g) (s := s) (T := T) hf (hg.up h2)) hpf h2 h1

theorem getD_set' {α : Type} {l : List α} {i j : Nat} {x d : α} (hi : i < l.length) :
    ((l.set i x)[j]?).getD d = if j = i then x else (l[j]?).getD d := by
  rw [List.getElem?_set]
  by_cases h : i = j
  · subst h; simp [hi]
  · simp [h, Ne.symm h]

/-- What relaxing arcs of `f` may do to the labels. -/
structure Relaxed (g : FOGraph) (f : Nat) (w w' : ETWalk) : Prop where
  dlen : w'.dist.length = w.dist.length
  plen : w'.parents.length = w.parents.length
  each : ∀ x, (w'.D x = w.D x ∧ w'.P x = w.P x) ∨
    ∃ e wt, g.E e f x wt ∧ w'.D x = w.D f + wt ∧ w'.D x < w.D x ∧ w'.P x = (f, e)

theorem Relaxed.refl {g : FOGraph} {f : Nat} {w w' : ETWalk} (h1 : w'.dist = w.dist) (h2 : w'.parents = w.parents) : Relaxed g f w w' :=
  ⟨by rw [h1], by rw [h2], fun x => .inl ⟨by simp [ETWalk.D, h1], by simp [ETWalk.P, h2]⟩⟩

theorem settle_spec (ht : TreeOK n tree) {g : FOGraph} (hg : DirOK n tree g) {f : Nat} (hf : f < n) {w : ETWalk} (hd : w.dist.length = n) (hp : w.parents.length = n)
    (hb : ∀ x, w.D x ≤ INFINITY) :
    ∃ w', w.settle g tree f = some w' ∧ w'.next = par tree f ∧ Relaxed g f w w' ∧ ∀ x wt, g.Arc f x wt → w'.D x ≤ w.D f + wt := by
  obtain ⟨ls, h1, h2, h3⟩ := links_spec hg hf
  have hfd : w.dist[f]? = some (w.D f) := by
    rw [← hd] at hf
    simp [ETWalk.D, List.getElem?_eq_getElem hf]
  have htree : tree[f]? = some (par tree f) := by
    rw [← ht.len] at hf
    simp [par, List.getElem?_eq_getElem hf]
  obtain ⟨st, h4, h5, h6⟩ := foldlM_inv (ETWalk.relax f (w.D f))
    (fun Q st => Relaxed g f w ⟨st.1, st.2, par tree f⟩ ∧ ∀ l ∈ Q, ETWalk.D ⟨st.1, st.2, par tree f⟩ l.1.node ≤ w.D f + l.1.weight) ls (by
      rintro Q l R ⟨d, ps⟩ hE ⟨hr, hq⟩
      have hl := h2 l (by rw [hE]; simp)
      have harc := hg.arc hl
      have hwb := hg.bound harc
      have hxn : l.1.node < n := by
        have := FOGraph.WF.arc_lt hg.wf harc
        rw [hg.nn] at this; exact this.2
      have hxd : l.1.node < d.length := by have := hr.dlen; simp only at this; omega
      have hxp : l.1.node < ps.length := by have := hr.plen; simp only at this; omega
      have hold : d[l.1.node]? = some (ETWalk.D ⟨d, ps, par tree f⟩ l.1.node) := by
        simp [ETWalk.D, List.getElem?_eq_getElem hxd]
      have hsum : add32 (w.D f) l.1.weight = some (w.D f + l.1.weight) := by
        have := hb f
        exact add32_of_lt (by simp only [INFINITY, U32] at *; omega)
      by_cases hlt : w.D f + l.1.weight < ETWalk.D ⟨d, ps, par tree f⟩ l.1.node
      · refine ⟨(d.set l.1.node (w.D f + l.1.weight), ps.set l.1.node (f, l.2)), ?_, ⟨?_, ?_, ?_⟩, ?_⟩
        · simp only [ETWalk.relax, hsum, hold, Option.bind_eq_bind, Option.bind_some, if_pos hlt, upd_of_lt _ hxd, upd_of_lt _ hxp]; rfl
        · simpa using hr.dlen
        · simpa using hr.plen
        · intro x
          have e1 : ETWalk.D ⟨d.set l.1.node (w.D f + l.1.weight), ps.set l.1.node (f, l.2), par tree f⟩ x =
              if x = l.1.node then w.D f + l.1.weight else ETWalk.D ⟨d, ps, par tree f⟩ x := getD_set' hxd
          have e2 : ETWalk.P ⟨d.set l.1.node (w.D f + l.1.weight), ps.set l.1.node (f, l.2), par tree f⟩ x =
              if x = l.1.node then (f, l.2) else ETWalk.P ⟨d, ps, par tree f⟩ x := getD_set' hxp
          rw [e1, e2]
          by_cases hx : x = l.1.node
          · subst hx
            simp only [if_true]
            refine .inr ⟨l.2, l.1.weight, hl, rfl, ?_, rfl⟩
            rcases hr.each l.1.node with ⟨h7, _⟩ | ⟨_, _, _, _, h7, _⟩ <;> (simp only at h7; omega)
          · simp only [if_neg hx]; exact hr.each x
        · intro l' hl'
          have e1 : ETWalk.D ⟨d.set l.1.node (w.D f + l.1.weight), ps.set l.1.node (f, l.2), par tree f⟩ l'.1.node =
              if l'.1.node = l.1.node then w.D f + l.1.weight else ETWalk.D ⟨d, ps, par tree f⟩ l'.1.node := getD_set' hxd
          rw [e1]
          rw [List.mem_append] at hl'
          rcases hl' with hl' | hl'
          · have := hq l' hl'
            simp only at this
            split
            · rename_i heq; rw [heq] at this; omega
            · exact this
          · simp at hl'; subst hl'; simp
      · refine ⟨(d, ps), ?_, hr, ?_⟩
        · simp only [ETWalk.relax, hsum, hold, Option.bind_eq_bind, Option.bind_some, if_neg hlt]; rfl
        · intro l' hl'
          rw [List.mem_append] at hl'
          rcases hl' with hl' | hl'
          · exact hq l' hl'
          · simp at hl'; subst hl'; simp only; omega) (w.dist, w.parents) ⟨.refl rfl rfl, by simp⟩
  refine ⟨⟨st.1, st.2, par tree f⟩, ?_, rfl, h5, ?_⟩
  · simp only [ETWalk.settle, hfd, htree, h1, h4, Option.bind_eq_bind, Option.bind_some]; rfl
  · intro x wt ha
    obtain ⟨l, hl, rfl, rfl⟩ := h3 x wt ha
    exact h6 l hl

/-- After `f` is relaxed (or skipped because the tentative distance is already as good), its label can be cleared. -/
theorem WInv.advance (ht : TreeOK n tree) {g : FOGraph} (hg : DirOK n tree g) {s T : Nat} {w w' : ETWalk} (h : WInv n tree g s T w) {f : Nat}
    (hf : w.next = some f) (hn : w'.next = par tree f) (hr : Relaxed g f w w')
    (hc : ∀ x wt a, g.Arc f x wt → UpWalk g.Arc s f a → w'.D x ≤ a + wt ∨ T ≤ a + wt) :
    ∃ w'', w'.reset f = some w'' ∧ w''.next = par tree f ∧ WInv n tree g s T w'' ∧ (∀ x, x ≤ f → w''.P x = w.P x) := by
  obtain ⟨hsf, hfn⟩ := h.next f hf
  have hfl : f < w'.dist.length := by rw [hr.dlen, h.dlen]; exact hfn
  have hD : ∀ x, ETWalk.D { w' with dist := w'.dist.set f INFINITY } x = if x = f then INFINITY else w'.D x := fun x => getD_set' hfl
  have hP : ∀ x, ETWalk.P { w' with dist := w'.dist.set f INFINITY } x = w'.P x := fun x => rfl
  have hlow : ∀ x, x ≤ f → w'.D x = w.D x ∧ w'.P x = w.P x := by
    intro x hx
    rcases hr.each x with h1 | ⟨e, wt, h1, _⟩
    · exact h1
    · have := hg.up (hg.arc h1); omega
  have hff : ∀ {y}, ¬ Pending tree (some f) y → ¬ Pending tree (par tree f) y := fun hn hp => hn (pending_some.2 (.inr hp))
  refine ⟨{ w' with dist := w'.dist.set f INFINITY }, ?_, hn, ?_, fun x hx => (hlow x hx).2⟩
  · simp [ETWalk.reset, upd_of_lt _ hfl]
  · have hfpend : ¬ Pending tree (par tree f) f := fun hp => by have := ht.pending_par hp; omega
    refine ⟨by simp [hr.dlen, h.dlen], by rw [hr.plen, h.plen], ?_, ?_, ?_, ?_, ?_, ?_, ?_⟩
    · intro f' hf'
      rw [hn] at hf'
      exact ⟨hsf.trans (.step hf' (.refl _)), (ht.up hf').2⟩
    · intro x
      rw [hD]
      split
      · exact Nat.le_refl _
      · have := h.bnd x
        rcases hr.each x with ⟨h1, _⟩ | ⟨e, wt, _, _, h1, _⟩ <;> omega
    · intro x hx
      rw [hD] at hx
      split at hx
      · exact absurd rfl hx
      · rename_i hxf
        simp only [hn]
        rcases hr.each x with ⟨h1, _⟩ | ⟨e, wt, h1, _⟩
        · rw [h1] at hx
          have := h.pend x hx
          rw [hf] at this
          rcases pending_some.1 this with h2 | h2
          · exact absurd h2 hxf
          · exact h2
        · have := hg.anc (hg.arc h1)
          cases this with
          | refl => exact absurd rfl hxf
          | step h2 h3 => exact ⟨_, h2, h3⟩
    · intro hs
      simp only [hn] at hs
      have := ht.pending_par hs
      have := ht.anc_le hsf
      omega
    · intro x hx
      rw [hD] at hx ⊢
      split at hx
      · omega
      · rename_i hxf
        rw [if_neg hxf]
        have hPf : Chain (Unless T) g s w'.P f (w.D f) ∨ INFINITY ≤ w.D f := by
          by_cases hlt : w.D f < INFINITY
          · exact .inl ((h.sound f hlt).frame hg (fun y hy => (hlow y hy).2))
          · exact .inr (by omega)
        rcases hr.each x with ⟨h1, h2⟩ | ⟨e, wt, h1, h2, h3, h4⟩
        · rw [h1] at hx ⊢
          have hch := h.sound x hx
          have hxlt := hx
          generalize hdx : w.D x = dx at hch hx h1
          cases hch with
          | nil => exact .nil
          | @snoc y _ e wt d hy hpx he hlw =>
            -- the predecessor is done, so its pointers did not change
            have hyf : y ≤ f := by
              have hxs : x ≠ s := by
                intro hxs
                have := (hy.upwalk hg).le
                have := hg.up (hg.arc he)
                omega
              by_contra hcon
              have hnp := h.parent x hxlt hxs
              rw [hpx, hf] at hnp
              simp only at hnp
              exact hnp ⟨f, rfl, ht.anc_total hsf (hg.upwalk_anc (hy.upwalk hg)) (by omega)⟩
            exact .snoc (hy.frame hg (fun z hz => (hlow z (by omega)).2)) (by rw [← hpx]; exact h2) he hlw
        · rw [h2] at hx ⊢
          rcases hPf with hPf | hPf
          · refine .snoc hPf h4 h1 ?_
            intro y' w' a' h5 h6 h7
            have hxp : Pending tree w.next x := by
              have := hg.anc (hg.arc h1)
              exact ⟨f, hf, this⟩
            rcases h.compl y' x w' a' (WInv.done ht (g := g) (s := s) (T := T) hf h5) hxp h6 h7 with h8 | h8
            · exact .inl (by omega)
            · exact .inr h8
          · omega
    · intro x hx hxs
      rw [hD] at hx
      split at hx
      · omega
      · rw [hP]
        simp only [hn]
        rcases hr.each x with ⟨h1, h2⟩ | ⟨e, wt, h1, h2, h3, h4⟩
        · rw [h1] at hx
          rw [h2]
          have := h.parent x hx hxs
          rw [hf] at this
          exact hff this
        · rw [h4]; exact hfpend
    · intro y x wt a hy hx ha hu
      simp only [hn] at hy hx
      have hxf : x ≠ f := by have := ht.pending_par hx; omega
      rw [hD, if_neg hxf]
      by_cases hyf : y = f
      · subst hyf; exact hc x wt a ha hu
      · have hy' : ¬ Pending tree w.next y := by
          rw [hf]; intro hp
          rcases pending_some.1 hp with h1 | h1
          · exact hyf h1
          · exact hy h1
        have hx' : Pending tree w.next x := by rw [hf]; exact pending_some.2 (.inr hx)
        have := h.compl y x wt a hy' hx' ha hu
        rcases hr.each x with ⟨h1, _⟩ | ⟨e, wt, _, _, h1, _⟩ <;> omega

theorem stepAlone_spec (ht : TreeOK n tree) {g : FOGraph} (hg : DirOK n tree g) {s T : Nat} {w : ETWalk} (h : WInv n tree g s T w) {f : Nat}
    (hf : w.next = some f) :
    ∃ w', stepAlone g tree w f = some w' ∧ w'.next = par tree f ∧ WInv n tree g s T w' ∧ (∀ x, x ≤ f → w'.P x = w.P x) := by
  obtain ⟨w1, h1, h2, h3, h4⟩ := settle_spec ht hg (h.next f hf).2 h.dlen h.plen h.bnd
  obtain ⟨w2, h5, h6, h7, h8⟩ := h.advance ht hg hf h2 h3 (by
    intro x wt a ha hu
    have := h4 x wt ha
    rcases h.front ht hg hf hu with h9 | h9 <;> omega)
  exact ⟨w2, by simp only [stepAlone, h1, Option.bind_eq_bind, Option.bind_some]; exact h5, h6, h7, h8⟩

theorem stepPruned_spec (ht : TreeOK n tree) {g : FOGraph} (hg : DirOK n tree g) {s T : Nat} {w : ETWalk} (h : WInv n tree g s T w) {f : Nat}
    (hf : w.next = some f) :
    ∃ w' w'', stepPruned g tree T w f = some w' ∧ w'.dist[f]? = some (w.D f) ∧ w'.reset f = some w'' ∧ w''.next = par tree f ∧
      WInv n tree g s T w'' ∧ (∀ x, x ≤ f → w''.P x = w.P x) := by
  have hfn := (h.next f hf).2
  have hget := h.get hfn
  by_cases hlt : w.D f < T
  · obtain ⟨w1, h1, h2, h3, h4⟩ := settle_spec ht hg hfn h.dlen h.plen h.bnd
    obtain ⟨w2, h5, h6, h7, h8⟩ := h.advance ht hg hf h2 h3 (by
      intro x wt a ha hu
      have := h4 x wt ha
      rcases h.front ht hg hf hu with h9 | h9 <;> omega)
    refine ⟨w1, w2, ?_, ?_, h5, h6, h7, h8⟩
    · simp only [stepPruned, hget, Option.bind_eq_bind, Option.bind_some, if_pos hlt, h1]
    · have hfl : f < w1.dist.length := by rw [h3.dlen, h.dlen]; exact hfn
      have e1 : w1.dist[f]? = some (w1.D f) := by simp [ETWalk.D, List.getElem?_eq_getElem hfl]
      rw [e1]
      rcases h3.each f with ⟨h9, _⟩ | ⟨e, wt, h9, _⟩
      · rw [h9]
      · have := hg.up (hg.arc h9); omega
  · have htree : tree[f]? = some (par tree f) := by
      have hfn' := hfn
      rw [← ht.len] at hfn'
      simp [par, List.getElem?_eq_getElem hfn']
    obtain ⟨w2, h5, h6, h7, h8⟩ := h.advance ht hg (w' := { w with next := par tree f }) hf rfl (.refl rfl rfl) (by
      intro x wt a ha hu
      rcases h.front ht hg hf hu with h9 | h9 <;> omega)
    refine ⟨{ w with next := par tree f }, w2, ?_, hget, h5, h6, h7, h8⟩
    simp only [stepPruned, hget, Option.bind_eq_bind, Option.bind_some, if_neg hlt, ETWalk.skip, htree]; rfl

/-- strictly better than every alternative with a lower last but one node -/
def Strict (d a : Nat) : Prop := d < a

/-- The result of a query: up-down path of weight `T` over `m`, given by parent pointers. -/
structure Meeting (fwG bwG : FOGraph) (s t : Nat) (fp bp : Nat → Nat × Nat) (m T : Nat) : Prop where
  ex : ∃ a b, T = a + b ∧ Chain Strict fwG s fp m a ∧ Chain Strict bwG t bp m b
  low : ∀ x a b, x < m → UpWalk fwG.Arc s x a → UpWalk bwG.Arc t x b → T < a + b

/-- Invariant of the query loop. -/
structure QInv (n : Nat) (tree : List (Option Nat)) (fwG bwG : FOGraph) (s t : Nat) (q : QState) : Prop where
  fw : WInv n tree fwG s q.tentative q.fw
  bw : WInv n tree bwG t q.tentative q.bw
  tle : q.tentative ≤ INFINITY
  common : ∀ m, Anc (par tree) s m → Anc (par tree) t m → (Pending tree q.fw.next m ↔ Pending tree q.bw.next m)
  tcomp : ∀ m a b, UpWalk fwG.Arc s m a → UpWalk bwG.Arc t m b → ¬ Pending tree q.fw.next m → q.tentative ≤ a + b
  tsound : q.tentative < INFINITY → Meeting fwG bwG s t q.fw.P q.bw.P q.meeting q.tentative ∧
    ¬ Pending tree q.fw.next q.meeting ∧ ¬ Pending tree q.bw.next q.meeting

theorem Meeting.frame {fwG bwG : FOGraph} (hf : DirOK n tree fwG) (hb : DirOK n tree bwG) {s t : Nat} {fp bp fp' bp' : Nat → Nat × Nat} {m T : Nat}
    (h : Meeting fwG bwG s t fp bp m T) (h1 : ∀ x, x ≤ m → fp' x = fp x) (h2 : ∀ x, x ≤ m → bp' x = bp x) : Meeting fwG bwG s t fp' bp' m T := by
  obtain ⟨a, b, h3, h4, h5⟩ := h.ex
  exact ⟨⟨a, b, h3, h4.frame hf h1, h5.frame hb h2⟩, h.low⟩

theorem Meeting.anc {fwG bwG : FOGraph} (hf : DirOK n tree fwG) (hb : DirOK n tree bwG) {s t : Nat} {fp bp : Nat → Nat × Nat} {m T : Nat}
    (h : Meeting fwG bwG s t fp bp m T) : Anc (par tree) s m ∧ Anc (par tree) t m := by
  obtain ⟨a, b, h3, h4, h5⟩ := h.ex
  exact ⟨hf.upwalk_anc (h4.upwalk hf), hb.upwalk_anc (h5.upwalk hb)⟩

variable {fwG bwG : FOGraph} {s t : Nat}

/-- A node that is done lies below the front, if it is an ancestor of the source. -/
theorem done_lt (ht : TreeOK n tree) {s f m : Nat} (hsf : Anc (par tree) s f) (hm : Anc (par tree) s m) (hd : ¬ Pending tree (some f) m) : m < f := by
  by_contra hcon
  exact hd ⟨f, rfl, ht.anc_total hsf hm (by omega)⟩

theorem QInv.stepFw (ht : TreeOK n tree) (hF : DirOK n tree fwG) (hB : DirOK n tree bwG) {q : QState} (h : QInv n tree fwG bwG s t q) {f : Nat}
    (hf : q.fw.next = some f) (hb : ∀ b, q.bw.next = some b → f < b) :
    ∃ w, stepAlone fwG tree q.fw f = some w ∧ w.next = par tree f ∧ QInv n tree fwG bwG s t { q with fw := w } := by
  obtain ⟨w, h1, h2, h3, h4⟩ := stepAlone_spec ht hF h.fw hf
  have hsf := (h.fw.next f hf).1
  have hnp : ¬ Pending tree q.bw.next f := by
    rintro ⟨b, h5, h6⟩
    have := hb b h5; have := ht.anc_le h6; omega
  have hpp : ∀ m, Pending tree q.fw.next m ↔ m = f ∨ Pending tree w.next m := by
    intro m; rw [hf, h2]; exact pending_some
  refine ⟨w, h1, h2, h3, h.bw, h.tle, ?_, ?_, ?_⟩
  · intro m hs hm
    have := h.common m hs hm
    simp only
    by_cases hmf : m = f
    · subst hmf
      exact absurd ((h.common m hs hm).1 ((hpp m).2 (.inl rfl))) hnp
    · rw [← this, hpp]; simp [hmf]
  · intro m a b ha hb' hm
    simp only at hm ⊢
    apply h.tcomp m a b ha hb'
    rw [hpp]
    rintro (rfl | h5)
    · exact hnp ((h.common m (hF.upwalk_anc ha) (hB.upwalk_anc hb')).1 ((hpp m).2 (.inl rfl)))
    · exact hm h5
  · intro hT
    obtain ⟨h5, h6, h7⟩ := h.tsound hT
    refine ⟨h5.frame hF hB ?_ (fun _ _ => rfl), ?_, h7⟩
    · intro x hx
      apply h4
      rw [hf] at h6
      have := done_lt ht hsf (h5.anc hF hB).1 h6
      omega
    · intro hp; exact h6 ((hpp _).2 (.inr hp))

theorem QInv.stepBw (ht : TreeOK n tree) (hF : DirOK n tree fwG) (hB : DirOK n tree bwG) {q : QState} (h : QInv n tree fwG bwG s t q) {f : Nat}
    (hf : q.bw.next = some f) (hb : ∀ b, q.fw.next = some b → f < b) :
    ∃ w, stepAlone bwG tree q.bw f = some w ∧ w.next = par tree f ∧ QInv n tree fwG bwG s t { q with bw := w } := by
  obtain ⟨w, h1, h2, h3, h4⟩ := stepAlone_spec ht hB h.bw hf
  have hsf := (h.bw.next f hf).1
  have hnp : ¬ Pending tree q.fw.next f := by
    rintro ⟨b, h5, h6⟩
    have := hb b h5; have := ht.anc_le h6; omega
  have hpp : ∀ m, Pending tree q.bw.next m ↔ m = f ∨ Pending tree w.next m := by
    intro m; rw [hf, h2]; exact pending_some
  refine ⟨w, h1, h2, h.fw, h3, h.tle, ?_, h.tcomp, ?_⟩
  · intro m hs hm
    have := h.common m hs hm
    simp only
    by_cases hmf : m = f
    · subst hmf
      exact absurd ((h.common m hs hm).2 ((hpp m).2 (.inl rfl))) hnp
    · rw [this, hpp]; simp [hmf]
  · intro hT
    obtain ⟨h5, h6, h7⟩ := h.tsound hT
    refine ⟨h5.frame hF hB (fun _ _ => rfl) ?_, h6, ?_⟩
    · intro x hx
      apply h4
      rw [hf] at h7
      have := done_lt ht hsf (h5.anc hF hB).2 h7
      omega
    · intro hp; exact h7 ((hpp _).2 (.inr hp))

theorem QInv.stepBoth (ht : TreeOK n tree) (hF : DirOK n tree fwG) (hB : DirOK n tree bwG) {q : QState} (h : QInv n tree fwG bwG s t q) {f : Nat}
    (hf : q.fw.next = some f) (hb : q.bw.next = some f) :
    ∃ q', CCH.stepBoth fwG bwG tree q f = some q' ∧ q'.fw.next = par tree f ∧ q'.bw.next = par tree f ∧ QInv n tree fwG bwG s t q' := by
  obtain ⟨u1, u2, h1, h2, h3, h4, h5, h6⟩ := stepPruned_spec ht hF h.fw hf
  obtain ⟨v1, v2, k1, k2, k3, k4, k5, k6⟩ := stepPruned_spec ht hB h.bw hb
  have hsf := (h.fw.next f hf).1
  have htf := (h.bw.next f hb).1
  have b1 := h.fw.bnd f
  have b2 := h.bw.bnd f
  have hsum : add32 (q.fw.D f) (q.bw.D f) = some (q.fw.D f + q.bw.D f) := add32_of_lt (by simp only [INFINITY, U32] at *; omega)
  have hpp : ∀ m, Pending tree q.fw.next m ↔ m = f ∨ Pending tree (par tree f) m := by intro m; rw [hf]; exact pending_some
  have hpp' : ∀ m, Pending tree q.bw.next m ↔ m = f ∨ Pending tree (par tree f) m := by intro m; rw [hb]; exact pending_some
  have hfp : ¬ Pending tree (par tree f) f := fun hp => by have := ht.pending_par hp; omega
  -- everything below `f` is done
  have hlow : ∀ x a b, x < f → UpWalk fwG.Arc s x a → UpWalk bwG.Arc t x b → q.tentative ≤ a + b := by
    intro x a b hx ha hb'
    exact h.tcomp x a b ha hb' (WInv.done ht (g := fwG) (s := s) (T := 0) hf hx)
  have hatf : ∀ a b, UpWalk fwG.Arc s f a → UpWalk bwG.Arc t f b → q.fw.D f + q.bw.D f ≤ a + b ∨ q.tentative ≤ a + b := by
    intro a b ha hb'
    have e1 := h.fw.front ht hF hf ha
    have e2 := h.bw.front ht hB hb hb'
    omega
  have hcommon : ∀ m, Anc (par tree) s m → Anc (par tree) t m → (Pending tree u2.next m ↔ Pending tree v2.next m) := by
    intro m _ _; rw [h4, k4]
  by_cases hlt : q.fw.D f + q.bw.D f < q.tentative
  · refine ⟨⟨u2, v2, q.fw.D f + q.bw.D f, f⟩, ?_, h4, k4, ?_⟩
    · simp only [CCH.stepBoth, h1, k1, h2, k2, hsum, Option.bind_eq_bind, Option.bind_some, h3, k3, if_pos hlt]; rfl
    · refine ⟨h5.mono (by simp only; omega), k5.mono (by simp only; omega), by have := h.tle; simp only; omega, hcommon, ?_, ?_⟩
      · intro m a b ha hb' hm
        simp only [h4] at hm ⊢
        by_cases hmf : m = f
        · subst hmf; have := hatf a b ha hb'; omega
        · have := h.tcomp m a b ha hb' (by rw [hpp]; simp [hmf, hm])
          omega
      · intro hT
        simp only at hT ⊢
        have htle := h.tle
        have c1 := h.fw.sound f (by omega)
        have c2 := h.bw.sound f (by omega)
        refine ⟨⟨⟨_, _, rfl, ?_, ?_⟩, ?_⟩, by rw [h4]; exact hfp, by rw [k4]; exact hfp⟩
        · refine (c1.mono ?_).frame hF h6
          rintro d' a hd (h7 | h7)
          · exact h7
          · show d' < a; omega
        · refine (c2.mono ?_).frame hB k6
          rintro d' a hd (h7 | h7)
          · exact h7
          · show d' < a; omega
        · intro x a b hx ha hb'
          have := hlow x a b hx ha hb'
          omega
  · refine ⟨⟨u2, v2, q.tentative, q.meeting⟩, ?_, h4, k4, ?_⟩
    · simp only [CCH.stepBoth, h1, k1, h2, k2, hsum, Option.bind_eq_bind, Option.bind_some, h3, k3, if_neg hlt]; rfl
    · refine ⟨h5, k5, h.tle, hcommon, ?_, ?_⟩
      · intro m a b ha hb' hm
        simp only [h4] at hm ⊢
        by_cases hmf : m = f
        · subst hmf; have := hatf a b ha hb'; omega
        · exact h.tcomp m a b ha hb' (by rw [hpp]; simp [hmf, hm])
      · intro hT
        obtain ⟨h7, h8, h9⟩ := h.tsound hT
        have hm1 : q.meeting < f := by
          rw [hf] at h8; exact done_lt ht hsf (h7.anc hF hB).1 h8
        refine ⟨h7.frame hF hB (fun x hx => h6 x (by omega)) (fun x hx => k6 x (by omega)), ?_, ?_⟩
        · simp only [h4]; intro hp; exact h8 ((hpp _).2 (.inr hp))
        · simp only [k4]; intro hp; exact h9 ((hpp' _).2 (.inr hp))

/-- Number of rounds that remain for a walk. -/
def left (n : Nat) : Option Nat → Nat
  | none => 0
  | some f => n - f

theorem left_none (n : Nat) : left n none = 0 := rfl
theorem left_some (n f : Nat) : left n (some f) = n - f := rfl

theorem left_par (ht : TreeOK n tree) {f : Nat} (hf : f < n) : left n (par tree f) < n - f := by
  cases hp : par tree f with
  | none => simp [left]; omega
  | some p => have := ht.up hp; simp [left]; omega

theorem queryLoop_spec (ht : TreeOK n tree) (hF : DirOK n tree fwG) (hB : DirOK n tree bwG) : ∀ (fuel : Nat) (q : QState), QInv n tree fwG bwG s t q →
    left n q.fw.next + left n q.bw.next < fuel →
    ∃ q', queryLoop fwG bwG tree fuel q = some q' ∧ QInv n tree fwG bwG s t q' ∧ q'.fw.next = none ∧ q'.bw.next = none := by
  intro fuel
  induction fuel with
  | zero => intro q _ h; omega
  | succ fuel ih =>
    intro q h hl
    cases hf : q.fw.next with
    | none =>
      cases hb : q.bw.next with
      | none => exact ⟨q, by simp [queryLoop, hf, hb], h, hf, hb⟩
      | some b =>
        obtain ⟨w, h1, h2, h3⟩ := h.stepBw ht hF hB hb (by rw [hf]; simp)
        have := left_par ht (h.bw.next b hb).2
        obtain ⟨q', h4, h5⟩ := ih _ h3 (by simp only [h2, hf, hb, left_none, left_some] at hl ⊢; omega)
        exact ⟨q', by simp only [queryLoop, hf, hb, h1, Option.bind_eq_bind, Option.bind_some]; exact h4, h5⟩
    | some f =>
      have hfn := left_par ht (h.fw.next f hf).2
      cases hb : q.bw.next with
      | none =>
        obtain ⟨w, h1, h2, h3⟩ := h.stepFw ht hF hB hf (by rw [hb]; simp)
        obtain ⟨q', h4, h5⟩ := ih _ h3 (by simp only [h2, hf, hb, left_none, left_some] at hl ⊢; omega)
        exact ⟨q', by simp only [queryLoop, hf, hb, h1, Option.bind_eq_bind, Option.bind_some]; exact h4, h5⟩
      | some b =>
        have hbn := left_par ht (h.bw.next b hb).2
        rcases Nat.lt_trichotomy f b with hlt | heq | hgt
        · obtain ⟨w, h1, h2, h3⟩ := h.stepFw ht hF hB hf (by rw [hb]; simp; omega)
          obtain ⟨q', h4, h5⟩ := ih _ h3 (by simp only [h2, hf, hb, left_none, left_some] at hl ⊢; omega)
          exact ⟨q', by simp only [queryLoop, hf, hb, if_pos hlt, h1, Option.bind_eq_bind, Option.bind_some]; exact h4, h5⟩
        · subst heq
          obtain ⟨q1, h1, h2, h2', h3⟩ := h.stepBoth ht hF hB hf hb
          obtain ⟨q', h4, h5⟩ := ih _ h3 (by simp only [h2, h2', hf, hb, left_none, left_some] at hl ⊢; omega)
          exact ⟨q', by simp only [queryLoop, hf, hb, Nat.lt_irrefl, gt_iff_lt, if_false, h1, Option.bind_eq_bind, Option.bind_some]; exact h4, h5⟩
        · obtain ⟨w, h1, h2, h3⟩ := h.stepBw ht hF hB hb (by rw [hf]; simp; omega)
          obtain ⟨q', h4, h5⟩ := ih _ h3 (by simp only [h2, hf, hb, left_none, left_some] at hl ⊢; omega)
          exact ⟨q', by simp only [queryLoop, hf, hb, if_neg (show ¬ f < b by omega), gt_iff_lt, if_pos hgt, h1, Option.bind_eq_bind, Option.bind_some]; exact h4, h5⟩

/-- A server between two queries: all distance labels are infinite. -/
structure Clean (n : Nat) (s : Server) : Prop where
  fd : s.fwDist = List.replicate n INFINITY
  bd : s.bwDist = List.replicate n INFINITY
  fp : s.fwParents.length = n
  bp : s.bwParents.length = n

theorem clean_new (n m : Nat) : Clean n (Server.new n m) := ⟨rfl, rfl, by simp [Server.new], by simp [Server.new]⟩

theorem checkReset_spec (ht : TreeOK n tree) : ∀ (fuel : Nat) (next : Option Nat), (∀ f, next = some f → f < n) → left n next < fuel →
    ETWalk.checkReset tree (List.replicate n INFINITY) fuel next = some () := by
  intro fuel
  induction fuel with
  | zero => intro next _ h; omega
  | succ fuel ih =>
    intro next hn hl
    cases next with
    | none => simp [ETWalk.checkReset]
    | some f =>
      have hfn := hn f rfl
      have htree : tree[f]? = some (par tree f) := by
        have hfn' := hfn
        rw [← ht.len] at hfn'
        simp [par, List.getElem?_eq_getElem hfn']
      have := left_par ht hfn
      simp only [ETWalk.checkReset, List.getElem?_replicate, hfn, if_true, Option.bind_eq_bind, Option.bind_some, htree]
      apply ih
      · intro p hp; exact (ht.up hp).2
      · simp only [left] at hl; omega

theorem start_spec (ht : TreeOK n tree) {g : FOGraph} (hg : DirOK n tree g) {ps : List (Nat × Nat)} (hp : ps.length = n) (hs : s < n) :
    ∃ w, ETWalk.start tree (List.replicate n INFINITY) ps s = some w ∧ w.next = some s ∧ WInv n tree g s INFINITY w := by
  have hc := checkReset_spec ht (tree.length + 1) (some s) (by simp [hs]) (by rw [ht.len]; simp [left]; omega)
  have h1 : s < (List.replicate n INFINITY).length := by simpa using hs
  have h2 : s < ps.length := by omega
  have hD : ∀ x, ETWalk.D ⟨(List.replicate n INFINITY).set s 0, ps.set s (s, 0), some s⟩ x = if x = s then 0 else INFINITY := by
    intro x
    have e1 : ETWalk.D ⟨(List.replicate n INFINITY).set s 0, ps.set s (s, 0), some s⟩ x =
      if x = s then 0 else ((List.replicate n INFINITY)[x]?).getD INFINITY := getD_set' h1
    rw [e1]
    split
    · rfl
    · rw [List.getElem?_replicate]; split <;> rfl
  refine ⟨⟨(List.replicate n INFINITY).set s 0, ps.set s (s, 0), some s⟩, ?_, rfl, ?_⟩
  · simp only [ETWalk.start, hc, Option.bind_eq_bind, Option.bind_some, upd_of_lt _ h1, upd_of_lt _ h2]; rfl
  · refine ⟨by simp, by simpa using hp, ?_, ?_, ?_, ?_, ?_, ?_, ?_⟩
    · intro f hf; simp at hf; subst hf; exact ⟨.refl _, hs⟩
    · intro x; rw [hD]; split <;> simp
    · intro x hx
      rw [hD] at hx
      split at hx
      · rename_i h; exact ⟨s, rfl, by rw [h]; exact .refl s⟩
      · simp at hx
    · intro _; rw [hD]; simp
    · intro x hx
      rw [hD] at hx ⊢
      split at hx
      · rename_i h; subst h; simp only [if_true]; exact .nil
      · omega
    · intro x hx hxs
      rw [hD, if_neg hxs] at hx; omega
    · intro y x wt a hy _ _ hu
      exact absurd ⟨s, rfl, hg.upwalk_anc hu⟩ hy

/-- **The query is exact.** -/
theorem queryRanks_spec (ht : TreeOK n tree) (hF : DirOK n tree fwG) (hB : DirOK n tree bwG) {srv : Server} (hc : Clean n srv) (hs : s < n) (hd : t < n) :
    ∃ r srv', queryRanks fwG bwG tree srv s t = some (r, srv') ∧ Clean n srv' ∧
      (r = none → ∀ d, UpDown fwG.Arc bwG.Arc s t d → INFINITY ≤ d) ∧
      (∀ d, r = some d → d < INFINITY ∧ (∀ d', UpDown fwG.Arc bwG.Arc s t d' → d ≤ d') ∧
        Meeting fwG bwG s t (fun x => (srv'.fwParents[x]?).getD (0, 0)) (fun x => (srv'.bwParents[x]?).getD (0, 0)) srv'.meeting d) := by
  obtain ⟨w1, h1, h2, h3⟩ := start_spec ht hF hc.fp hs
  obtain ⟨w2, k1, k2, k3⟩ := start_spec ht hB hc.bp hd
  have hq : QInv n tree fwG bwG s t ⟨w1, w2, INFINITY, 0⟩ := by
    refine ⟨h3, k3, Nat.le_refl _, ?_, ?_, ?_⟩
    · intro m hm1 hm2
      simp only [h2, k2]
      exact ⟨fun _ => ⟨t, rfl, hm2⟩, fun _ => ⟨s, rfl, hm1⟩⟩
    · intro m a b ha _ hn
      simp only [h2] at hn
      exact absurd ⟨s, rfl, hF.upwalk_anc ha⟩ hn
    · intro h; simp only at h; omega
  obtain ⟨q, h4, h5, h6, h7⟩ := queryLoop_spec ht hF hB (2 * tree.length + 1) _ hq (by
    simp only [h2, k2, left, ht.len]; omega)
  have hclean : ∀ {g : FOGraph} {s T : Nat} {w : ETWalk}, WInv n tree g s T w → w.next = none → w.dist = List.replicate n INFINITY := by
    intro g s T w hw hn
    rw [List.eq_replicate_iff]
    refine ⟨hw.dlen, ?_⟩
    intro d hd
    obtain ⟨x, hx⟩ := List.mem_iff_getElem?.1 hd
    have hD : w.D x = d := by simp [ETWalk.D, hx]
    by_contra hne
    rw [← hD] at hne
    have := hw.pend x hne
    rw [hn] at this
    exact pending_none this
  refine ⟨if q.tentative = INFINITY then none else some q.tentative, ⟨q.fw.dist, q.bw.dist, q.fw.parents, q.bw.parents, q.meeting⟩, ?_,
    ⟨hclean h5.fw h6, hclean h5.bw h7, h5.fw.plen, h5.bw.plen⟩, ?_, ?_⟩
  · simp only [queryRanks, hc.fd, hc.bd, h1, k1, h4, Option.bind_eq_bind, Option.bind_some]; rfl
  · intro hr d hud
    obtain ⟨m, a, b, ha, hb, rfl⟩ := hud
    split at hr
    · rename_i hT
      rw [← hT]
      exact h5.tcomp m a b ha hb (by rw [h6]; exact pending_none)
    · simp at hr
  · intro d hr
    split at hr
    · simp at hr
    · rename_i hT
      simp at hr; subst hr
      have hlt : q.tentative < INFINITY := by have := h5.tle; omega
      refine ⟨hlt, ?_, (h5.tsound hlt).1⟩
      rintro d' ⟨m, a, b, ha, hb, rfl⟩
      exact h5.tcomp m a b ha hb (by rw [h6]; exact pending_none)

end CCH
end Verif
