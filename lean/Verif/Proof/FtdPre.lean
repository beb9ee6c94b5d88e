import Verif.Spec.FtdPre
import Verif.Model.FtdPre
import Verif.Proof.FtdTriangles
import Verif.Proof.Reversed
import Verif.Spec.FtdInput
import Mathlib.Tactic.Linarith
set_option linter.unusedSimpArgs false
set_option linter.unusedVariables false
/- The static customization of bounds. -/
namespace Verif.Ftd
open Spec Fl Catchup

theorem mem_neighbors {arcs : List (Nat × Nat)} {v w i : Nat} : (w, i) ∈ neighbors arcs v ↔ arcs[i]? = some (v, w) := by
  unfold neighbors
  simp only [List.mem_map, List.mem_filter, beq_iff_eq, Prod.mk.injEq]
  constructor
  · rintro ⟨⟨⟨x', v'⟩, i'⟩, ⟨h1, h2⟩, h3, h4⟩
    simp only at h2 h3 h4
    subst h2; subst h3; subst h4
    exact List.mem_zipIdx_iff_getElem?.1 h1
  · intro h
    exact ⟨((v, w), i), ⟨List.mem_zipIdx_iff_getElem?.2 h, rfl⟩, rfl, rfl⟩

theorem neighbors_nodup_ids (arcs : List (Nat × Nat)) (v : Nat) : ((neighbors arcs v).map (·.2)).Nodup := by
  have := arcsOf_nodup arcs v
  unfold arcsOf at this
  unfold neighbors
  rw [List.map_map]
  exact this

variable {arcs : List (Nat × Nat)} {n : Nat} {par : Nat → Option Nat}

theorem neighbors_sorted (hS : HeadsSorted arcs) (v : Nat) : (neighbors arcs v).Pairwise (fun p q => p.1 < q.1) := by
  unfold neighbors
  rw [List.pairwise_map, List.pairwise_filter, List.pairwise_iff_getElem]
  intro i j hi hj hij h1 h2
  simp only [List.getElem_zipIdx, beq_iff_eq, Nat.zero_add] at h1 h2 ⊢
  simp only [List.length_zipIdx] at hi hj
  exact hS i j _ _ hij (List.getElem?_eq_getElem hi) (List.getElem?_eq_getElem hj) (by rw [h1, h2])

theorem mem_takeWhile_sorted {l : List (Nat × Nat)} (hl : l.Pairwise (fun p q => q.1 < p.1)) {v : Nat} {p : Nat × Nat} :
    p ∈ l.takeWhile (fun p => decide (v < p.1)) ↔ p ∈ l ∧ v < p.1 := by
  induction l with
  | nil => simp
  | cons x l ih =>
    rw [List.pairwise_cons] at hl
    rw [List.takeWhile_cons]
    by_cases h : v < x.1
    · simp only [h, decide_true, if_true, List.mem_cons, ih hl.2]
      constructor
      · rintro (rfl | ⟨h1, h2⟩)
        · exact ⟨.inl rfl, h⟩
        · exact ⟨.inr h1, h2⟩
      · rintro ⟨rfl | h1, h2⟩
        · exact .inl rfl
        · exact .inr ⟨h1, h2⟩
    · simp only [h, decide_false, Bool.false_eq_true, if_false, List.not_mem_nil, List.mem_cons, false_iff]
      rintro ⟨rfl | h1, h2⟩
      · exact h h2
      · have := hl.1 p h1; omega

theorem mem_high (hS : HeadsSorted arcs) {v x : Nat} {p : Nat × Nat} :
    p ∈ (neighbors arcs x).reverse.takeWhile (fun p => decide (v < p.1)) ↔ arcs[p.2]? = some (x, p.1) ∧ v < p.1 := by
  rw [mem_takeWhile_sorted (List.pairwise_reverse.2 (neighbors_sorted hS x)), List.mem_reverse]
  rw [show p = (p.1, p.2) from rfl, mem_neighbors]

/-! ## Values -/

def pick (k : Bool) (b : Rat × Rat) : Rat := if k then b.2 else b.1
/-- the upper (`k`) or lower bound of an arc -/
def val (st : Both) (k dir : Bool) (i : Nat) : Rat := ((side st dir)[i]?.map (fun s => pick k s.bounds)).getD 0
def Ws.get (ws : Ws) (k dir : Bool) (w : Nat) : Rat := pick k (if dir then ws.out w else ws.inc w)
def Lens (arcs : List (Nat × Nat)) (st : Both) : Prop := ∀ dir, (side st dir).length = arcs.length

theorem Lens.get {st : Both} (h : Lens arcs st) {i : Nat} {a : Nat × Nat} (ha : arcs[i]? = some a) (dir : Bool) : ∃ s, (side st dir)[i]? = some s := by
  have : i < (side st dir).length := by rw [h]; exact (List.getElem?_eq_some_iff.1 ha).1
  exact ⟨_, List.getElem?_eq_getElem this⟩

theorem val_eq {st : Both} {k dir : Bool} {i : Nat} {s : Shortcut} (h : (side st dir)[i]? = some s) : val st k dir i = pick k s.bounds := by
  unfold val; rw [h]; rfl

def Least (b : Rat) (S : Rat → Prop) : Prop := S b ∧ ∀ x, S x → b ≤ x

theorem Least.relax {b x : Rat} {S S' : Rat → Prop} (h : Least b S) (h' : ∀ y, S' y ↔ S y ∨ y = x) : Least (min b x) S' := by
  refine ⟨?_, ?_⟩
  · rcases min_choice b x with e | e
    · rw [e]; exact (h' _).2 (.inl h.1)
    · rw [e]; exact (h' _).2 (.inr rfl)
  · intro y hy
    rcases (h' _).1 hy with hy | rfl
    · exact le_trans (min_le_left _ _) (h.2 y hy)
    · exact min_le_right _ _

theorem Least.congr {b : Rat} {S S' : Rat → Prop} (h : Least b S) (h' : ∀ y, S' y ↔ S y) : Least b S' :=
  ⟨(h' _).2 h.1, fun x hx => h.2 x ((h' _).1 hx)⟩

theorem load_ok (hT : HierarchyOK arcs n par) {st : Both} (hl : Lens arcs st) (ws : Ws) (v : Nat) :
    ∃ ws', (neighbors arcs v).foldlM (load st) ws = some ws' ∧ ∀ k dir i w, arcs[i]? = some (v, w) → ws'.get k dir w = val st k dir i := by
  obtain ⟨ws', h1, h2⟩ := GraphOps.foldlM_inv (load st) (fun P ws => ∀ k dir i w, (w, i) ∈ P → ws.get k dir w = val st k dir i) (neighbors arcs v) (by
    rintro P ⟨w0, i0⟩ Q ws hE hP
    have hm : ∀ q ∈ P ++ [(w0, i0)], arcs[q.2]? = some (v, q.1) := by
      intro q hq
      apply mem_neighbors.1
      rw [hE]
      simp only [List.mem_append, List.mem_cons, List.not_mem_nil, or_false] at hq ⊢
      rcases hq with h | h
      · exact .inl h
      · exact .inr (.inl h)
    have h0 := hm (w0, i0) (by simp)
    obtain ⟨u, hu⟩ := hl.get h0 true
    obtain ⟨d, hd⟩ := hl.get h0 false
    have hu' : st.1[i0]? = some u := hu
    have hd' : st.2[i0]? = some d := hd
    refine ⟨⟨fupd ws.out w0 u.bounds, fupd ws.inc w0 d.bounds⟩, by simp [load, hu', hd'], ?_⟩
    intro k dir i w hw
    by_cases e : w = w0
    · subst e
      have := hT.unique i i0 _ (hm (w, i) hw) h0
      subst this
      cases dir
      · rw [val_eq hd]; simp [Ws.get]
      · rw [val_eq hu]; simp [Ws.get]
    · have hw' : (w, i) ∈ P := by
        simp only [List.mem_append, List.mem_cons, Prod.mk.injEq, List.not_mem_nil, or_false] at hw
        exact hw.resolve_right (fun h => e h.1)
      rw [← hP k dir i w hw']
      unfold Ws.get
      simp only [fupd_of_ne _ _ e]) ws (fun _ _ _ _ h => (nomatch h))
  exact ⟨ws', h1, fun k dir i w h => h2 k dir i w (mem_neighbors.2 h)⟩

/-- what the workspace has for the arc `i` to `w` after the triangles in `T` -/
def Sums (arcs : List (Nat × Nat)) (st : Both) (k dir : Bool) (v w i : Nat) (T : Nat → Nat → Prop) (y : Rat) : Prop :=
  y = val st k dir i ∨ ∃ d u x, T d u ∧ arcs[d]? = some (x, v) ∧ arcs[u]? = some (x, w) ∧ y = val st k (!dir) d + val st k dir u

def WsOK (arcs : List (Nat × Nat)) (st : Both) (v : Nat) (T : Nat → Nat → Prop) (ws : Ws) : Prop :=
  ∀ k dir i w, arcs[i]? = some (v, w) → Least (ws.get k dir w) (Sums arcs st k dir v w i T)

theorem WsOK.congr {st : Both} {v : Nat} {T T' : Nat → Nat → Prop} {ws : Ws} (h : WsOK arcs st v T ws)
    (hT : ∀ d u x w, arcs[d]? = some (x, v) → arcs[u]? = some (x, w) → v < w → (T' d u ↔ T d u)) (hH : HierarchyOK arcs n par) : WsOK arcs st v T' ws := by
  intro k dir i w hi
  refine (h k dir i w hi).congr ?_
  intro y
  have hv := (hH.up _ _ hi).1
  unfold Sums
  constructor
  · rintro (h | ⟨d, u, x, h1, h2, h3, h4⟩)
    · exact .inl h
    · exact .inr ⟨d, u, x, (hT d u x w h2 h3 hv).1 h1, h2, h3, h4⟩
  · rintro (h | ⟨d, u, x, h1, h2, h3, h4⟩)
    · exact .inl h
    · exact .inr ⟨d, u, x, (hT d u x w h2 h3 hv).2 h1, h2, h3, h4⟩

theorem relaxLow_ok (hT : HierarchyOK arcs n par) {st : Both} (hl : Lens arcs st) {v x d u w : Nat} {T : Nat → Nat → Prop} {ws : Ws} (hd : arcs[d]? = some (x, v)) (hu : arcs[u]? = some (x, w))
    (hvw : v < w) {fd fu : Shortcut} (h1 : st.2[d]? = some fd) (h2 : st.1[d]? = some fu) (h : WsOK arcs st v T ws) :
    ∃ ws', relaxLow st fd fu ws (w, u) = some ws' ∧ WsOK arcs st v (fun a b => T a b ∨ (a = d ∧ b = u)) ws' := by
  obtain ⟨su, hsu⟩ := hl.get hu true
  obtain ⟨sd, hsd⟩ := hl.get hu false
  have hsu' : st.1[u]? = some su := hsu
  have hsd' : st.2[u]? = some sd := hsd
  refine ⟨⟨fupd ws.out w (relaxPair (ws.out w) su.bounds fd.bounds), fupd ws.inc w (relaxPair (ws.inc w) sd.bounds fu.bounds)⟩, by simp [relaxLow, hsu', hsd'], ?_⟩
  intro k dir i w' hi
  by_cases e : w' = w
  · subst e
    have : Ws.get ⟨fupd ws.out w' (relaxPair (ws.out w') su.bounds fd.bounds), fupd ws.inc w' (relaxPair (ws.inc w') sd.bounds fu.bounds)⟩ k dir w' =
        min (ws.get k dir w') (val st k (!dir) d + val st k dir u) := by
      cases dir
      · have e1 : val st k true d = pick k fu.bounds := val_eq (dir := true) h2
        rw [Bool.not_false, e1, val_eq hsd]
        cases k <;> simp [Ws.get, pick, relaxPair, add_comm]
      · have e1 : val st k false d = pick k fd.bounds := val_eq (dir := false) h1
        rw [Bool.not_true, e1, val_eq hsu]
        cases k <;> simp [Ws.get, pick, relaxPair, add_comm]
    rw [this]
    refine (h k dir i w' hi).relax ?_
    intro y
    unfold Sums
    constructor
    · rintro (h | ⟨d', u', x', h1 | ⟨rfl, rfl⟩, h2, h3, h4⟩)
      · exact .inl (.inl h)
      · exact .inl (.inr ⟨d', u', x', h1, h2, h3, h4⟩)
      · exact .inr h4
    · rintro ((h | ⟨d', u', x', h1, h2, h3, h4⟩) | h)
      · exact .inl h
      · exact .inr ⟨d', u', x', .inl h1, h2, h3, h4⟩
      · exact .inr ⟨d, u, x, .inr ⟨rfl, rfl⟩, hd, hu, h⟩
  · have : Ws.get ⟨fupd ws.out w (relaxPair (ws.out w) su.bounds fd.bounds), fupd ws.inc w (relaxPair (ws.inc w) sd.bounds fu.bounds)⟩ k dir w' = ws.get k dir w' := by
      unfold Ws.get
      simp only [fupd_of_ne _ _ e]
    rw [this]
    refine (h k dir i w' hi).congr ?_
    intro y
    unfold Sums
    constructor
    · rintro (h | ⟨d', u', x', h1 | ⟨rfl, rfl⟩, h2, h3, h4⟩)
      · exact .inl h
      · exact .inr ⟨d', u', x', h1, h2, h3, h4⟩
      · rw [hu] at h3; injection h3 with h3; injection h3 with _ h3; exact absurd h3.symm e
    · rintro (h | ⟨d', u', x', h1, h2, h3, h4⟩)
      · exact .inl h
      · exact .inr ⟨d', u', x', .inl h1, h2, h3, h4⟩

theorem staticLow_ok (hT : HierarchyOK arcs n par) (hS : HeadsSorted arcs) {st : Both} (hl : Lens arcs st) {v x d : Nat} {T : Nat → Nat → Prop} {ws : Ws} (hd : arcs[d]? = some (x, v))
    (h : WsOK arcs st v T ws) : ∃ ws', staticLow arcs st v ws (x, d) = some ws' ∧ WsOK arcs st v (fun a b => T a b ∨ a = d) ws' := by
  obtain ⟨fd, h1⟩ := hl.get hd false
  obtain ⟨fu, h2⟩ := hl.get hd true
  have h1' : st.2[d]? = some fd := h1
  have h2' : st.1[d]? = some fu := h2
  obtain ⟨ws', e1, e2⟩ := GraphOps.foldlM_inv (relaxLow st fd fu) (fun P ws => WsOK arcs st v (fun a b => T a b ∨ (a = d ∧ ∃ w, (w, b) ∈ P)) ws)
    ((neighbors arcs x).reverse.takeWhile (fun p => decide (v < p.1))) (by
    rintro P ⟨w, u⟩ Q ws hE hP
    have hm : (w, u) ∈ (neighbors arcs x).reverse.takeWhile (fun p => decide (v < p.1)) := by rw [hE]; simp
    obtain ⟨m1, m2⟩ := (mem_high hS).1 hm
    obtain ⟨ws', k1, k2⟩ := relaxLow_ok hT hl hd m1 m2 h1' h2' hP
    refine ⟨ws', k1, k2.congr ?_ hT⟩
    intro d' u' x' w' q1 q2 q3
    constructor
    · rintro (h | ⟨rfl, w'', h⟩)
      · exact .inl (.inl h)
      · simp only [List.mem_append, List.mem_cons, Prod.mk.injEq, List.not_mem_nil, or_false] at h
        rcases h with h | ⟨rfl, rfl⟩
        · exact .inl (.inr ⟨rfl, w'', h⟩)
        · exact .inr ⟨rfl, rfl⟩
    · rintro ((h | ⟨rfl, w'', h⟩) | ⟨rfl, rfl⟩)
      · exact .inl h
      · exact .inr ⟨rfl, w'', by simp [h]⟩
      · exact .inr ⟨rfl, w, by simp⟩) ws (h.congr (by
        intro d' u' x' w' q1 q2 q3
        simp) hT)
  refine ⟨ws', ?_, e2.congr ?_ hT⟩
  · simp only [staticLow, h1', h2', Option.bind_eq_bind, Option.bind_some, e1]
  · intro d' u' x' w' q1 q2 q3
    constructor
    · rintro (h | rfl)
      · exact .inl h
      · refine .inr ⟨rfl, w', (mem_high hS).2 ⟨?_, q3⟩⟩
        rw [hd] at q1; injection q1 with q1; injection q1 with q1 _
        rw [q1]; exact q2
    · rintro (h | ⟨rfl, _⟩)
      · exact .inl h
      · exact .inr rfl

theorem lows_ok (hT : HierarchyOK arcs n par) (hS : HeadsSorted arcs) {st : Both} (hl : Lens arcs st) {v : Nat} {ws : Ws} (h : WsOK arcs st v (fun _ _ => False) ws) :
    ∃ ws', (inverted arcs v).foldlM (staticLow arcs st v) ws = some ws' ∧ WsOK arcs st v (fun _ _ => True) ws' := by
  obtain ⟨ws', e1, e2⟩ := GraphOps.foldlM_inv (staticLow arcs st v) (fun P ws => WsOK arcs st v (fun a b => ∃ x, (x, a) ∈ P) ws) (inverted arcs v) (by
    rintro P ⟨x, d⟩ Q ws hE hP
    have hm : (x, d) ∈ inverted arcs v := by rw [hE]; simp
    obtain ⟨ws', k1, k2⟩ := staticLow_ok hT hS hl (mem_inverted.1 hm) hP
    refine ⟨ws', k1, k2.congr ?_ hT⟩
    intro d' u' x' w' q1 q2 q3
    constructor
    · rintro ⟨x'', h⟩
      simp only [List.mem_append, List.mem_cons, Prod.mk.injEq, List.not_mem_nil, or_false] at h
      rcases h with h | ⟨_, rfl⟩
      · exact .inl ⟨x'', h⟩
      · exact .inr rfl
    · rintro (⟨x'', h⟩ | rfl)
      · exact ⟨x'', by simp [h]⟩
      · exact ⟨x, by simp⟩) ws (h.congr (by intro d' u' x' w' _ _ _; simp) hT)
  refine ⟨ws', e1, e2.congr ?_ hT⟩
  intro d' u' x' w' q1 q2 q3
  exact ⟨fun _ => ⟨x', mem_inverted.2 q1⟩, fun _ => trivial⟩

theorem store_ok (hT : HierarchyOK arcs n par) {st : Both} (hl : Lens arcs st) (ws : Ws) (v : Nat) :
    ∃ st', (neighbors arcs v).foldlM (store ws) st = some st' ∧ Lens arcs st' ∧
      (∀ (dir : Bool) (i w : Nat), arcs[i]? = some (v, w) → (side st' dir)[i]? = (side st dir)[i]?.map (setBounds (if dir then ws.out w else ws.inc w))) ∧
      ∀ (dir : Bool) (i : Nat), (∀ w, arcs[i]? ≠ some (v, w)) → (side st' dir)[i]? = (side st dir)[i]? := by
  obtain ⟨st', h1, h2, h3, h4⟩ := GraphOps.foldlM_inv (store ws) (fun P st' => Lens arcs st' ∧
      (∀ (dir : Bool) (i w : Nat), (w, i) ∈ P → (side st' dir)[i]? = (side st dir)[i]?.map (setBounds (if dir then ws.out w else ws.inc w))) ∧
      ∀ (dir : Bool) (i : Nat), (∀ w, (w, i) ∉ P) → (side st' dir)[i]? = (side st dir)[i]?) (neighbors arcs v) (by
    rintro P ⟨w0, i0⟩ Q st1 hE ⟨p1, p2, p3⟩
    have hm : ∀ q ∈ P ++ [(w0, i0)], arcs[q.2]? = some (v, q.1) := by
      intro q hq
      apply mem_neighbors.1
      rw [hE]
      simp only [List.mem_append, List.mem_cons, List.not_mem_nil, or_false] at hq ⊢
      rcases hq with h | h
      · exact .inl h
      · exact .inr (.inl h)
    have h0 := hm (w0, i0) (by simp)
    have hlt : i0 < arcs.length := (List.getElem?_eq_some_iff.1 h0).1
    have hnd : ∀ w, (w, i0) ∉ P := by
      intro w hw
      have hp := neighbors_nodup_ids arcs v
      rw [hE, List.map_append, List.map_cons, List.nodup_append] at hp
      exact hp.2.2 i0 (List.mem_map.2 ⟨_, hw, rfl⟩) i0 (by simp) rfl
    obtain ⟨u, hu⟩ := p1.get h0 true
    obtain ⟨d, hd⟩ := p1.get h0 false
    have hu' : st1.1[i0]? = some u := hu
    have hd' : st1.2[i0]? = some d := hd
    have l1 : st1.1.length = arcs.length := p1 true
    have l0 : st1.2.length = arcs.length := p1 false
    have hg : ∀ dir, (side st dir)[i0]? = some (if dir then u else d) := by
      intro dir
      rw [← p3 dir i0 hnd]
      cases dir
      · exact hd
      · exact hu
    refine ⟨(st1.1.set i0 (setBounds (ws.out w0) u), st1.2.set i0 (setBounds (ws.inc w0) d)), ?_, ?_, ?_, ?_⟩
    · simp only [store, hu', hd', Option.bind_eq_bind, Option.bind_some, upd, l1, l0, hlt, if_true]
    · intro dir; cases dir <;> simp [side, l1, l0]
    · intro dir i w hw
      by_cases e : i = i0
      · subst e
        have : w = w0 := by
          have := hm (w, i) hw
          simp only at this h0
          rw [h0] at this; injection this with this; injection this with _ this; exact this.symm
        subst this
        rw [hg]
        cases dir <;> simp [side, l1, l0, hlt]
      · have hw' : (w, i) ∈ P := by
          simp only [List.mem_append, List.mem_cons, Prod.mk.injEq, List.not_mem_nil, or_false] at hw
          exact hw.resolve_right (fun h => e h.2)
        rw [← p2 dir i w hw']
        cases dir <;> simp only [side, Bool.false_eq_true, if_false, if_true, List.getElem?_set_ne (Ne.symm e)]
    · intro dir i hi
      have e : i ≠ i0 := fun e => hi w0 (by simp [e])
      rw [← p3 dir i (fun w hw => hi w (by simp [hw]))]
      cases dir <;> simp only [side, Bool.false_eq_true, if_false, if_true, List.getElem?_set_ne (Ne.symm e)]) st
    ⟨hl, fun _ _ _ h => (nomatch h), fun _ _ _ => rfl⟩
  exact ⟨st', h1, h2, fun dir i w h => h3 dir i w (mem_neighbors.2 h), fun dir i h => h4 dir i (fun w hw => h w (mem_neighbors.1 hw))⟩

/-- the bounds of an arc after the static customization -/
def Final (arcs : List (Nat × Nat)) (st0 st : Both) (dir : Bool) (i v w : Nat) : Prop :=
  ∀ k, Least (val st k dir i) (fun y => y = val st0 k dir i ∨ ∃ d u x, arcs[d]? = some (x, v) ∧ arcs[u]? = some (x, w) ∧ y = val st k (!dir) d + val st k dir u)

/-- after the nodes below `v` -/
structure SInv (arcs : List (Nat × Nat)) (st0 : Both) (v : Nat) (st : Both) : Prop where
  len : Lens arcs st
  fresh : ∀ (dir : Bool) (i : Nat) (a : Nat × Nat), arcs[i]? = some a → v ≤ a.1 → (side st dir)[i]? = (side st0 dir)[i]?
  done : ∀ (dir : Bool) (i : Nat) (a : Nat × Nat), arcs[i]? = some a → a.1 < v → (∃ s0 b, (side st0 dir)[i]? = some s0 ∧ (side st dir)[i]? = some (setBounds b s0)) ∧
    Final arcs st0 st dir i a.1 a.2

theorem static_node (hT : HierarchyOK arcs n par) (hS : HeadsSorted arcs) {st0 st : Both} (hl0 : Lens arcs st0) {v : Nat} (h : SInv arcs st0 v st) (ws : Ws) :
    ∃ st' ws', staticNode arcs (st, ws) v = some (st', ws') ∧ SInv arcs st0 (v + 1) st' := by
  obtain ⟨ws1, a1, a2⟩ := load_ok hT h.len ws v
  have hw1 : WsOK arcs st v (fun _ _ => False) ws1 := by
    intro k dir i w hi
    rw [a2 k dir i w hi]
    refine ⟨.inl rfl, ?_⟩
    rintro x (rfl | ⟨_, _, _, h, _⟩)
    · exact le_refl _
    · exact h.elim
  obtain ⟨ws2, b1, b2⟩ := lows_ok hT hS h.len hw1
  obtain ⟨st', c1, c2, c3, c4⟩ := store_ok hT h.len ws2 v
  refine ⟨st', ws2, ?_, c2, ?_, ?_⟩
  · simp only [staticNode, a1, b1, c1, Option.bind_eq_bind, Option.bind_some]
  · intro dir i a ha hv
    rw [c4 dir i (fun w e => by rw [ha] at e; injection e with e; rw [e] at hv; simp only at hv; omega)]
    exact h.fresh dir i a ha (by omega)
  · -- other arcs keep their values
    have hkeep : ∀ (k dir : Bool) (i : Nat) (a : Nat × Nat), arcs[i]? = some a → a.1 ≠ v → val st' k dir i = val st k dir i := by
      intro k dir i a ha hv
      unfold val
      rw [c4 dir i (fun w e => by rw [ha] at e; injection e with e; exact hv (by rw [e]))]
    rintro dir i ⟨x, w⟩ ha hx
    by_cases e : x = v
    · subst e
      obtain ⟨s0, hs0⟩ := hl0.get ha dir
      have hs : (side st dir)[i]? = some s0 := by rw [h.fresh dir i _ ha (le_refl _)]; exact hs0
      have hs' := c3 dir i w ha
      rw [hs] at hs'
      refine ⟨⟨s0, _, hs0, hs'⟩, ?_⟩
      intro k
      have hv : val st' k dir i = ws2.get k dir w := by
        rw [val_eq hs']
        cases dir <;> cases k <;> rfl
      rw [hv]
      refine (b2 k dir i w ha).congr ?_
      intro y
      have hv0 : val st k dir i = val st0 k dir i := by rw [val_eq hs, val_eq hs0]
      unfold Sums
      rw [hv0]
      constructor
      · rintro (h | ⟨d, u, z, q1, q2, q3⟩)
        · exact .inl h
        · have := (hT.up _ _ q1).1
          rw [hkeep _ _ _ _ q1 (by simp only at this ⊢; omega), hkeep _ _ _ _ q2 (by simp only at this ⊢; omega)] at q3
          exact .inr ⟨d, u, z, trivial, q1, q2, q3⟩
      · rintro (h | ⟨d, u, z, _, q1, q2, q3⟩)
        · exact .inl h
        · have := (hT.up _ _ q1).1
          rw [← hkeep _ _ _ _ q1 (by simp only at this ⊢; omega), ← hkeep _ _ _ _ q2 (by simp only at this ⊢; omega)] at q3
          exact .inr ⟨d, u, z, q1, q2, q3⟩
    · obtain ⟨⟨s0, b, q1, q2⟩, q3⟩ := h.done dir i _ ha (by simp only at hx ⊢; omega)
      refine ⟨⟨s0, b, q1, ?_⟩, ?_⟩
      · rw [c4 dir i (fun w' e' => by rw [ha] at e'; injection e' with e'; injection e' with e' _; exact e e')]
        exact q2
      · intro k
        rw [hkeep k dir i _ ha e]
        refine (q3 k).congr ?_
        intro y
        simp only at hx
        constructor
        · rintro (h | ⟨d, u, z, q1, q2, q3⟩)
          · exact .inl h
          · have := (hT.up _ _ q1).1
            rw [hkeep _ _ _ _ q1 (by simp only at this ⊢; omega), hkeep _ _ _ _ q2 (by simp only at this ⊢; omega)] at q3
            exact .inr ⟨d, u, z, q1, q2, q3⟩
        · rintro (h | ⟨d, u, z, q1, q2, q3⟩)
          · exact .inl h
          · have := (hT.up _ _ q1).1
            rw [← hkeep _ _ _ _ q1 (by simp only at this ⊢; omega), ← hkeep _ _ _ _ q2 (by simp only at this ⊢; omega)] at q3
            exact .inr ⟨d, u, z, q1, q2, q3⟩

theorem static_all (hT : HierarchyOK arcs n par) (hS : HeadsSorted arcs) {st0 : Both} (hl0 : Lens arcs st0) : ∃ st, staticAll arcs n st0 = some st ∧ SInv arcs st0 n st := by
  have key : ∀ k, ∃ st ws, (List.range k).foldlM (staticNode arcs) (st0, ⟨fun _ => (INF, INF), fun _ => (INF, INF)⟩) = some (st, ws) ∧ SInv arcs st0 k st := by
    intro k
    induction k with
    | zero => exact ⟨st0, _, rfl, hl0, fun _ _ _ _ _ => rfl, fun _ _ _ _ h => by omega⟩
    | succ k ih =>
      obtain ⟨st, ws, h1, h2⟩ := ih
      obtain ⟨st', ws', h3, h4⟩ := static_node hT hS hl0 h2 ws
      refine ⟨st', ws', ?_, h4⟩
      rw [List.range_succ, List.foldlM_append, h1]
      simp only [Option.bind_eq_bind, Option.bind_some, List.foldlM_cons, List.foldlM_nil, h3, Option.pure_def]
  obtain ⟨st, ws, h1, h2⟩ := key n
  refine ⟨st, ?_, h2⟩
  simp only [staticAll, h1, Option.bind_eq_bind, Option.bind_some]

end Verif.Ftd
