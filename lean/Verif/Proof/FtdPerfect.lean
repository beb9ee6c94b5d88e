import Verif.Proof.FtdPre
set_option linter.unusedSimpArgs false
set_option linter.unusedVariables false
/- The perfect customization of bounds: afterwards, the upper bounds are the distances with respect to the upper bounds before. -/
namespace Verif.Ftd
open Spec Fl Catchup


/-- walks on arcs with weights `W`, with `k` steps -/
inductive Wk (arcs : List (Nat × Nat)) (W : Bool → Nat → Rat) : Nat → Nat → Nat → Rat → Prop where
  | nil (v : Nat) : Wk arcs W 0 v v 0
  | cons {k i : Nat} {a : Nat × Nat} {v : Nat} {x : Rat} (dir : Bool) : arcs[i]? = some a → Wk arcs W k (a1 dir a) v x → Wk arcs W (k + 1) (a0 dir a) v (W dir i + x)

variable {arcs : List (Nat × Nat)} {n : Nat} {par : Nat → Option Nat} {W : Bool → Nat → Rat}

theorem Wk.append {k l u v w : Nat} {x y : Rat} (h : Wk arcs W k u v x) (h2 : Wk arcs W l v w y) : Wk arcs W (k + l) u w (x + y) := by
  induction h with
  | nil v => rw [Nat.zero_add, zero_add]; exact h2
  | @cons k i a v x dir ha _ ih =>
    have := Wk.cons (W := W) dir ha (ih h2)
    rw [show k + 1 + l = k + l + 1 by omega, add_assoc (W dir i) x y]
    exact this

theorem Wk.single {i : Nat} {a : Nat × Nat} (dir : Bool) (ha : arcs[i]? = some a) : Wk arcs W 1 (a0 dir a) (a1 dir a) (W dir i) := by
  have := Wk.cons (W := W) dir ha (.nil _)
  rw [add_zero] at this
  exact this

theorem Wk.nonneg (hW : ∀ dir i a, arcs[i]? = some a → 0 ≤ W dir i) {k u v : Nat} {x : Rat} (h : Wk arcs W k u v x) : 0 ≤ x := by
  induction h with
  | nil v => exact le_refl _
  | cons dir ha _ ih => exact add_nonneg (hW _ _ _ ha) ih

theorem a_swap (dir : Bool) (a : Nat × Nat) : a0 (!dir) a = a1 dir a ∧ a1 (!dir) a = a0 dir a := by cases dir <;> exact ⟨rfl, rfl⟩

/-- the same walk backwards -/
theorem Wk.rev {k u v : Nat} {x : Rat} (h : Wk arcs W k u v x) : Wk arcs (fun dir i => W (!dir) i) k v u x := by
  induction h with
  | nil v => exact .nil v
  | @cons k i a v x dir ha _ ih =>
    have h1 := Wk.single (W := fun dir i => W (!dir) i) (!dir) ha
    rw [(a_swap dir a).1, (a_swap dir a).2, Bool.not_not] at h1
    have := ih.append h1
    rw [add_comm (W dir i) x]
    exact this

/-- the weights respect lower triangles -/
def Tri (arcs : List (Nat × Nat)) (W : Bool → Nat → Rat) : Prop := ∀ (dir : Bool) (i d u z : Nat) (a : Nat × Nat), arcs[i]? = some a → arcs[d]? = some (z, a0 dir a) → arcs[u]? = some (z, a1 dir a) →
  W dir i ≤ W false d + W true u

theorem Tri.rev (h : Tri arcs W) : Tri arcs (fun dir i => W (!dir) i) := by
  intro dir i d u z a ha hd hu
  have := h (!dir) i u d z a ha (by rw [(a_swap dir a).1]; exact hu) (by rw [(a_swap dir a).2]; exact hd)
  rw [add_comm]
  exact this

/-- an arc between two different higher neighbours -/
theorem arc_between (hT : HierarchyOK arcs n par) {z p q d u : Nat} (hd : arcs[d]? = some (z, p)) (hu : arcs[u]? = some (z, q)) (hne : p ≠ q) :
    ∃ (dir : Bool) (i : Nat) (a : Nat × Nat), arcs[i]? = some a ∧ a0 dir a = p ∧ a1 dir a = q := by
  rcases Nat.lt_or_ge p q with h | h
  · obtain ⟨i, hi⟩ := List.mem_iff_getElem?.1 (hT.chordal z p q (List.mem_iff_getElem?.2 ⟨_, hd⟩) (List.mem_iff_getElem?.2 ⟨_, hu⟩) h)
    exact ⟨true, i, _, hi, rfl, rfl⟩
  · obtain ⟨i, hi⟩ := List.mem_iff_getElem?.1 (hT.chordal z q p (List.mem_iff_getElem?.2 ⟨_, hu⟩) (List.mem_iff_getElem?.2 ⟨_, hd⟩) (by omega))
    exact ⟨false, i, _, hi, rfl, rfl⟩

/-- A walk to a higher node need not begin with a step down. -/
theorem first_up (hT : HierarchyOK arcs n par) (hN : ∀ dir i a, arcs[i]? = some a → 0 ≤ W dir i) (hW : Tri arcs W) : ∀ (k : Nat) {v w : Nat} {x : Rat}, v < w → Wk arcs W k v w x →
    ∃ (e y l : Nat) (x' : Rat), arcs[e]? = some (v, y) ∧ Wk arcs W l y w x' ∧ l + 1 ≤ k ∧ W true e + x' ≤ x := by
  intro k
  induction k using Nat.strong_induction_on with
  | _ k ih =>
    intro v w x hvw h
    cases h with
    | nil => omega
    | @cons k i a _ x dir ha h =>
      cases dir with
      | true => exact ⟨i, a.2, k, x, ha, h, le_refl _, le_refl _⟩
      | false =>
        obtain ⟨z, v⟩ := a
        simp only [a0, a1, Bool.false_eq_true, if_false] at h hvw ⊢
        have hzv := (hT.up _ _ ha).1
        simp only at hzv
        obtain ⟨e, y, l, x', h1, h2, h3, h4⟩ := ih k (by omega) (by omega : z < w) h
        by_cases hy : y = v
        · subst hy
          obtain ⟨e', y', l', x'', q1, q2, q3, q4⟩ := ih l (by omega) hvw h2
          have hp : 0 ≤ W false i + W true e := add_nonneg (hN _ _ _ ha) (hN _ _ _ h1)
          exact ⟨e', y', l', x'', q1, q2, by omega, by linarith⟩
        · obtain ⟨dir, j, b, hj, b0, b1⟩ := arc_between hT ha h1 (Ne.symm hy)
          have htri := hW dir j i e z b hj (by rw [b0]; exact ha) (by rw [b1]; exact h1)
          have hstep : Wk arcs W (l + 1) v w (W dir j + x') := by
            have := Wk.cons (W := W) dir hj (by rw [b1]; exact h2)
            rw [b0] at this
            exact this
          obtain ⟨e', y', l', x'', q1, q2, q3, q4⟩ := ih (l + 1) (by omega) hvw hstep
          exact ⟨e', y', l', x'', q1, q2, by omega, by linarith⟩

/-! ## The relaxations -/

/-- the same shortcut with other bounds -/
def Like (s s' : Shortcut) : Prop := s' = { s with lower := s'.lower, upper := s'.upper }

theorem Like.refl (s : Shortcut) : Like s s := rfl
theorem Like.trans {a b c : Shortcut} (h : Like a b) (h2 : Like b c) : Like a c := by
  unfold Like at *
  rw [h] at h2
  exact h2

theorem relaxArc_ok {st : Both} (hl : Lens arcs st) {t a b : Bool × Nat} {at_ aa ab : Nat × Nat} (ht : arcs[t.2]? = some at_) (ha : arcs[a.2]? = some aa) (hb : arcs[b.2]? = some ab) :
    ∃ st', relaxArc t a b st = some st' ∧ Lens arcs st' ∧ (∀ (dir : Bool) (i : Nat), (dir, i) ≠ t → (side st' dir)[i]? = (side st dir)[i]?) ∧
      (∀ (dir : Bool) (i : Nat) (s : Shortcut), (side st dir)[i]? = some s → ∃ s', (side st' dir)[i]? = some s' ∧ Like s s') ∧
      val st' true t.1 t.2 = min (val st true t.1 t.2) (val st true a.1 a.2 + val st true b.1 b.2) := by
  obtain ⟨x, hx⟩ := hl.get ha a.1
  obtain ⟨y, hy⟩ := hl.get hb b.1
  obtain ⟨s, hs⟩ := hl.get ht t.1
  have hlt : t.2 < arcs.length := (List.getElem?_eq_some_iff.1 ht).1
  have hlen := hl t.1
  have e : relaxArc t a b st = some (if t.1 then ((side st t.1).set t.2 (minBounds s x y), st.2) else (st.1, (side st t.1).set t.2 (minBounds s x y))) := by
    simp only [relaxArc, hx, hy, hs, Option.bind_eq_bind, Option.bind_some, upd, hlen, hlt, if_true]
  obtain ⟨dt, it⟩ := t
  simp only at *
  generalize hst : (if dt then ((side st dt).set it (minBounds s x y), st.2) else (st.1, (side st dt).set it (minBounds s x y))) = st' at e
  have h1 : side st' dt = (side st dt).set it (minBounds s x y) := by rw [← hst]; cases dt <;> rfl
  have h2 : ∀ dir, dir ≠ dt → side st' dir = side st dir := by intro dir hd; rw [← hst]; cases dir <;> cases dt <;> first | rfl | exact absurd rfl hd
  have hself : (side st' dt)[it]? = some (minBounds s x y) := by rw [h1, List.getElem?_set_self (by rw [hlen]; exact hlt)]
  have hother : ∀ (dir : Bool) (i : Nat), (dir, i) ≠ (dt, it) → (side st' dir)[i]? = (side st dir)[i]? := by
    intro dir i hne
    by_cases hd : dir = dt
    · subst hd
      have : it ≠ i := fun h => hne (by rw [h])
      rw [h1, List.getElem?_set_ne this]
    · rw [h2 dir hd]
  refine ⟨st', e, ?_, hother, ?_, ?_⟩
  · intro dir
    by_cases hd : dir = dt
    · subst hd; rw [h1, List.length_set]; exact hl _
    · rw [h2 dir hd]; exact hl _
  · intro dir i s0 h0
    by_cases hd : (dir, i) = (dt, it)
    · injection hd with hd1 hd2
      subst hd1; subst hd2
      rw [hs] at h0; injection h0 with h0; subst h0
      exact ⟨_, hself, rfl⟩
    · exact ⟨s0, by rw [hother dir i hd]; exact h0, .refl _⟩
  · rw [val_eq hself, val_eq hs, val_eq hx, val_eq hy]
    rfl

/-- while node `v` is processed, starting with `st1` -/
structure NInv (arcs : List (Nat × Nat)) (U : Bool → Nat → Rat) (st1 : Both) (v : Nat) (T : Nat → Nat → Nat → Prop) (st : Both) : Prop where
  len : Lens arcs st
  like : ∀ (dir : Bool) (i : Nat) (s : Shortcut), (side st1 dir)[i]? = some s → ∃ s', (side st dir)[i]? = some s' ∧ Like s s'
  frame : ∀ (dir : Bool) (i : Nat) (a : Nat × Nat), arcs[i]? = some a → a.1 ≠ v → (side st dir)[i]? = (side st1 dir)[i]?
  le : ∀ (dir : Bool) (i : Nat) (a : Nat × Nat), arcs[i]? = some a → val st true dir i ≤ U dir i
  sound : ∀ (dir : Bool) (i : Nat) (a : Nat × Nat), arcs[i]? = some a → ∃ k, Wk arcs U k (a0 dir a) (a1 dir a) (val st true dir i)
  tri : ∀ e sc o, T e sc o → ∀ dir, val st true dir o ≤ U dir e + val st1 true dir sc ∧ val st true dir e ≤ U dir o + val st1 true (!dir) sc

variable {U : Bool → Nat → Rat}

theorem NInv.relax {st1 st : Both} {v : Nat} {T : Nat → Nat → Nat → Prop} (h : NInv arcs U st1 v T st) {t a b : Bool × Nat} {at_ aa ab : Nat × Nat} (ht : arcs[t.2]? = some at_) (htv : at_.1 = v)
    (ha : arcs[a.2]? = some aa) (hb : arcs[b.2]? = some ab)
    (hc : (a0 a.1 aa = a0 t.1 at_ ∧ a1 a.1 aa = a0 b.1 ab ∧ a1 b.1 ab = a1 t.1 at_) ∨ (a0 b.1 ab = a0 t.1 at_ ∧ a1 b.1 ab = a0 a.1 aa ∧ a1 a.1 aa = a1 t.1 at_)) :
    ∃ st', relaxArc t a b st = some st' ∧ NInv arcs U st1 v T st' ∧ (∀ dir i, val st' true dir i ≤ val st true dir i) ∧ val st' true t.1 t.2 ≤ val st true a.1 a.2 + val st true b.1 b.2 := by
  obtain ⟨st', e1, e2, e3, e4, e5⟩ := relaxArc_ok h.len ht ha hb
  have hmono : ∀ dir i, val st' true dir i ≤ val st true dir i := by
    intro dir i
    by_cases hd : (dir, i) = t
    · have := e5
      rw [← hd] at this
      simp only at this
      rw [this]; exact min_le_left _ _
    · unfold val; rw [e3 dir i hd]
  refine ⟨st', e1, ⟨e2, ?_, ?_, ?_, ?_, ?_⟩, hmono, by rw [e5]; exact min_le_right _ _⟩
  · intro dir i s hs
    obtain ⟨s1, h1, h2⟩ := h.like dir i s hs
    obtain ⟨s2, h3, h4⟩ := e4 dir i s1 h1
    exact ⟨s2, h3, h2.trans h4⟩
  · intro dir i b hb hv
    rw [e3 dir i (by rintro rfl; simp only at ht; rw [hb] at ht; injection ht with ht; exact hv (by rw [ht, htv]))]
    exact h.frame dir i b hb hv
  · intro dir i a ha
    exact le_trans (hmono dir i) (h.le dir i a ha)
  · intro dir i b' hb'
    by_cases hd : (dir, i) = t
    · subst hd
      simp only at ht e5 hc
      rw [ht] at hb'; injection hb' with hb'; subst hb'
      rw [e5]
      rcases min_choice (val st true dir i) (val st true a.1 a.2 + val st true b.1 b.2) with hm | hm
      · rw [hm]; exact h.sound dir i _ ht
      · rw [hm]
        obtain ⟨k1, w1⟩ := h.sound a.1 a.2 _ ha
        obtain ⟨k2, w2⟩ := h.sound b.1 b.2 _ hb
        rcases hc with ⟨c1, c2, c3⟩ | ⟨c1, c2, c3⟩
        · rw [c1, c2] at w1; rw [c3] at w2
          exact ⟨_, w1.append w2⟩
        · rw [c1, c2] at w2; rw [c3] at w1
          rw [add_comm]
          exact ⟨_, w2.append w1⟩
    · have : val st' true dir i = val st true dir i := by unfold val; rw [e3 dir i hd]
      rw [this]
      exact h.sound dir i _ hb'
  · intro e sc o hT dir
    obtain ⟨q1, q2⟩ := h.tri e sc o hT dir
    exact ⟨le_trans (hmono _ _) q1, le_trans (hmono _ _) q2⟩

theorem perfectTriangle_ok {st1 st : Both} {v y z edge sc other : Nat} {T : Nat → Nat → Nat → Prop} (h : NInv arcs U st1 v T st) (he : arcs[edge]? = some (v, y)) (hs : arcs[sc]? = some (y, z))
    (ho : arcs[other]? = some (v, z)) (hyv : y ≠ v) : ∃ st', perfectTriangle edge sc other st = some st' ∧ NInv arcs U st1 v (fun e s o => T e s o ∨ (e = edge ∧ s = sc ∧ o = other)) st' := by
  obtain ⟨s1, e1, h1, m1, v1⟩ := h.relax (t := (true, other)) (a := (true, edge)) (b := (true, sc)) ho rfl he hs (.inl ⟨rfl, rfl, rfl⟩)
  obtain ⟨s2, e2, h2, m2, v2⟩ := h1.relax (t := (true, edge)) (a := (true, other)) (b := (false, sc)) he rfl ho hs (.inl ⟨rfl, rfl, rfl⟩)
  obtain ⟨s3, e3, h3, m3, v3⟩ := h2.relax (t := (false, other)) (a := (false, edge)) (b := (false, sc)) ho rfl he hs (.inr ⟨rfl, rfl, rfl⟩)
  obtain ⟨s4, e4, h4, m4, v4⟩ := h3.relax (t := (false, edge)) (a := (false, other)) (b := (true, sc)) he rfl ho hs (.inr ⟨rfl, rfl, rfl⟩)
  have hsc : ∀ {s : Both} (h : NInv arcs U st1 v T s) dir, val s true dir sc = val st1 true dir sc := by
    intro s h dir
    unfold val; rw [h.frame dir sc _ hs hyv]
  refine ⟨s4, ?_, h4.len, h4.like, h4.frame, h4.le, h4.sound, ?_⟩
  · simp only [perfectTriangle, e1, e2, e3, e4, Option.bind_eq_bind, Option.bind_some]
  · rintro e s o (hT | ⟨rfl, rfl, rfl⟩) dir
    · exact h4.tri e s o hT dir
    · simp only at v1 v2 v3 v4
      rw [hsc h] at v1
      rw [hsc h1] at v2
      rw [hsc h2] at v3
      rw [hsc h3] at v4
      cases dir with
      | true =>
        constructor
        · have := h.le true e _ he; have := m2 true o; have := m3 true o; have := m4 true o; linarith
        · have := h1.le true o _ ho; have := m3 true e; have := m4 true e; simp only [Bool.not_true]; linarith
      | false =>
        constructor
        · have := h2.le false e _ he; have := m4 false o; linarith
        · have := h3.le false o _ ho; simp only [Bool.not_false]; linarith

theorem edgeTo_some (hT : HierarchyOK arcs n par) {v w o : Nat} : edgeTo arcs v w = some o ↔ arcs[o]? = some (v, w) := by
  unfold edgeTo
  rw [Option.map_eq_some_iff]
  constructor
  · rintro ⟨⟨w', o'⟩, h1, h2⟩
    simp only at h2; subst h2
    have hm := List.mem_of_find?_eq_some h1
    have hp := List.find?_some h1
    simp only [beq_iff_eq] at hp; subst hp
    rw [List.mem_reverse] at hm
    exact mem_neighbors.1 hm
  · intro h
    cases hf : (neighbors arcs v).reverse.find? (fun p => p.1 == w) with
    | none =>
      rw [List.find?_eq_none] at hf
      have : False := by simpa using hf (w, o) (by rw [List.mem_reverse]; exact mem_neighbors.2 h)
      exact this.elim
    | some p =>
      obtain ⟨w', o'⟩ := p
      have hm := List.mem_of_find?_eq_some hf
      have hp := List.find?_some hf
      simp only [beq_iff_eq] at hp; subst hp
      rw [List.mem_reverse] at hm
      exact ⟨_, rfl, hT.unique o' o _ (mem_neighbors.1 hm) h⟩

theorem NInv.congr {st1 st : Both} {v : Nat} {T T' : Nat → Nat → Nat → Prop} (h : NInv arcs U st1 v T st) (hT : ∀ e s o, T' e s o → T e s o) : NInv arcs U st1 v T' st :=
  ⟨h.len, h.like, h.frame, h.le, h.sound, fun e s o ht => h.tri e s o (hT e s o ht)⟩

theorem perfectNode_ok (hT : HierarchyOK arcs n par) {st1 : Both} {v : Nat} (h : NInv arcs U st1 v (fun _ _ _ => False) st1) :
    ∃ st', perfectNode arcs st1 v = some st' ∧ NInv arcs U st1 v (fun e s o => ∃ y z, arcs[e]? = some (v, y) ∧ arcs[s]? = some (y, z) ∧ arcs[o]? = some (v, z)) st' := by
  obtain ⟨st', e1, e2⟩ := GraphOps.foldlM_inv (fun st q => (neighbors arcs q.1).foldlM (perfectEdge arcs v q.2) st)
    (fun P st => NInv arcs U st1 v (fun e s o => ∃ y z, (y, e) ∈ P ∧ arcs[s]? = some (y, z) ∧ arcs[o]? = some (v, z)) st) (neighbors arcs v) (by
    rintro P ⟨y, e⟩ Q st hE hP
    have he : arcs[e]? = some (v, y) := mem_neighbors.1 (by rw [hE]; simp)
    have hvy := (hT.up _ _ he).1
    simp only at hvy
    obtain ⟨st', k1, k2⟩ := GraphOps.foldlM_inv (perfectEdge arcs v e)
      (fun P' st => NInv arcs U st1 v (fun e' s o => (∃ y z, (y, e') ∈ P ∧ arcs[s]? = some (y, z) ∧ arcs[o]? = some (v, z)) ∨ (e' = e ∧ ∃ z, (z, s) ∈ P' ∧ arcs[o]? = some (v, z))) st)
      (neighbors arcs y) (by
      rintro P' ⟨z, sc⟩ Q' st hE' hP'
      have hs : arcs[sc]? = some (y, z) := mem_neighbors.1 (by rw [hE']; simp)
      unfold perfectEdge
      cases ho : edgeTo arcs v z with
      | none =>
        refine ⟨st, by simp, hP'.congr ?_⟩
        rintro e' s o (h | ⟨h1, z', h2, h3⟩)
        · exact .inl h
        · simp only [List.mem_append, List.mem_cons, Prod.mk.injEq, List.not_mem_nil, or_false] at h2
          rcases h2 with h2 | ⟨rfl, rfl⟩
          · exact .inr ⟨h1, z', h2, h3⟩
          · rw [← edgeTo_some hT, ho] at h3; exact (nomatch h3)
      | some o =>
        have ho' := (edgeTo_some hT).1 ho
        obtain ⟨st', t1, t2⟩ := perfectTriangle_ok hP' he hs ho' (by omega)
        refine ⟨st', by simpa using t1, t2.congr ?_⟩
        rintro e' s o' (h | ⟨h1, z', h2, h3⟩)
        · exact .inl (.inl h)
        · simp only [List.mem_append, List.mem_cons, Prod.mk.injEq, List.not_mem_nil, or_false] at h2
          rcases h2 with h2 | ⟨rfl, rfl⟩
          · exact .inl (.inr ⟨h1, z', h2, h3⟩)
          · exact .inr ⟨h1, rfl, hT.unique _ _ _ h3 ho'⟩) st (hP.congr (by
        rintro e' s o (h | ⟨_, z, h, _⟩)
        · exact h
        · exact (nomatch h)))
    refine ⟨st', k1, k2.congr ?_⟩
    rintro e' s o ⟨y', z, h1, h2, h3⟩
    simp only [List.mem_append, List.mem_cons, Prod.mk.injEq, List.not_mem_nil, or_false] at h1
    rcases h1 with h1 | ⟨rfl, rfl⟩
    · exact .inl ⟨y', z, h1, h2, h3⟩
    · exact .inr ⟨rfl, z, mem_neighbors.2 h2, h3⟩) st1 (h.congr (by
      rintro e s o ⟨y, z, h, _⟩
      exact (nomatch h)))
  refine ⟨st', e1, e2.congr ?_⟩
  rintro e s o ⟨y, z, h1, h2, h3⟩
  exact ⟨y, z, mem_neighbors.2 h1, h2, h3⟩

/-- after the nodes from `v` on; `st0` is the state before -/
structure PfInv (arcs : List (Nat × Nat)) (U : Bool → Nat → Rat) (st0 : Both) (v : Nat) (st : Both) : Prop where
  len : Lens arcs st
  like : ∀ (dir : Bool) (i : Nat) (s : Shortcut), (side st0 dir)[i]? = some s → ∃ s', (side st dir)[i]? = some s' ∧ Like s s'
  le : ∀ (dir : Bool) (i : Nat) (a : Nat × Nat), arcs[i]? = some a → val st true dir i ≤ U dir i
  sound : ∀ (dir : Bool) (i : Nat) (a : Nat × Nat), arcs[i]? = some a → ∃ k, Wk arcs U k (a0 dir a) (a1 dir a) (val st true dir i)
  exact : ∀ (dir : Bool) (i : Nat) (a : Nat × Nat), arcs[i]? = some a → v ≤ a.1 → ∀ k x, Wk arcs U k (a0 dir a) (a1 dir a) x → val st true dir i ≤ x

theorem perfect_step (hT : HierarchyOK arcs n par) (hN : ∀ dir i a, arcs[i]? = some a → 0 ≤ U dir i) (hU : Tri arcs U) {st0 st : Both} {v : Nat} (h : PfInv arcs U st0 (v + 1) st) :
    ∃ st', perfectNode arcs st v = some st' ∧ PfInv arcs U st0 v st' := by
  obtain ⟨st', e1, e2⟩ := perfectNode_ok (U := U) (st1 := st) (v := v) hT ⟨h.len, fun dir i s hs => ⟨s, hs, .refl _⟩, fun _ _ _ _ _ => rfl, h.le, h.sound, fun _ _ _ h => h.elim⟩
  refine ⟨st', e1, e2.len, ?_, e2.le, e2.sound, ?_⟩
  · intro dir i s hs
    obtain ⟨s1, h1, h2⟩ := h.like dir i s hs
    obtain ⟨s2, h3, h4⟩ := e2.like dir i s1 h1
    exact ⟨s2, h3, h2.trans h4⟩
  · rintro dir i ⟨v', w⟩ ha hv k x hx
    by_cases e : v' = v
    · subst e
      have hvw := (hT.up _ _ ha).1
      simp only at hvw
      -- the way of two arcs over another higher neighbour
      have key : ∀ (e y : Nat) (x' : Rat), arcs[e]? = some (v', y) → (∃ l, if dir then Wk arcs U l y w x' else Wk arcs U l w y x') → val st' true dir i ≤ U dir e + x' := by
        intro e y x' he hl
        have hvy := (hT.up _ _ he).1
        simp only at hvy
        obtain ⟨l, hl⟩ := hl
        by_cases hyw : y = w
        · subst hyw
          have := hT.unique e i _ he ha
          subst this
          have h0 : 0 ≤ x' := by
            cases dir <;> simp only [Bool.false_eq_true, if_false, if_true] at hl <;> exact hl.nonneg hN
          have := e2.le dir e _ he
          linarith
        · rcases Nat.lt_or_ge y w with hlt | hge
          · obtain ⟨j, hj⟩ := List.mem_iff_getElem?.1 (hT.chordal v' y w (List.mem_iff_getElem?.2 ⟨_, he⟩) (List.mem_iff_getElem?.2 ⟨_, ha⟩) hlt)
            have h1 := (e2.tri e j i ⟨y, w, he, hj, ha⟩ dir).1
            have h2 : val st true dir j ≤ x' := h.exact dir j _ hj (by simp only; omega) l x' (by cases dir <;> simpa [a0, a1] using hl)
            linarith
          · obtain ⟨j, hj⟩ := List.mem_iff_getElem?.1 (hT.chordal v' w y (List.mem_iff_getElem?.2 ⟨_, ha⟩) (List.mem_iff_getElem?.2 ⟨_, he⟩) (by omega))
            have h1 := (e2.tri i j e ⟨w, y, ha, hj, he⟩ dir).2
            have h2 : val st true (!dir) j ≤ x' := h.exact (!dir) j _ hj (by simp only; omega) l x' (by cases dir <;> simpa [a0, a1] using hl)
            linarith
      cases dir with
      | true =>
        obtain ⟨e, y, l, x', q1, q2, _, q3⟩ := first_up hT hN hU k hvw hx
        exact le_trans (key e y x' q1 ⟨l, by simpa using q2⟩) q3
      | false =>
        obtain ⟨e, y, l, x', q1, q2, _, q3⟩ := first_up hT (W := fun dir i => U (!dir) i) (fun dir i a ha => hN (!dir) i a ha) hU.rev k hvw (Wk.rev hx)
        have q2' := q2.rev
        simp only [Bool.not_not] at q2'
        exact le_trans (key e y x' q1 ⟨l, by simpa using q2'⟩) q3
    · have : val st' true dir i = val st true dir i := by unfold val; rw [e2.frame dir i _ ha e]
      rw [this]
      exact h.exact dir i _ ha (by simp only at hv ⊢; omega) k x hx

/-- The perfect customization computes distances. -/
theorem perfect_all (hT : HierarchyOK arcs n par) {st0 : Both} (hl : Lens arcs st0) (hN : ∀ dir i a, arcs[i]? = some a → 0 ≤ val st0 true dir i) (hU : Tri arcs (val st0 true)) :
    ∃ st, perfectAll arcs n st0 = some st ∧ PfInv arcs (val st0 true) st0 0 st := by
  have key : ∀ k, k ≤ n → ∀ st, PfInv arcs (val st0 true) st0 k st → ∃ st', (List.range k).reverse.foldlM (perfectNode arcs) st = some st' ∧ PfInv arcs (val st0 true) st0 0 st' := by
    intro k
    induction k with
    | zero => intro _ st h; exact ⟨st, rfl, h⟩
    | succ k ih =>
      intro hk st h
      obtain ⟨st1, h1, h2⟩ := perfect_step hT hN hU h
      obtain ⟨st', h3, h4⟩ := ih (by omega) st1 h2
      refine ⟨st', ?_, h4⟩
      rw [List.range_succ, List.reverse_append, List.reverse_singleton, List.singleton_append, List.foldlM_cons]
      simp only [h1, Option.bind_eq_bind, Option.bind_some, h3]
  refine key n (le_refl _) st0 ⟨hl, fun dir i s hs => ⟨s, hs, .refl _⟩, fun _ _ _ _ => le_refl _, fun dir i a ha => ⟨1, .single dir ha⟩, ?_⟩
  intro dir i a ha hv
  have := hT.up _ _ ha
  omega

end Verif.Ftd
