import Verif.Proof.FtdGraph
import Verif.Model.FtdPost
import Verif.Spec.FtdPost
set_option linter.unusedSimpArgs false
set_option linter.unusedVariables false
/- The post-customization: what is switched off is never on a fastest way, and the arcs of the shortcuts that are kept are kept. -/
namespace Verif.Ftd
open Spec Fl Catchup

variable {c : Cfg} {R : Network} {arcs : List (Nat × Nat)} {orig : Bool → Nat → Option Nat} {n : Nat} {par : Nat → Option Nat} {g : Ghost}

/-! ## Perfect customization -/

/-- Upper bounds after the perfect customization are lengths of walks. -/
theorem perfect_sound (hT : HierarchyOK arcs n par) {st0 : Both} (hl : Lens arcs st0) :
    ∃ st, perfectAll arcs n st0 = some st ∧ Lens arcs st ∧ (∀ (dir : Bool) (i : Nat) (s : Shortcut), (side st0 dir)[i]? = some s → ∃ s', (side st dir)[i]? = some s' ∧ Like s s') ∧
      ∀ (dir : Bool) (i : Nat) (a : Nat × Nat), arcs[i]? = some a → ∃ k, Wk arcs (val st0 true) k (a0 dir a) (a1 dir a) (val st true dir i) := by
  obtain ⟨st, h1, h2⟩ := GraphOps.foldlM_inv (perfectNode arcs)
    (fun _ st => Lens arcs st ∧ (∀ (dir : Bool) (i : Nat) (s : Shortcut), (side st0 dir)[i]? = some s → ∃ s', (side st dir)[i]? = some s' ∧ Like s s') ∧
      (∀ (dir : Bool) (i : Nat) (a : Nat × Nat), arcs[i]? = some a → val st true dir i ≤ val st0 true dir i) ∧
      ∀ (dir : Bool) (i : Nat) (a : Nat × Nat), arcs[i]? = some a → ∃ k, Wk arcs (val st0 true) k (a0 dir a) (a1 dir a) (val st true dir i)) (List.range n).reverse (by
    rintro P v Q st _ ⟨k1, k2, k3, k4⟩
    obtain ⟨st', e1, e2⟩ := perfectNode_ok (U := val st0 true) (st1 := st) (v := v) hT ⟨k1, fun dir i s hs => ⟨s, hs, .refl _⟩, fun _ _ _ _ _ => rfl, k3, k4, fun _ _ _ h => h.elim⟩
    refine ⟨st', e1, e2.len, ?_, e2.le, e2.sound⟩
    intro dir i s hs
    obtain ⟨s1, h1, h2⟩ := k2 dir i s hs
    obtain ⟨s2, h3, h4⟩ := e2.like dir i s1 h1
    exact ⟨s2, h3, h2.trans h4⟩) st0 ⟨hl, fun dir i s hs => ⟨s, hs, .refl _⟩, fun _ _ _ _ => le_refl _, fun dir i a ha => ⟨1, .single dir ha⟩⟩
  exact ⟨st, h1, h2.1, h2.2.1, h2.2.2.2⟩

/-- walks with valid upper bounds -/
theorem walk_within {W : Bool → Nat → Rat} (hN : ∀ dir i a, arcs[i]? = some a → 0 ≤ W dir i) (hW : ∀ (dir : Bool) (i : Nat) (a : Nat × Nat), arcs[i]? = some a → UpOK R (a0 dir a) (a1 dir a) (W dir i))
    {k u v : Nat} {x : Rat} (h : Wk arcs W k u v x) : UpOK R u v x := by
  induction h with
  | nil v => intro _ t; exact ⟨0, le_refl _, by rw [add_zero]; exact .here _ _⟩
  | @cons k i a v x dir ha hw ih =>
    intro hlt
    have h1 := hN dir i a ha
    have h2 := hw.nonneg hN
    exact Within.append (hW dir i a ha (by linarith)) (ih (by linarith))

/-! ## States of the post-customization -/

/-- Each shortcut that the main customization has kept still has its function, and if it is switched off now, it is never on a fastest way. -/
structure Mid (c : Cfg) (R : Network) (arcs : List (Nat × Nat)) (orig : Bool → Nat → Option Nat) (g : Ghost) (st : Both) : Prop where
  len : Lens arcs st
  out : ∀ (dir : Bool) (i : Nat) (a : Nat × Nat) (s : Shortcut), arcs[i]? = some a → (side st dir)[i]? = some s → g dir i = none →
    s.required = false ∧ ∀ p ∈ s.sources, ∃ e, p.2 = .orig e
  kept : ∀ (dir : Bool) (i : Nat) (a : Nat × Nat) (s : Shortcut) (f : List Pt), arcs[i]? = some a → (side st dir)[i]? = some s → g dir i = some f →
    Kept c.ttf g.F (OkSrc arcs orig g dir i a) (UpOK R (a0 dir a) (a1 dir a)) s f ∧ ∀ t, Trip R (a0 dir a) t (a1 dir a) (t + fn f t)
  off : ∀ (dir : Bool) (i : Nat) (a : Nat × Nat) (s : Shortcut) (f : List Pt), arcs[i]? = some a → (side st dir)[i]? = some s → g dir i = some f → s.required = false →
    ∀ t x, fn f t ≤ x → Slow R (a0 dir a) (a1 dir a) t x

/-- a shortcut with another upper bound, switched off or not -/
theorem Kept.other {ttf : Nat → Option (List Pt)} {F : Bool → Nat → List Pt} {Ok : Src → Prop} {B : Rat → Prop} {s s' : Shortcut} {f : List Pt} (h : Kept ttf F Ok B s f)
    (h1 : s'.sources = s.sources) (h2 : s'.lower = s.lower) (h3 : s'.constant = s.constant) (h4 : 0 ≤ s'.upper) (h5 : B s'.upper ∨ ∀ t, fn f t ≤ s'.upper) : Kept ttf F Ok B s' f :=
  ⟨h.fun_, by rw [h1]; exact h.shape, by rw [h1]; exact h.val, by rw [h1]; exact h.ok, by rw [h2]; exact h.lo0, by rw [h2]; exact h.lo, h4, h5, by rw [h2, h3]; exact h.const⟩

/-- After the perfect customization, with dominated shortcuts switched off. -/
theorem dominated_ok (hT : HierarchyOK arcs n par) {L : Bool → Nat → Rat} {init st : Both} (h : Inv c R arcs orig L init (fun i => ∃ a, arcs[i]? = some a) n st g) :
    ∃ p, perfectAll arcs n st = some p ∧
      Mid c R arcs orig g (List.zipWith (dominated 0) p.1 (st.1.map (·.lower)), List.zipWith (dominated 0) p.2 (st.2.map (·.lower))) := by
  obtain ⟨p, e1, e2, e3, e4⟩ := perfect_sound hT h.len
  refine ⟨p, e1, ?_⟩
  have hU : ∀ (dir : Bool) (i : Nat) (a : Nat × Nat), arcs[i]? = some a → 0 ≤ val st true dir i ∧ UpOK R (a0 dir a) (a1 dir a) (val st true dir i) := by
    intro dir i a ha
    obtain ⟨s, hs⟩ := Lens.get h.len ha dir
    rw [val_eq hs]
    show 0 ≤ s.upper ∧ UpOK R (a0 dir a) (a1 dir a) s.upper
    have hd := h.done dir i a s ⟨a, ha⟩ ha hs
    cases hg : g dir i with
    | none =>
      obtain ⟨_, q, _⟩ := hd.out hg
      rw [q]
      exact ⟨by decide +kernel, fun h => absurd h (lt_irrefl _)⟩
    | some f =>
      obtain ⟨_, q, _, q2⟩ := hd.kept f hg
      refine ⟨q.up0, ?_⟩
      rcases q.up with q | q
      · exact q
      · exact fun _ t => ⟨fn f t, q t, q2 t⟩
  have hP : ∀ (dir : Bool) (i : Nat) (a : Nat × Nat), arcs[i]? = some a → 0 ≤ val p true dir i ∧ UpOK R (a0 dir a) (a1 dir a) (val p true dir i) := by
    intro dir i a ha
    obtain ⟨k, w⟩ := e4 dir i a ha
    exact ⟨w.nonneg (fun dir i a ha => (hU dir i a ha).1), walk_within (fun dir i a ha => (hU dir i a ha).1) (fun dir i a ha => (hU dir i a ha).2) w⟩
  have hside : ∀ dir, side (List.zipWith (dominated 0) p.1 (st.1.map (·.lower)), List.zipWith (dominated 0) p.2 (st.2.map (·.lower))) dir =
      List.zipWith (dominated 0) (side p dir) ((side st dir).map (·.lower)) := by intro dir; cases dir <;> rfl
  -- the new shortcut
  have hnew : ∀ (dir : Bool) (i : Nat) (a : Nat × Nat) (s : Shortcut), arcs[i]? = some a →
      (side (List.zipWith (dominated 0) p.1 (st.1.map (·.lower)), List.zipWith (dominated 0) p.2 (st.2.map (·.lower))) dir)[i]? = some s →
      ∃ s0, (side st dir)[i]? = some s0 ∧ s.sources = s0.sources ∧ s.lower = s0.lower ∧ s.constant = s0.constant ∧ s.upper = val p true dir i ∧
        s.required = (s0.required && !flt 0 (val p true dir i) s0.lower) := by
    intro dir i a s ha hs
    obtain ⟨s0, h0⟩ := Lens.get h.len ha dir
    obtain ⟨s1, h1, h2⟩ := e3 dir i s0 h0
    rw [hside, List.getElem?_zipWith, h1, List.getElem?_map, h0] at hs
    simp only [Option.map_some, Option.some.injEq] at hs
    have hv : val p true dir i = s1.upper := by rw [val_eq h1]; rfl
    rw [hv]
    unfold Like at h2
    refine ⟨s0, h0, ?_⟩
    rw [← hs]
    unfold dominated
    rcases Bool.eq_false_or_eq_true (flt 0 s1.upper s0.lower) with k | k
    · rw [if_pos k, k]
      refine ⟨by rw [h2], rfl, by rw [h2], rfl, by simp⟩
    · rw [if_neg (by rw [k]; simp), k]
      refine ⟨by rw [h2], rfl, by rw [h2], rfl, ?_⟩
      rw [h2]; simp
  constructor
  · intro dir
    rw [hside, List.length_zipWith, List.length_map, e2, h.len, Nat.min_self]
  · intro dir i a s ha hs hg
    obtain ⟨s0, h0, h1, h2, h3, h4, h5⟩ := hnew dir i a s ha hs
    obtain ⟨q1, _, q2, _⟩ := (h.done dir i a s0 ⟨a, ha⟩ ha h0).out hg
    rw [h5, q1, h1]
    exact ⟨rfl, q2⟩
  · intro dir i a s f ha hs hg
    obtain ⟨s0, h0, h1, h2, h3, h4, h5⟩ := hnew dir i a s ha hs
    obtain ⟨_, q1, _, q2⟩ := (h.done dir i a s0 ⟨a, ha⟩ ha h0).kept f hg
    refine ⟨q1.other h1 h2 h3 ?_ (.inl ?_), q2⟩
    · rw [h4]; exact (hP dir i a ha).1
    · rw [h4]; exact (hP dir i a ha).2
  · intro dir i a s f ha hs hg hr t x hx
    obtain ⟨s0, h0, h1, h2, h3, h4, h5⟩ := hnew dir i a s ha hs
    obtain ⟨q0, q1, _, q2⟩ := (h.done dir i a s0 ⟨a, ha⟩ ha h0).kept f hg
    rw [h5, q0] at hr
    simp only [Bool.true_and, Bool.not_eq_false'] at hr
    have hlt := flt_iff.1 hr
    rw [add_zero] at hlt
    have hlo := q1.lo t
    by_cases hI : val p true dir i < INF
    · obtain ⟨y, y1, y2⟩ := (hP dir i a ha).2 hI t
      exact .inr ⟨y, by linarith, y2⟩
    · exact .inl (by linarith)

/-! ## Switching off -/

theorem setSide_ok {st : Both} (hl : Lens arcs st) {dir : Bool} {i : Nat} {a : Nat × Nat} (ha : arcs[i]? = some a) (s : Shortcut) :
    ∃ st', setSide st dir i s = some st' ∧ Lens arcs st' ∧ (side st' dir)[i]? = some s ∧ ∀ (dir' : Bool) (j : Nat), (dir', j) ≠ (dir, i) → (side st' dir')[j]? = (side st dir')[j]? := by
  have hlt : i < arcs.length := (List.getElem?_eq_some_iff.1 ha).1
  have e : setSide st dir i s = some (if dir then ((side st dir).set i s, st.2) else (st.1, (side st dir).set i s)) := by
    simp only [setSide, upd, hl dir, hlt, if_true, Option.bind_eq_bind, Option.bind_some]
  generalize hst : (if dir then ((side st dir).set i s, st.2) else (st.1, (side st dir).set i s)) = st' at e
  have h1 : side st' dir = (side st dir).set i s := by rw [← hst]; cases dir <;> rfl
  have h2 : ∀ dir', dir' ≠ dir → side st' dir' = side st dir' := by intro dir' hd; rw [← hst]; cases dir <;> cases dir' <;> first | rfl | exact absurd rfl hd
  refine ⟨st', e, ?_, by rw [h1, List.getElem?_set_self (by rw [hl]; exact hlt)], ?_⟩
  · intro dir'
    by_cases hd : dir' = dir
    · subst hd; rw [h1, List.length_set]; exact hl _
    · rw [h2 dir' hd]; exact hl _
  · intro dir' j hne
    by_cases hd : dir' = dir
    · subst hd
      rw [h1, List.getElem?_set_ne (fun h => hne (by rw [h]))]
    · rw [h2 dir' hd]

/-- Replacing a shortcut by itself, switched off or on. -/
theorem Mid.set {st st' : Both} (h : Mid c R arcs orig g st) {dir : Bool} {i : Nat} {a : Nat × Nat} (ha : arcs[i]? = some a) {s : Shortcut} (hs : (side st dir)[i]? = some s) {b : Bool}
    (hl : Lens arcs st') (h1 : (side st' dir)[i]? = some { s with required := b }) (h2 : ∀ (dir' : Bool) (j : Nat), (dir', j) ≠ (dir, i) → (side st' dir')[j]? = (side st dir')[j]?)
    (hon : b = true → ∃ f, g dir i = some f) (hoff : b = false → ∀ f, g dir i = some f → ∀ t x, fn f t ≤ x → Slow R (a0 dir a) (a1 dir a) t x) : Mid c R arcs orig g st' := by
  have key : ∀ (dir' : Bool) (j : Nat) (s' : Shortcut), (side st' dir')[j]? = some s' → (dir' = dir ∧ j = i ∧ s' = { s with required := b }) ∨ (side st dir')[j]? = some s' := by
    intro dir' j s' hs'
    by_cases e : (dir', j) = (dir, i)
    · injection e with e1 e2
      subst e1; subst e2
      rw [h1] at hs'; injection hs' with hs'
      exact .inl ⟨rfl, rfl, hs'.symm⟩
    · rw [h2 dir' j e] at hs'; exact .inr hs'
  constructor
  · exact hl
  · intro dir' j a' s' ha' hs' hg
    rcases key dir' j s' hs' with ⟨rfl, rfl, rfl⟩ | hs'
    · rw [ha] at ha'; injection ha' with ha'; subst ha'
      refine ⟨?_, (h.out _ _ a s ha hs hg).2⟩
      cases b
      · rfl
      · obtain ⟨f, hf⟩ := hon rfl
        rw [hg] at hf; exact (nomatch hf)
    · exact h.out dir' j a' s' ha' hs' hg
  · intro dir' j a' s' f ha' hs' hg
    rcases key dir' j s' hs' with ⟨rfl, rfl, rfl⟩ | hs'
    · rw [ha] at ha'; injection ha' with ha'; subst ha'
      obtain ⟨q1, q2⟩ := h.kept _ _ a s f ha hs hg
      exact ⟨q1.other rfl rfl rfl q1.up0 q1.up, q2⟩
    · exact h.kept dir' j a' s' f ha' hs' hg
  · intro dir' j a' s' f ha' hs' hg hr
    rcases key dir' j s' hs' with ⟨rfl, rfl, rfl⟩ | hs'
    · rw [ha] at ha'; injection ha' with ha'; subst ha'
      exact hoff hr f hg
    · exact h.off dir' j a' s' f ha' hs' hg hr

/-- leaving earlier, one can arrive earlier -/
def Strict (R : Network) : Prop := ∀ u v τ y τ', R u v τ y → τ' < τ → ∃ y', y' < y ∧ R u v τ' y'

theorem Strict.trip (hS : Strict R) {u v : Nat} {τ y : Rat} (h : Trip R u τ v y) : ∀ τ', τ' < τ → ∃ y', y' < y ∧ Trip R u τ' v y' := by
  induction h with
  | here v τ => intro τ' h; exact ⟨τ', h, .here _ _⟩
  | there h1 _ ih =>
    intro τ' h
    obtain ⟨y', q1, q2⟩ := hS _ _ _ _ _ h1 h
    obtain ⟨z', q3, q4⟩ := ih y' q1
    exact ⟨z', q3, .there q2 q4⟩

/-- two arcs, one of which is never on a fastest way -/
theorem legs_slow (hS : Strict R) {st : Both} (h : Mid c R arcs orig g st) {p q z d u : Nat} {fd fu : List Pt} (hd : arcs[d]? = some (z, p)) (hu : arcs[u]? = some (z, q))
    (gd : g false d = some fd) (gu : g true u = some fu) {sd su : Shortcut} (hsd : (side st false)[d]? = some sd) (hsu : (side st true)[u]? = some su)
    (hoff : sd.required = false ∨ su.required = false) (t x : Rat) (hx : legSum fd fu t ≤ x) : Slow R p q t x := by
  unfold legSum at hx
  obtain ⟨k1, k2⟩ := h.kept false d _ sd fd hd hsd gd
  obtain ⟨m1, m2⟩ := h.kept true u _ su fu hu hsu gu
  simp only [a0, a1, Bool.false_eq_true, if_false, if_true] at k2 m2
  have n1 := fn_nonneg k1.fun_ t
  have n2 := fn_nonneg m1.fun_ (t + fn fd t)
  rcases hoff with ho | ho
  · have := h.off false d _ sd fd hd hsd gd ho t _ (le_refl _)
    simp only [a0, a1, Bool.false_eq_true, if_false] at this
    rcases this with h1 | ⟨y, y1, y2⟩
    · exact .inl (by linarith)
    · obtain ⟨Y, w1, w2⟩ := hS.trip (m2 (t + fn fd t)) (t + y) (by linarith)
      refine .inr ⟨Y - t, by linarith, ?_⟩
      rw [show t + (Y - t) = Y by ring]
      exact y2.append w2
  · have := h.off true u _ su fu hu hsu gu ho (t + fn fd t) _ (le_refl _)
    simp only [a0, a1, if_true] at this
    rcases this with h1 | ⟨y, y1, y2⟩
    · exact .inl (by linarith)
    · refine .inr ⟨fn fd t + y, by linarith, ?_⟩
      rw [← add_assoc]
      exact (k2 t).append y2

theorem disableArc_ok (hS : Strict R) {st : Both} (h : Mid c R arcs orig g st) {i : Nat} {a : Nat × Nat} (ha : arcs[i]? = some a) (dir : Bool) :
    ∃ st', disableArc dir st i = some st' ∧ Mid c R arcs orig g st' := by
  obtain ⟨s, hs⟩ := h.len.get ha dir
  -- the sources
  have hsrc : ∀ p ∈ s.sources, ∃ b, srcRequired st p.2 = some b ∧ ((∃ e, p.2 = .orig e) → b = true) ∧ (b = false → ∀ f, g dir i = some f → ∀ t, sourceAt s.sources t = some p.2 →
      ∀ x, fn f t ≤ x → Slow R (a0 dir a) (a1 dir a) t x) := by
    intro p hp
    cases hg : g dir i with
    | none =>
      obtain ⟨e, he⟩ := (h.out dir i a s ha hs hg).2 p hp
      exact ⟨true, by rw [he]; rfl, fun _ => rfl, fun h => (nomatch h)⟩
    | some f =>
      obtain ⟨q1, q2⟩ := h.kept dir i a s f ha hs hg
      have hok := q1.ok p hp
      cases hp2 : p.2 with
      | no => rw [hp2] at hok; exact hok.elim
      | orig e => exact ⟨true, rfl, fun _ => rfl, fun h => (nomatch h)⟩
      | short d u =>
        rw [hp2] at hok
        obtain ⟨z, fd, fu, d1, u1, gd, gu⟩ := hok
        obtain ⟨sd, hsd⟩ := h.len.get d1 false
        obtain ⟨su, hsu⟩ := h.len.get u1 true
        have hsd' : st.2[d]? = some sd := hsd
        have hsu' : st.1[u]? = some su := hsu
        refine ⟨sd.required && su.required, ?_, fun ⟨e, he⟩ => (nomatch he), ?_⟩
        · simp only [srcRequired, hsd', hsu', Option.bind_eq_bind, Option.bind_some, Option.map_some]
          cases sd.required <;> simp
        · intro hb f' hf' t ht x hx
          injection hf' with hf'; subst hf'
          have hv := q1.val t _ ht
          simp only [Val, Ghost.F, gd, gu, Option.getD_some] at hv
          rw [hv] at hx
          exact legs_slow hS h d1 u1 gd gu hsd hsu (Bool.and_eq_false_iff.1 hb) t x hx
  by_cases he : s.sources.isEmpty = true
  · have e : disableIf st s = some s := by simp only [disableIf, he, if_true]
    obtain ⟨st', k1, k2, k3, k4⟩ := setSide_ok h.len (dir := dir) ha s
    refine ⟨st', by simp only [disableArc, hs, e, Option.bind_eq_bind, Option.bind_some, k1], ?_⟩
    refine h.set ha hs (b := s.required) k2 k3 k4 ?_ ?_
    · intro hr
      cases hg : g dir i with
      | none => rw [(h.out dir i a s ha hs hg).1] at hr; exact (nomatch hr)
      | some f => exact ⟨f, rfl⟩
    · intro hr f hg
      exact h.off dir i a s f ha hs hg hr
  · obtain ⟨l, l1, l2, l3⟩ := mapM_some (f := fun p : Rat × Src => srcRequired st p.2) (l := s.sources) (fun p hp => by
      obtain ⟨b, q, _⟩ := hsrc p hp
      exact ⟨b, q⟩)
    have e : disableIf st s = some (if l.any id then s else { s with required := false }) := by
      simp only [disableIf, he, l1, Bool.false_eq_true, if_false, Option.bind_eq_bind, Option.bind_some]
    have e' : (if l.any id then s else { s with required := false }) = { s with required := (l.any id && s.required) } := by
      cases l.any id <;> rfl
    rw [e'] at e
    obtain ⟨st', k1, k2, k3, k4⟩ := setSide_ok h.len (dir := dir) ha { s with required := (l.any id && s.required) }
    refine ⟨st', by simp only [disableArc, hs, e, Option.bind_eq_bind, Option.bind_some, k1], ?_⟩
    refine h.set ha hs (b := (l.any id && s.required)) k2 k3 k4 ?_ ?_
    · intro hr
      rw [Bool.and_eq_true] at hr
      cases hg : g dir i with
      | none => rw [(h.out dir i a s ha hs hg).1] at hr; exact (nomatch hr.2)
      | some f => exact ⟨f, rfl⟩
    · intro hr f hg
      rw [Bool.and_eq_false_iff] at hr
      rcases hr with hr | hr
      · intro t x hx
        obtain ⟨q1, q2⟩ := h.kept dir i a s f ha hs hg
        obtain ⟨d, hd, _⟩ := atT_some q1.shape (t := (splitDay t).2) tod.1
        rw [← sourceAt_eq q1.shape] at hd
        obtain ⟨p, hp, e0⟩ := sourceAt_mem q1.shape hd
        obtain ⟨b, b1, b2, b3⟩ := hsrc p hp
        obtain ⟨j, hj⟩ := List.mem_iff_getElem?.1 hp
        obtain ⟨y, y1, y2⟩ := l3 j p hj
        rw [b1] at y1; injection y1 with y1; subst y1
        have hb : b = false := by
          rw [List.any_eq_false] at hr
          simpa using hr b (List.mem_of_getElem? y2)
        exact b3 hb f hg t (by rw [e0]; exact hd) x hx
      · exact h.off dir i a s f ha hs hg hr

theorem disable_ok (hS : Strict R) {st : Both} (h : Mid c R arcs orig g st) (n : Nat) : ∃ st', (List.range n).foldlM (disableNode arcs) st = some st' ∧ Mid c R arcs orig g st' := by
  have hids : ∀ (dir : Bool) (v : Nat) (st : Both), Mid c R arcs orig g st → ∃ st', (arcsOf arcs v).foldlM (disableArc dir) st = some st' ∧ Mid c R arcs orig g st' := by
    intro dir v st h
    exact GraphOps.foldlM_inv (disableArc dir) (fun _ st => Mid c R arcs orig g st) (arcsOf arcs v) (by
      intro P i Q st hE h
      obtain ⟨a, ha, _⟩ := mem_arcsOf.1 (show i ∈ arcsOf arcs v by rw [hE]; simp)
      exact disableArc_ok hS h ha dir) st h
  refine GraphOps.foldlM_inv (disableNode arcs) (fun _ st => Mid c R arcs orig g st) (List.range n) ?_ st h
  intro P v Q st _ h
  obtain ⟨s1, h1, h2⟩ := hids true v st h
  obtain ⟨s2, h3, h4⟩ := hids false v s1 h2
  exact ⟨s2, by simp only [disableNode, h1, h3, Option.bind_eq_bind, Option.bind_some], h4⟩

/-! ## Switching on again -/

/-- From `st` to `st'` only shortcuts of nodes below `v` that the main customization has kept are switched on. -/
structure Grow (arcs : List (Nat × Nat)) (g : Ghost) (v : Nat) (st st' : Both) : Prop where
  len : Lens arcs st'
  get : ∀ (dir : Bool) (i : Nat) (a : Nat × Nat) (s : Shortcut), arcs[i]? = some a → (side st dir)[i]? = some s →
    ∃ b, (side st' dir)[i]? = some { s with required := b } ∧ (b = s.required ∨ (b = true ∧ a.1 < v ∧ ∃ f, g dir i = some f))

theorem Grow.refl {st : Both} (h : Lens arcs st) (v : Nat) : Grow arcs g v st st := ⟨h, fun dir i a s _ hs => ⟨s.required, hs, .inl rfl⟩⟩

theorem Grow.trans {v : Nat} {s1 s2 s3 : Both} (h : Grow arcs g v s1 s2) (h2 : Grow arcs g v s2 s3) : Grow arcs g v s1 s3 := by
  refine ⟨h2.len, ?_⟩
  intro dir i a s ha hs
  obtain ⟨b, q1, q2⟩ := h.get dir i a s ha hs
  obtain ⟨b', q3, q4⟩ := h2.get dir i a _ ha q1
  refine ⟨b', q3, ?_⟩
  rcases q4 with q4 | q4
  · simp only at q4; subst q4; exact q2
  · exact .inr q4

/-- what is on stays on -/
theorem Grow.on {v : Nat} {st st' : Both} (h : Grow arcs g v st st') {dir : Bool} {i : Nat} {a : Nat × Nat} {s : Shortcut} (ha : arcs[i]? = some a) (hs : (side st dir)[i]? = some s)
    (hr : s.required = true) : ∃ s', (side st' dir)[i]? = some s' ∧ s'.required = true := by
  obtain ⟨b, q1, q2⟩ := h.get dir i a s ha hs
  refine ⟨_, q1, ?_⟩
  rcases q2 with q2 | q2
  · exact q2.trans hr
  · exact q2.1

theorem Grow.mid {v : Nat} {st st' : Both} (h : Mid c R arcs orig g st) (hG : Grow arcs g v st st') : Mid c R arcs orig g st' := by
  have key : ∀ (dir : Bool) (i : Nat) (a : Nat × Nat) (s' : Shortcut), arcs[i]? = some a → (side st' dir)[i]? = some s' → ∃ s b, (side st dir)[i]? = some s ∧ s' = { s with required := b } ∧
      (b = s.required ∨ (b = true ∧ a.1 < v ∧ ∃ f, g dir i = some f)) := by
    intro dir i a s' ha hs'
    obtain ⟨s, hs⟩ := h.len.get ha dir
    obtain ⟨b, q1, q2⟩ := hG.get dir i a s ha hs
    rw [q1] at hs'; injection hs' with hs'
    exact ⟨s, b, hs, hs'.symm, q2⟩
  constructor
  · exact hG.len
  · intro dir i a s' ha hs' hg
    obtain ⟨s, b, hs, rfl, hb⟩ := key dir i a s' ha hs'
    obtain ⟨q1, q2⟩ := h.out dir i a s ha hs hg
    refine ⟨?_, q2⟩
    rcases hb with hb | ⟨_, _, f, hf⟩
    · exact hb.trans q1
    · rw [hg] at hf; exact (nomatch hf)
  · intro dir i a s' f ha hs' hg
    obtain ⟨s, b, hs, rfl, hb⟩ := key dir i a s' ha hs'
    obtain ⟨q1, q2⟩ := h.kept dir i a s f ha hs hg
    exact ⟨q1.other rfl rfl rfl q1.up0 q1.up, q2⟩
  · intro dir i a s' f ha hs' hg hr
    obtain ⟨s, b, hs, rfl, hb⟩ := key dir i a s' ha hs'
    simp only at hr
    subst hr
    rcases hb with hb | hb
    · exact h.off dir i a s f ha hs hg hb.symm
    · exact (nomatch hb.1)

/-- the arcs of a shortcut that is kept are kept -/
def Closed (st : Both) (dir : Bool) (i : Nat) : Prop := ∀ s, (side st dir)[i]? = some s → s.required = true → ∀ p ∈ s.sources, ∀ d u, p.2 = .short d u →
  (∃ sd, st.2[d]? = some sd ∧ sd.required = true) ∧ ∃ su, st.1[u]? = some su ∧ su.required = true

theorem enable_ok {st : Both} (hl : Lens arcs st) {v : Nat} {dir : Bool} {i : Nat} {a : Nat × Nat} (ha : arcs[i]? = some a) (hv : a.1 < v) {f : List Pt} (hg : g dir i = some f) :
    ∃ st', enable dir i st = some st' ∧ Grow arcs g v st st' ∧ ∃ s, (side st' dir)[i]? = some s ∧ s.required = true := by
  obtain ⟨s, hs⟩ := hl.get ha dir
  obtain ⟨st', k1, k2, k3, k4⟩ := setSide_ok hl (dir := dir) ha { s with required := true }
  refine ⟨st', by simp only [enable, hs, Option.bind_eq_bind, Option.bind_some, k1], ⟨k2, ?_⟩, _, k3, rfl⟩
  intro dir' j a' s' ha' hs'
  by_cases e : (dir', j) = (dir, i)
  · injection e with e1 e2
    subst e1; subst e2
    rw [hs] at hs'; injection hs' with hs'; subst hs'
    rw [ha] at ha'; injection ha' with ha'; subst ha'
    exact ⟨true, k3, .inr ⟨rfl, hv, f, hg⟩⟩
  · exact ⟨s'.required, by rw [k4 dir' j e]; exact hs', .inl rfl⟩

theorem enableSrc_ok (hT : HierarchyOK arcs n par) {st : Both} (hl : Lens arcs st) {dir : Bool} {i : Nat} {a : Nat × Nat} (ha : arcs[i]? = some a) {p : Rat × Src}
    (hp : OkSrc arcs orig g dir i a p.2) : ∃ st', enableSrc st p = some st' ∧ Grow arcs g a.1 st st' ∧
      ∀ d u, p.2 = .short d u → (∃ z y, arcs[d]? = some (z, y)) ∧ (∃ z y, arcs[u]? = some (z, y)) ∧ (∃ sd, st'.2[d]? = some sd ∧ sd.required = true) ∧ ∃ su, st'.1[u]? = some su ∧ su.required = true := by
  unfold enableSrc
  cases hp2 : p.2 with
  | no => exact ⟨st, rfl, .refl hl _, fun d u h => (nomatch h)⟩
  | orig e => exact ⟨st, rfl, .refl hl _, fun d u h => (nomatch h)⟩
  | short d u =>
    rw [hp2] at hp
    obtain ⟨z, fd, fu, d1, u1, gd, gu⟩ := hp
    have hz := leg_lt hT (hT.up _ _ ha).1 d1 u1
    obtain ⟨s1, e1, w1, sd, o1, o2⟩ := enable_ok hl (v := a.1) d1 hz gd
    obtain ⟨s2, e2, w2, su, o3, o4⟩ := enable_ok w1.len (v := a.1) u1 hz gu
    refine ⟨s2, by simp only [e1, e2, Option.bind_eq_bind, Option.bind_some], w1.trans w2, ?_⟩
    intro d' u' h
    injection h with h1 h2
    subst h1; subst h2
    exact ⟨⟨_, _, d1⟩, ⟨_, _, u1⟩, w2.on d1 o1 o2, su, o3, o4⟩

theorem reenableArc_ok (hT : HierarchyOK arcs n par) {st : Both} (h : Mid c R arcs orig g st) {dir : Bool} {i : Nat} {a : Nat × Nat} (ha : arcs[i]? = some a) :
    ∃ st', reenableArc 0 dir st i = some st' ∧ Grow arcs g a.1 st st' ∧ Closed st' dir i := by
  obtain ⟨s, hs⟩ := h.len.get ha dir
  have same : ∀ {st' : Both}, Grow arcs g a.1 st st' → (side st' dir)[i]? = some s := by
    intro st' hG
    obtain ⟨b, q1, q2⟩ := hG.get dir i a s ha hs
    rcases q2 with q2 | ⟨_, q2, _⟩
    · rw [q1, q2]
    · omega
  rcases Bool.eq_false_or_eq_true s.required with hr | hr
  · cases hg : g dir i with
    | none => rw [(h.out dir i a s ha hs hg).1] at hr; exact (nomatch hr)
    | some f =>
      obtain ⟨q1, _⟩ := h.kept dir i a s f ha hs hg
      obtain ⟨st', e1, e2, e3⟩ := GraphOps.foldlM_inv enableSrc (fun P st' => Grow arcs g a.1 st st' ∧ ∀ p ∈ P, ∀ d u, p.2 = .short d u →
          (∃ sd, st'.2[d]? = some sd ∧ sd.required = true) ∧ ∃ su, st'.1[u]? = some su ∧ su.required = true) s.sources (by
        rintro P p Q s1 hE ⟨w1, w2⟩
        have hin : ∀ q, q ∈ P ∨ q = p → q ∈ s.sources := by intro q hq; rw [hE]; rcases hq with hq | hq <;> simp [hq]
        obtain ⟨s2, k1, k2, k3⟩ := enableSrc_ok hT w1.len ha (q1.ok p (hin p (.inr rfl)))
        refine ⟨s2, k1, w1.trans k2, ?_⟩
        intro q hq d u hqs
        rw [List.mem_append, List.mem_singleton] at hq
        rcases hq with hq | rfl
        · obtain ⟨⟨sd, o1, o2⟩, su, o3, o4⟩ := w2 q hq d u hqs
          have hok := q1.ok q (hin q (.inl hq))
          rw [hqs] at hok
          obtain ⟨z, fd, fu, d1, u1, _, _⟩ := hok
          exact ⟨k2.on (dir := false) d1 o1 o2, k2.on (dir := true) u1 o3 o4⟩
        · exact (k3 d u hqs).2.2) st ⟨.refl h.len _, fun p hp => (nomatch hp)⟩
      refine ⟨st', by simp only [reenableArc, hs, hr, sourcesIter_eq q1.shape, Option.bind_eq_bind, Option.bind_some, if_true, e1], e2, ?_⟩
      intro s' hs' _ p hp
      rw [same e2] at hs'; injection hs' with hs'; subst hs'
      exact e3 p hp
  · refine ⟨st, by simp only [reenableArc, hs, hr, Bool.false_eq_true, if_false, Option.bind_eq_bind, Option.bind_some], .refl h.len _, ?_⟩
    intro s' hs' hr'
    rw [hs] at hs'; injection hs' with hs'; subst hs'
    rw [hr] at hr'; exact (nomatch hr')

/-- processed shortcuts stay closed -/
theorem Closed.grow {v : Nat} {st st' : Both} (h : Mid c R arcs orig g st) (hG : Grow arcs g v st st') {dir : Bool} {i : Nat} {a : Nat × Nat} (ha : arcs[i]? = some a) (hv : v ≤ a.1)
    (hc : Closed st dir i) : Closed st' dir i := by
  intro s' hs' hr p hp d u hpd
  obtain ⟨s, hs⟩ := h.len.get ha dir
  obtain ⟨b, q1, q2⟩ := hG.get dir i a s ha hs
  rcases q2 with q2 | ⟨_, q2, _⟩
  swap
  · omega
  rw [q1, q2] at hs'; injection hs' with hs'; subst hs'
  obtain ⟨⟨sd, o1, o2⟩, su, o3, o4⟩ := hc s hs hr p hp d u hpd
  cases hg : g dir i with
  | none =>
    obtain ⟨e, he⟩ := (h.out dir i a s ha hs hg).2 p hp
    rw [he] at hpd; exact (nomatch hpd)
  | some f =>
    have hok := (h.kept dir i a s f ha hs hg).1.ok p hp
    rw [hpd] at hok
    obtain ⟨z, fd, fu, d1, u1, _, _⟩ := hok
    exact ⟨hG.on (dir := false) d1 o1 o2, hG.on (dir := true) u1 o3 o4⟩

theorem reenable_ok (hT : HierarchyOK arcs n par) {st : Both} (h : Mid c R arcs orig g st) : ∃ st', (List.range n).reverse.foldlM (reenableNode 0 arcs) st = some st' ∧
    Mid c R arcs orig g st' ∧ ∀ (dir : Bool) (i : Nat) (a : Nat × Nat), arcs[i]? = some a → Closed st' dir i := by
  -- the arcs of a node in one direction
  have hids : ∀ (dir : Bool) (v : Nat) (st : Both), Mid c R arcs orig g st → ∃ st', (arcsOf arcs v).foldlM (reenableArc 0 dir) st = some st' ∧ Grow arcs g v st st' ∧
      ∀ i ∈ arcsOf arcs v, Closed st' dir i := by
    intro dir v st h
    refine GraphOps.foldlM_inv (reenableArc 0 dir) (fun P st' => Grow arcs g v st st' ∧ ∀ i ∈ P, Closed st' dir i) (arcsOf arcs v) ?_ st ⟨.refl h.len _, fun i hi => (nomatch hi)⟩
    rintro P i Q s1 hE ⟨w1, w2⟩
    obtain ⟨a, ha, hav⟩ := mem_arcsOf.1 (show i ∈ arcsOf arcs v by rw [hE]; simp)
    have hm := w1.mid h
    obtain ⟨s2, k1, k2, k3⟩ := reenableArc_ok hT hm (dir := dir) ha
    rw [hav] at k2
    refine ⟨s2, k1, w1.trans k2, ?_⟩
    intro j hj
    rw [List.mem_append, List.mem_singleton] at hj
    rcases hj with hj | rfl
    · obtain ⟨b, hb, hbv⟩ := mem_arcsOf.1 (show j ∈ arcsOf arcs v by rw [hE]; simp [hj])
      exact (w2 j hj).grow hm k2 hb (by omega)
    · exact k3
  have key : ∀ k st, Mid c R arcs orig g st → (∀ (dir : Bool) (i : Nat) (a : Nat × Nat), arcs[i]? = some a → k ≤ a.1 → Closed st dir i) →
      ∃ st', (List.range k).reverse.foldlM (reenableNode 0 arcs) st = some st' ∧ Mid c R arcs orig g st' ∧ ∀ (dir : Bool) (i : Nat) (a : Nat × Nat), arcs[i]? = some a → Closed st' dir i := by
    intro k
    induction k with
    | zero => intro st h hc; exact ⟨st, rfl, h, fun dir i a ha => hc dir i a ha (Nat.zero_le _)⟩
    | succ k ih =>
      intro st h hc
      obtain ⟨s1, e1, w1, c1⟩ := hids true k st h
      have m1 := w1.mid h
      obtain ⟨s2, e2, w2, c2⟩ := hids false k s1 m1
      have m2 := w2.mid m1
      obtain ⟨st', h3, h4⟩ := ih s2 m2 (by
        intro dir i a ha hk
        by_cases e : a.1 = k
        · have hm : i ∈ arcsOf arcs k := mem_arcsOf.2 ⟨a, ha, e⟩
          cases dir
          · exact c2 i hm
          · exact (c1 i hm).grow m1 w2 ha (by omega)
        · exact ((hc dir i a ha (by omega)).grow h w1 ha (by omega)).grow m1 w2 ha (by omega))
      refine ⟨st', ?_, h4⟩
      rw [List.range_succ, List.reverse_append, List.reverse_singleton, List.singleton_append, List.foldlM_cons]
      simp only [reenableNode, e1, e2, Option.bind_eq_bind, Option.bind_some, h3]
  exact key n st h (by
    intro dir i a ha hn
    have := hT.up _ _ ha
    omega)

/-! ## All together -/

/-- After the post-customization there is all that the query relies on. -/
theorem post_ok (hT : HierarchyOK arcs n par) (hS : Strict R) {L : Bool → Nat → Rat} {init st : Both} (h : Inv c R arcs orig L init (fun i => ∃ a, arcs[i]? = some a) n st g) :
    ∃ st' g', postcustomize 0 arcs n st = some st' ∧ Fin c R arcs orig st' g' := by
  obtain ⟨p, e1, m1⟩ := dominated_ok hT h
  obtain ⟨s, e2, m2⟩ := disable_ok hS m1 n
  obtain ⟨r, e3, m3, hcl⟩ := reenable_ok hT m2
  have hside : ∀ dir, side (r.1.map closeOff, r.2.map closeOff) dir = (side r dir).map closeOff := by intro dir; cases dir <;> rfl
  let g' : Ghost := fun dir i => ((side r dir)[i]?).bind (fun s => if s.required then g dir i else none)
  have hsome : ∀ (dir : Bool) (i : Nat) (f : List Pt), g' dir i = some f → g dir i = some f ∧ ∃ s, (side r dir)[i]? = some s ∧ s.required = true := by
    intro dir i f hf
    simp only [g', Option.bind_eq_some_iff] at hf
    obtain ⟨s, q1, q2⟩ := hf
    split at q2
    · next hr => exact ⟨q2, s, q1, hr⟩
    · exact (nomatch q2)
  have hreq : ∀ (dir : Bool) (i : Nat) (s : Shortcut), (side r dir)[i]? = some s → s.required = true → g' dir i = g dir i := by
    intro dir i s hs hr
    simp only [g', hs, Option.bind_some, hr, if_true]
  refine ⟨(r.1.map closeOff, r.2.map closeOff), g', by simp only [postcustomize, e1, e2, e3, Option.bind_eq_bind, Option.bind_some], ?_, ?_⟩
  · intro dir
    rw [hside, List.length_map]; exact m3.len dir
  · intro dir i a s' ha hs'
    rw [hside, List.getElem?_map, Option.map_eq_some_iff] at hs'
    obtain ⟨s, hs, rfl⟩ := hs'
    obtain ⟨s0, hs0⟩ := Lens.get h.len ha dir
    have hd := h.done dir i a s0 ⟨a, ha⟩ ha hs0
    constructor
    · intro t x hx
      have hx' : Cand c arcs orig g dir i a t x := by
        rcases hx with hx | ⟨d, u, z, fd, fu, h1, h2, h3, h4, h5⟩
        · exact .inl hx
        · exact .inr ⟨d, u, z, fd, fu, h1, h2, (hsome _ _ _ h3).1, (hsome _ _ _ h4).1, h5⟩
      rcases hd.full t x hx' with hh | ⟨f, q1, q2⟩
      · exact .inl hh
      · rcases Bool.eq_false_or_eq_true s.required with hr | hr
        · exact .inr ⟨f, by rw [hreq dir i s hs hr]; exact q1, q2⟩
        · exact .inl (m3.off dir i a s f ha hs q1 hr t x q2)
    · intro hg
      rcases Bool.eq_false_or_eq_true s.required with hr | hr
      · rw [hreq dir i s hs hr] at hg
        rw [(m3.out dir i a s ha hs hg).1] at hr; exact (nomatch hr)
      · unfold closeOff; rw [hr]; rfl
    · intro f hf
      obtain ⟨q1, s2, q2, q3⟩ := hsome dir i f hf
      rw [hs] at q2; injection q2 with q2; subst q2
      have e : closeOff s = s := by unfold closeOff; rw [q3]; rfl
      rw [e]
      obtain ⟨k1, k2⟩ := m3.kept dir i a s f ha hs q1
      have hleg : ∀ p ∈ s.sources, ∀ d u, p.2 = .short d u → g' false d = g false d ∧ g' true u = g true u := by
        intro p hp d u hpd
        obtain ⟨⟨sd, o1, o2⟩, su, o3, o4⟩ := hcl dir i a ha s hs q3 p hp d u hpd
        exact ⟨hreq false d sd o1 o2, hreq true u su o3 o4⟩
      refine ⟨q3, ⟨k1.fun_, k1.shape, ?_, ?_, k1.lo0, k1.lo, k1.up0, k1.up, k1.const⟩, k2⟩
      · intro t d hd
        have hv := k1.val t d hd
        obtain ⟨p, hp, e⟩ := sourceAt_mem k1.shape hd
        cases d with
        | orig e => exact hv
        | no => exact hv
        | short d u =>
          obtain ⟨h1, h2⟩ := hleg p hp d u e
          simp only [Val, Ghost.F] at hv ⊢
          rw [h1, h2]
          exact hv
      · intro p hp
        have hok := k1.ok p hp
        cases hp2 : p.2 with
        | no => rw [hp2] at hok; exact hok
        | orig e => rw [hp2] at hok; exact hok
        | short d u =>
          rw [hp2] at hok
          obtain ⟨z, fd, fu, d1, u1, gd, gu⟩ := hok
          obtain ⟨h1, h2⟩ := hleg p hp d u hp2
          exact ⟨z, fd, fu, d1, u1, by rw [h1]; exact gd, by rw [h2]; exact gu⟩

/-- Customization with post-customization. -/
theorem customizePost_ok (hbs : SearchBy c.bs) (htl : c.tl = Tol.exact) (hsrt : ∀ k l, (c.srt k l).Perm l) (hT : HierarchyOK arcs n par)
    {roads : List (Nat × Nat × (Rat → Rat))} {fwd bwd : List (List Nat)} (hr : RoadsOK roads c.ttf arcs fwd bwd) (hpre : PreReady c.pre c.ttf arcs fwd bwd) (hS : LaterIsLater roads) :
    ∃ G, customizePost c arcs n par fwd bwd = some G ∧ G.n = n ∧ BoundsOK G (roadNet roads) ∧ EvalOK G (roadNet roads) n ∧
      Triangulated (G.net n true) (G.net n false) (roadNet roads) INF ∧ ArcsFifo G n ∧ UnpackOK G (roadNet roads) (roads.map (fun r => r.2.1)) n := by
  obtain ⟨l1, l0, w1, v1, hI⟩ := init_ok hr
  obtain ⟨L, st0, m0, hP⟩ := before_main htl hT hI hpre
  obtain ⟨st, g, m1, m2⟩ := main_ok hbs htl hsrt hT hP
  have hS' : Strict (roadNet roads) := by
    rintro u v τ y τ' ⟨r, hr, rfl, rfl, rfl⟩ hlt
    exact ⟨_, hS r hr τ' τ hlt, r, hr, rfl, rfl, rfl⟩
  obtain ⟨st', g', m3, m4⟩ := post_ok hT hS' m2
  obtain ⟨G, g1, g2⟩ := result_ok hbs htl hT hr hI m4
  refine ⟨G, ?_, g2⟩
  have w1' : applyWeights c.ttf fwd = some l1 := w1
  have v1' : applyWeights c.ttf bwd = some l0 := v1
  have he : c.tl.eps = 0 := by rw [htl]; rfl
  simp only [customizePost, w1', v1', m0, m1, he, m3, Option.bind_eq_bind, Option.bind_some]
  exact g1

end Verif.Ftd
