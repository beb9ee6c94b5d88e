import Verif.Proof.FtdPerfect
import Verif.Proof.FtdMerge
import Verif.Proof.CatchupCorridor
set_option linter.unusedSimpArgs false
set_option linter.unusedVariables false
/- What the pre-customization leaves to the main customization. -/
namespace Verif.Ftd
open Spec Fl Catchup

section
variable (c : Cfg) (R : Network) (arcs : List (Nat × Nat)) (orig : Bool → Nat → Option Nat)

/-- the initial shortcuts -/
structure InitOK (init : List Shortcut × List Shortcut) : Prop where
  len : ∀ dir, (side init dir).length = arcs.length
  start : ∀ (dir : Bool) (i : Nat) (s : Shortcut), (side init dir)[i]? = some s → newShortcut c.ttf (orig dir i) = some s
  road : ∀ (dir : Bool) (i : Nat) (a : Nat × Nat) (e : Nat), arcs[i]? = some a → orig dir i = some e →
    ∃ p, c.ttf e = some p ∧ ValidTtf p ∧ ∀ t, R (a0 dir a) (a1 dir a) t (t + fn p t)

/-- a shortcut can stand for something -/
inductive Unf : Bool → Nat → Prop where
  | road {dir : Bool} {i e : Nat} : orig dir i = some e → Unf dir i
  | tri {dir : Bool} {i d u z : Nat} {a : Nat × Nat} : arcs[i]? = some a → arcs[d]? = some (z, a0 dir a) → arcs[u]? = some (z, a1 dir a) → Unf false d → Unf true u → Unf dir i

/-- `W` bounds how long everything takes that a shortcut can stand for -/
structure Modest (W : Bool → Nat → Rat) : Prop where
  fin : ∀ dir i, W dir i < INF
  road : ∀ dir i e p, orig dir i = some e → c.ttf e = some p → ∀ q ∈ p, q.v ≤ W dir i
  tri : ∀ (dir : Bool) (i d u z : Nat) (a : Nat × Nat), arcs[i]? = some a → arcs[d]? = some (z, a0 dir a) → arcs[u]? = some (z, a1 dir a) → W false d + W true u ≤ W dir i

/-- one can always get from `u` to `v` within `x` -/
def Within (u v : Nat) (x : Rat) : Prop := ∀ t, ∃ y, y ≤ x ∧ Trip R u t v (t + y)

end

variable {c : Cfg} {R : Network} {arcs : List (Nat × Nat)} {orig : Bool → Nat → Option Nat} {n : Nat} {par : Nat → Option Nat}

theorem upperBound_mem {l : List Pt} {up : Rat} (h : upperBound l = some up) : ∃ p ∈ l, up = p.v := by
  cases l with
  | nil => simp [upperBound] at h
  | cons p l =>
    simp only [upperBound, Option.some.injEq] at h
    subst h
    have key : ∀ (l : List Pt) (a : Rat), l.foldl (fun m q => max m q.v) a = a ∨ ∃ q ∈ l, l.foldl (fun m q => max m q.v) a = q.v := by
      intro l
      induction l with
      | nil => intro a; exact .inl rfl
      | cons x l ih =>
        intro a
        rw [List.foldl_cons]
        rcases ih (max a x.v) with h | ⟨q, hq, h⟩
        · rcases max_choice a x.v with h2 | h2
          · rw [h, h2]; exact .inl rfl
          · rw [h, h2]; exact .inr ⟨x, by simp, rfl⟩
        · exact .inr ⟨q, by simp [hq], h⟩
    rcases key l p.v with h | ⟨q, hq, h⟩
    · exact ⟨p, by simp, h⟩
    · exact ⟨q, by simp [hq], h⟩

theorem Within.append {u v w : Nat} {x y : Rat} (h : Within R u v x) (h2 : Within R v w y) : Within R u w (x + y) := by
  intro t
  obtain ⟨a, h3, h4⟩ := h t
  obtain ⟨b, h5, h6⟩ := h2 (t + a)
  refine ⟨a + b, by linarith, ?_⟩
  rw [← add_assoc]
  exact h4.append h6

/-- the values of initial shortcuts -/
theorem init_val {init : Both} (hI : InitOK c R arcs orig init) {dir : Bool} {i : Nat} {a : Nat × Nat} (ha : arcs[i]? = some a) :
    (orig dir i = none ∧ val init false dir i = INF ∧ val init true dir i = INF) ∨
    ∃ e p, orig dir i = some e ∧ c.ttf e = some p ∧ ValidTtf p ∧ 0 ≤ val init false dir i ∧ (∀ t, val init false dir i ≤ fn p t) ∧ (∀ t, fn p t ≤ val init true dir i) ∧
      lowerBound p = some (val init false dir i) ∧ upperBound p = some (val init true dir i) ∧ ∀ t, R (a0 dir a) (a1 dir a) t (t + fn p t) := by
  obtain ⟨s, hs⟩ := Lens.get (arcs := arcs) (st := init) hI.len ha dir
  have h := hI.start dir i s hs
  rw [val_eq hs, val_eq hs]
  cases ho : orig dir i with
  | none =>
    rw [ho] at h
    simp only [newShortcut, Option.some.injEq] at h
    subst h
    exact .inl ⟨rfl, rfl, rfl⟩
  | some e =>
    rw [ho] at h
    obtain ⟨p, h1, h2, h3⟩ := hI.road dir i a e ha ho
    obtain ⟨lo, up, l1, l2, l3, l4, l5⟩ := bounds h2
    simp only [newShortcut, h1, l1, l2, Option.bind_eq_bind, Option.bind_some, Option.some.injEq] at h
    subst h
    exact .inr ⟨e, p, rfl, h1, h2, l3, l4, l5, l1, l2, h3⟩

/-- facts about the bounds after the static (`L`, `U`) and the perfect customization (`P`) -/
structure Facts (c : Cfg) (R : Network) (arcs : List (Nat × Nat)) (orig : Bool → Nat → Option Nat) (L U P : Bool → Nat → Rat) : Prop where
  lo0 : ∀ dir i a, arcs[i]? = some a → 0 ≤ L dir i
  lu : ∀ dir i a, arcs[i]? = some a → L dir i ≤ U dir i
  pu : ∀ dir i a, arcs[i]? = some a → P dir i ≤ U dir i
  lroad : ∀ (dir : Bool) (i : Nat) (a : Nat × Nat) (e : Nat) (p : List Pt), arcs[i]? = some a → orig dir i = some e → c.ttf e = some p → ∀ t, L dir i ≤ fn p t
  ltri : Tri arcs L
  within : ∀ (dir : Bool) (i : Nat) (a : Nat × Nat), arcs[i]? = some a → P dir i < INF → Within R (a0 dir a) (a1 dir a) (P dir i)
  ptri : Tri arcs P
  linf : ∀ dir i a, arcs[i]? = some a → orig dir i = none → L dir i ≤ INF
  att : ∀ (dir : Bool) (i : Nat) (a : Nat × Nat), arcs[i]? = some a → U dir i < INF → (∃ e p, orig dir i = some e ∧ c.ttf e = some p ∧ ∀ t, fn p t ≤ U dir i) ∨
    ∃ d u z, arcs[d]? = some (z, a0 dir a) ∧ arcs[u]? = some (z, a1 dir a) ∧ U dir i = U false d + U true u
  modest : ∀ W, Modest c arcs orig W → ∀ dir i a, arcs[i]? = some a → Unf arcs orig dir i → U dir i ≤ W dir i

/-- induction on the tails of arcs -/
theorem arc_induction {Q : Nat → Prop} (h : ∀ (i : Nat) (a : Nat × Nat), arcs[i]? = some a → (∀ (j : Nat) (b : Nat × Nat), arcs[j]? = some b → b.1 < a.1 → Q j) → Q i) :
    ∀ (i : Nat) (a : Nat × Nat), arcs[i]? = some a → Q i := by
  have key : ∀ (m i : Nat) (a : Nat × Nat), arcs[i]? = some a → a.1 ≤ m → Q i := by
    intro m
    induction m with
    | zero => intro i a ha hm; exact h i a ha (fun j b hb hlt => by omega)
    | succ m ih => intro i a ha hm; exact h i a ha (fun j b hb hlt => ih j b hb (by omega))
  exact fun i a ha => key a.1 i a ha (le_refl _)

/-- arcs of a triangle come from lower nodes -/
theorem leg_lt (hT : HierarchyOK arcs n par) {a : Nat × Nat} (ha : a.1 < a.2) {dir : Bool} {d u z : Nat} (h1 : arcs[d]? = some (z, a0 dir a)) (h2 : arcs[u]? = some (z, a1 dir a)) : z < a.1 := by
  have e1 := (hT.up _ _ h1).1
  have e2 := (hT.up _ _ h2).1
  cases dir <;> simp only [a0, a1] at e1 e2
  · exact e2
  · exact e1

/-- the bounds after the static customization, in terms of start and end of the arc -/
theorem Final.least {st0 st : Both} {dir : Bool} {i : Nat} {a : Nat × Nat} (h : Final arcs st0 st dir i a.1 a.2) (k : Bool) :
    Least (val st k dir i) (fun y => y = val st0 k dir i ∨ ∃ d u z, arcs[d]? = some (z, a0 dir a) ∧ arcs[u]? = some (z, a1 dir a) ∧ y = val st k false d + val st k true u) := by
  refine (h k).congr ?_
  intro y
  cases dir with
  | true => rfl
  | false =>
    simp only [a0, a1, Bool.false_eq_true, if_false, Bool.not_false]
    constructor
    · rintro (h | ⟨d, u, z, h1, h2, h3⟩)
      · exact .inl h
      · exact .inr ⟨u, d, z, h2, h1, by rw [h3, add_comm]⟩
    · rintro (h | ⟨d, u, z, h1, h2, h3⟩)
      · exact .inl h
      · exact .inr ⟨u, d, z, h2, h1, by rw [h3, add_comm]⟩

theorem facts (hT : HierarchyOK arcs n par) (hS : HeadsSorted arcs) {init : Both} (hI : InitOK c R arcs orig init) :
    ∃ s p, staticAll arcs n init = some s ∧ perfectAll arcs n s = some p ∧ SInv arcs init n s ∧ PfInv arcs (val s true) s 0 p ∧
      Facts c R arcs orig (val s false) (val s true) (val p true) := by
  obtain ⟨s, h1, h2⟩ := static_all hT hS (st0 := init) hI.len
  have hl : ∀ (k dir : Bool) (i : Nat) (a : Nat × Nat), arcs[i]? = some a →
      Least (val s k dir i) (fun y => y = val init k dir i ∨ ∃ d u z, arcs[d]? = some (z, a0 dir a) ∧ arcs[u]? = some (z, a1 dir a) ∧ y = val s k false d + val s k true u) := by
    intro k dir i a ha
    have := hT.up _ _ ha
    exact (h2.done dir i a ha (by omega)).2.least k
  have hzero : ∀ (k dir : Bool) (i : Nat) (a : Nat × Nat), arcs[i]? = some a → 0 ≤ val s k dir i := by
    intro k dir i a ha
    have := arc_induction (arcs := arcs) (Q := fun i => ∀ dir, 0 ≤ val s k dir i) (by
      intro i a ha ih dir
      rcases (hl k dir i a ha).1 with h | ⟨d, u, z, q1, q2, q3⟩
      · rw [h]
        rcases init_val hI (dir := dir) ha with ⟨_, e1, e2⟩ | ⟨e, p, _, _, hv, e1, e2, e3, _⟩
        · have : (0:Rat) ≤ INF := by decide +kernel
          cases k
          · rw [e1]; exact this
          · rw [e2]; exact this
        · cases k
          · exact e1
          · exact le_trans (fn_nonneg hv 0) (e3 0)
      · have hz := leg_lt hT (hT.up _ _ ha).1 q1 q2
        rw [q3]
        exact add_nonneg (ih d _ q1 hz false) (ih u _ q2 hz true)) i a ha dir
    exact this
  have htri : ∀ k, Tri arcs (val s k) := by
    intro k dir i d u z a ha hd hu
    exact (hl k dir i a ha).2 _ (.inr ⟨d, u, z, hd, hu, rfl⟩)
  obtain ⟨p, h3, h4⟩ := perfect_all hT h2.len (fun dir i a ha => hzero true dir i a ha) (htri true)
  have hw : ∀ (i : Nat) (a : Nat × Nat), arcs[i]? = some a → ∀ a, arcs[i]? = some a → ∀ dir, val s true dir i < INF → Within R (a0 dir a) (a1 dir a) (val s true dir i) := by
    refine arc_induction ?_
    intro i a ha ih a' ha' dir hlt
    rw [ha] at ha'; injection ha' with ha'; subst ha'
    rcases (hl true dir i a ha).1 with h | ⟨d, u, z, q1, q2, q3⟩
    · rw [h] at hlt ⊢
      rcases init_val hI (dir := dir) ha with ⟨_, e1, e2⟩ | ⟨e, p, _, _, hv, e1, e2, e3, _, _, e4⟩
      · rw [e2] at hlt; exact absurd hlt (lt_irrefl _)
      · exact fun t => ⟨fn p t, e3 t, .there (e4 t) (.here _ _)⟩
    · have hz := leg_lt hT (hT.up _ _ ha).1 q1 q2
      have z1 := hzero true false d _ q1
      have z2 := hzero true true u _ q2
      rw [q3] at hlt ⊢
      have w1 := ih d _ q1 hz _ q1 false (by linarith)
      have w2 := ih u _ q2 hz _ q2 true (by linarith)
      exact w1.append w2
  refine ⟨s, p, h1, h3, h2, h4, ?_⟩
  constructor
  · exact fun dir i a ha => hzero false dir i a ha
  · intro dir i a ha
    have := arc_induction (arcs := arcs) (Q := fun i => ∀ dir, val s false dir i ≤ val s true dir i) (by
      intro i a ha ih dir
      rcases (hl true dir i a ha).1 with h | ⟨d, u, z, q1, q2, q3⟩
      · have h5 := (hl false dir i a ha).2 _ (.inl rfl)
        rw [h]
        rcases init_val hI (dir := dir) ha with ⟨_, e1, e2⟩ | ⟨e, p, _, _, hv, e1, e2, e3, _⟩
        · rw [e2]; rw [e1] at h5; exact h5
        · exact le_trans h5 (le_trans (e2 0) (e3 0))
      · have hz := leg_lt hT (hT.up _ _ ha).1 q1 q2
        have h5 := htri false dir i d u z a ha q1 q2
        have := ih d _ q1 hz false
        have := ih u _ q2 hz true
        rw [q3]; linarith) i a ha dir
    exact this
  · exact h4.le
  · intro dir i a e q ha ho hq t
    have h5 := (hl false dir i a ha).2 _ (.inl rfl)
    rcases init_val hI (dir := dir) ha with ⟨e0, _⟩ | ⟨e', p', e1, e2, hv, e3, e4, _⟩
    · rw [ho] at e0; exact (nomatch e0)
    · rw [ho] at e1; injection e1 with e1; subst e1
      rw [hq] at e2; injection e2 with e2; subst e2
      exact le_trans h5 (e4 t)
  · exact htri false
  · intro dir i a ha hlt
    obtain ⟨k, hk⟩ := h4.sound dir i a ha
    have key : ∀ {k u v : Nat} {x : Rat}, Wk arcs (val s true) k u v x → x < INF → Within R u v x := by
      intro k u v x hx
      induction hx with
      | nil v => exact fun _ t => ⟨0, le_refl _, by rw [add_zero]; exact .here _ _⟩
      | @cons k i a v x dir ha hx ih =>
        intro hlt
        have z1 := hx.nonneg (fun dir i a ha => hzero true dir i a ha)
        have z2 := hzero true dir i a ha
        exact (hw i a ha a ha dir (by linarith)).append (ih (by linarith))
    exact key hk hlt
  · intro dir i d u z a ha hd hu
    obtain ⟨k1, w1⟩ := h4.sound false d _ hd
    obtain ⟨k2, w2⟩ := h4.sound true u _ hu
    exact h4.exact dir i a ha (Nat.zero_le _) _ _ (w1.append w2)
  · intro dir i a ha ho
    have h5 := (hl false dir i a ha).2 _ (.inl rfl)
    rcases init_val hI (dir := dir) ha with ⟨_, e1, _⟩ | ⟨e', p', e1, _⟩
    · rw [e1] at h5; exact h5
    · rw [ho] at e1; exact (nomatch e1)
  · intro dir i a ha hlt
    rcases (hl true dir i a ha).1 with h | ⟨d, u, z, q1, q2, q3⟩
    · rcases init_val hI (dir := dir) ha with ⟨_, _, e2⟩ | ⟨e', p', e1, e2, hv, e3, e4, e5, _⟩
      · rw [h, e2] at hlt; exact absurd hlt (lt_irrefl _)
      · exact .inl ⟨e', p', e1, e2, fun t => by rw [h]; exact e5 t⟩
    · exact .inr ⟨d, u, z, q1, q2, q3⟩
  · intro W hW dir i a ha hu
    induction hu generalizing a with
    | @road dir i e ho =>
      have h5 := (hl true dir i a ha).2 _ (.inl rfl)
      rcases init_val hI (dir := dir) ha with ⟨e0, _⟩ | ⟨e', p', e1, e2, hv, e3, e4, e5, _, e6, _⟩
      · rw [ho] at e0; exact (nomatch e0)
      · obtain ⟨q, hq, e7⟩ := upperBound_mem e6
        rw [e7] at h5
        exact le_trans h5 (hW.road dir i e' p' e1 e2 q hq)
    | @tri dir i d u z a' ha' hd hu _ _ ih1 ih2 =>
      have := htri true dir i d u z a' ha' hd hu
      have := ih1 _ hd
      have := ih2 _ hu
      have := hW.tri dir i d u z a' ha' hd hu
      linarith

/-! ## The state after the pre-customization -/

/-- What the main customization needs to know of the shortcuts it starts with; `L` are lower bounds of everything a shortcut stands for. -/
structure PreOK (c : Cfg) (R : Network) (arcs : List (Nat × Nat)) (orig : Bool → Nat → Option Nat) (L : Bool → Nat → Rat) (st : Both) : Prop where
  len : Lens arcs st
  road : ∀ (dir : Bool) (i : Nat) (a : Nat × Nat) (e : Nat), arcs[i]? = some a → orig dir i = some e →
    ∃ p, c.ttf e = some p ∧ ValidTtf p ∧ ∀ t, R (a0 dir a) (a1 dir a) t (t + fn p t)
  start : ∀ (dir : Bool) (i : Nat) (s : Shortcut), (side st dir)[i]? = some s → ∃ s0, newShortcut c.ttf (orig dir i) = some s0 ∧ s.sources = s0.sources ∧ s.cache = s0.cache
  lo0 : ∀ dir i a, arcs[i]? = some a → 0 ≤ L dir i
  lroad : ∀ (dir : Bool) (i : Nat) (a : Nat × Nat) (e : Nat) (p : List Pt), arcs[i]? = some a → orig dir i = some e → c.ttf e = some p → ∀ t, L dir i ≤ fn p t
  ltri : Tri arcs L
  on : ∀ (dir : Bool) (i : Nat) (a : Nat × Nat) (s : Shortcut), arcs[i]? = some a → (side st dir)[i]? = some s → s.required = true →
    (c.pre = true → s.lower = L dir i) ∧ L dir i ≤ s.upper ∧ (s.upper < INF → Within R (a0 dir a) (a1 dir a) s.upper)
  off : ∀ (dir : Bool) (i : Nat) (a : Nat × Nat) (s : Shortcut), arcs[i]? = some a → (side st dir)[i]? = some s → s.required = false →
    s.lower = INF ∧ s.upper = INF ∧ ∃ x, x < L dir i ∧ Within R (a0 dir a) (a1 dir a) x
  fin : ∀ (dir : Bool) (i : Nat) (a : Nat × Nat) (s : Shortcut), c.pre = true → arcs[i]? = some a → (side st dir)[i]? = some s → s.required = true → Unf arcs orig dir i → s.upper < INF
  nopre : c.pre = false → ∀ (dir : Bool) (i : Nat) (s : Shortcut), (side st dir)[i]? = some s → s.required = true ∧ s.constant = false
  cst : ∀ (dir : Bool) (i : Nat) (a : Nat × Nat) (s : Shortcut), arcs[i]? = some a → (side st dir)[i]? = some s → s.required = true → s.constant = true → L dir i < INF →
    (∃ e p, orig dir i = some e ∧ c.ttf e = some p ∧ ∀ t, fn p t ≤ L dir i) ∨
    ∃ d u z sd su, arcs[d]? = some (z, a0 dir a) ∧ arcs[u]? = some (z, a1 dir a) ∧ (side st false)[d]? = some sd ∧ (side st true)[u]? = some su ∧
      sd.required = true ∧ sd.constant = true ∧ su.required = true ∧ su.constant = true ∧ L false d + L true u ≤ L dir i

/-- without pre-customization -/
theorem preOK_none {init : Both} (hpre : c.pre = false) (hI : InitOK c R arcs orig init) : PreOK c R arcs orig (fun _ _ => 0) init := by
  have hq : ∀ (dir : Bool) (i : Nat) (s : Shortcut), (side init dir)[i]? = some s → s.required = true ∧ s.constant = false := by
    intro dir i s hs
    have h := hI.start dir i s hs
    cases ho : orig dir i with
    | none => rw [ho] at h; simp only [newShortcut, Option.some.injEq] at h; subst h; exact ⟨rfl, rfl⟩
    | some e =>
      rw [ho] at h
      simp only [newShortcut, Option.bind_eq_bind, Option.bind_eq_some_iff, Option.some.injEq] at h
      obtain ⟨p, _, lo, _, up, _, h⟩ := h
      subst h; exact ⟨rfl, rfl⟩
  constructor
  · exact hI.len
  · exact hI.road
  · exact fun dir i s hs => ⟨s, hI.start dir i s hs, rfl, rfl⟩
  · exact fun _ _ _ _ => le_refl _
  · intro dir i a e p ha ho hp t
    obtain ⟨p', h1, h2, _⟩ := hI.road dir i a e ha ho
    rw [hp] at h1; injection h1 with h1; subst h1
    exact fn_nonneg h2 t
  · intro dir i d u z a _ _ _; simp
  · intro dir i a s ha hs _
    have e : s.upper = val init true dir i := by rw [val_eq hs]; rfl
    rw [e]
    refine ⟨fun h => (by rw [hpre] at h; exact (nomatch h)), ?_, ?_⟩
    · rcases init_val hI (dir := dir) ha with ⟨_, _, e2⟩ | ⟨e, p, _, _, hv, e1, e2, e3, _⟩
      · rw [e2]; decide +kernel
      · exact le_trans (fn_nonneg hv 0) (e3 0)
    · intro hlt
      rcases init_val hI (dir := dir) ha with ⟨_, _, e2⟩ | ⟨e, p, _, _, hv, e1, e2, e3, _, _, e4⟩
      · rw [e2] at hlt; exact absurd hlt (lt_irrefl _)
      · exact fun t => ⟨fn p t, e3 t, .there (e4 t) (.here _ _)⟩
  · intro dir i a s ha hs hr
    rw [(hq dir i s hs).1] at hr; exact (nomatch hr)
  · intro dir i a s h; rw [hpre] at h; exact (nomatch h)
  · exact fun _ => hq
  · intro dir i a s ha hs _ hc
    rw [(hq dir i s hs).2] at hc; exact (nomatch hc)

/-- the result of the pre-customization -/
theorem pre_state (hT : HierarchyOK arcs n par) (hS : HeadsSorted arcs) {init : Both} (hI : InitOK c R arcs orig init) {eps : Rat} :
    ∃ L U P st, precustomize eps arcs n init = some st ∧ Facts c R arcs orig L U P ∧ Lens arcs st ∧
      ∀ (dir : Bool) (i : Nat) (s : Shortcut), (side st dir)[i]? = some s → ∃ s0, newShortcut c.ttf (orig dir i) = some s0 ∧
        s = if P dir i + eps < L dir i then { s0 with lower := INF, upper := INF, constant := decide (U dir i = L dir i), required := false }
          else { s0 with lower := L dir i, upper := P dir i, constant := decide (U dir i = L dir i) } := by
  obtain ⟨s, p, h1, h2, h3, h4, h5⟩ := facts hT hS hI
  have hp : precustomize eps arcs n init = some (List.zipWith (disable eps) p.1 (s.1.map (·.lower)), List.zipWith (disable eps) p.2 (s.2.map (·.lower))) := by
    simp only [precustomize, h1, h2, Option.bind_eq_bind, Option.bind_some]
  have hside : ∀ dir, side (List.zipWith (disable eps) p.1 (s.1.map (·.lower)), List.zipWith (disable eps) p.2 (s.2.map (·.lower))) dir =
      List.zipWith (disable eps) (side p dir) ((side s dir).map (·.lower)) := by intro dir; cases dir <;> rfl
  refine ⟨_, _, _, _, hp, h5, ?_, ?_⟩
  · intro dir
    rw [hside, List.length_zipWith, List.length_map, h4.len dir, h3.len dir, Nat.min_self]
  · intro dir i x hx
    rw [hside, List.getElem?_zipWith_eq_some] at hx
    obtain ⟨q, l, e1, e2, e3⟩ := hx
    rw [List.getElem?_map, Option.map_eq_some_iff] at e2
    obtain ⟨r, e2, e4⟩ := e2
    have hlt : i < arcs.length := by rw [← h4.len dir]; exact (List.getElem?_eq_some_iff.1 e1).1
    have ha : arcs[i]? = some arcs[i] := List.getElem?_eq_getElem hlt
    have hn := hT.up _ _ ha
    obtain ⟨⟨s0, b, q1, q2⟩, _⟩ := h3.done dir i _ ha (by omega)
    rw [e2] at q2; injection q2 with q2
    obtain ⟨q', q3, q4⟩ := h4.like dir i r e2
    rw [e1] at q3; injection q3 with q3; subst q3
    have vL : val s false dir i = b.1 := by rw [val_eq e2, q2]; rfl
    have vU : val s true dir i = b.2 := by rw [val_eq e2, q2]; rfl
    have vP : val p true dir i = q.upper := by rw [val_eq e1]; rfl
    have hl : l = b.1 := by rw [← e4, q2]; rfl
    refine ⟨s0, hI.start dir i s0 q1, ?_⟩
    rw [← e3, vL, vU, vP, hl, q4, q2]
    unfold disable
    by_cases hc : q.upper + eps < b.1
    · rw [if_pos (flt_iff.2 hc), if_pos hc]; rfl
    · rw [if_neg (fun h => hc (flt_iff.1 h)), if_neg hc]; rfl

/-- with exact pre-customization -/
theorem preOK_pre (hT : HierarchyOK arcs n par) (hS : HeadsSorted arcs) (hpre : c.pre = true) {init : Both} (hI : InitOK c R arcs orig init) {W : Bool → Nat → Rat} (hW : Modest c arcs orig W) :
    ∃ L st, precustomize 0 arcs n init = some st ∧ PreOK c R arcs orig L st := by
  obtain ⟨L, U, P, st, h1, hF, h2, h3⟩ := pre_state hT hS hI (eps := 0)
  have hnew : ∀ {o : Option Nat} {s0 : Shortcut}, newShortcut c.ttf o = some s0 → s0.required = true := by
    intro o s0 h
    cases o with
    | none => simp only [newShortcut, Option.some.injEq] at h; subst h; rfl
    | some e =>
      simp only [newShortcut, Option.bind_eq_bind, Option.bind_eq_some_iff, Option.some.injEq] at h
      obtain ⟨p, _, lo, _, up, _, h⟩ := h
      subst h; rfl
  have hon : ∀ (dir : Bool) (i : Nat) (s : Shortcut), (side st dir)[i]? = some s → s.required = true → L dir i ≤ P dir i ∧ s.lower = L dir i ∧ s.upper = P dir i ∧
      (s.constant = true ↔ U dir i = L dir i) := by
    intro dir i s hs hr
    obtain ⟨s0, q1, q2⟩ := h3 dir i s hs
    by_cases k : P dir i + 0 < L dir i
    · rw [if_pos k] at q2; subst q2; exact (nomatch hr)
    · rw [if_neg k] at q2; subst q2
      exact ⟨by linarith, rfl, rfl, by simp⟩
  have hyes : ∀ (dir : Bool) (i : Nat) (a : Nat × Nat), arcs[i]? = some a → L dir i ≤ P dir i → U dir i = L dir i → ∃ s, (side st dir)[i]? = some s ∧ s.required = true ∧ s.constant = true := by
    intro dir i a ha hle hu
    obtain ⟨s, hs⟩ := h2.get ha dir
    obtain ⟨s0, q1, q2⟩ := h3 dir i s hs
    rw [if_neg (by linarith)] at q2
    have q3 := hnew q1
    refine ⟨s, hs, by rw [q2]; exact q3, by rw [q2]; simp [hu]⟩
  have hLI : ∀ (dir : Bool) (i : Nat) (a : Nat × Nat), arcs[i]? = some a → L dir i ≤ INF := by
    intro dir i a ha
    cases ho : orig dir i with
    | none => exact hF.linf dir i a ha ho
    | some e =>
      have := hF.modest W hW dir i a ha (.road ho)
      have := hF.lu dir i a ha
      have := hW.fin dir i
      linarith
  refine ⟨L, st, h1, ?_⟩
  constructor
  · exact h2
  · exact hI.road
  · intro dir i s hs
    obtain ⟨s0, q1, q2⟩ := h3 dir i s hs
    refine ⟨s0, q1, ?_⟩
    rw [q2]; split <;> exact ⟨rfl, rfl⟩
  · exact hF.lo0
  · exact hF.lroad
  · exact hF.ltri
  · intro dir i a s ha hs hr
    obtain ⟨q1, q2, q3, _⟩ := hon dir i s hs hr
    rw [q3]
    exact ⟨fun _ => q2, q1, hF.within dir i a ha⟩
  · intro dir i a s ha hs hr
    obtain ⟨s0, q1, q2⟩ := h3 dir i s hs
    by_cases k : P dir i + 0 < L dir i
    · rw [if_pos k] at q2
      rw [add_zero] at k
      exact ⟨by rw [q2], by rw [q2], P dir i, k, hF.within dir i a ha (lt_of_lt_of_le k (hLI dir i a ha))⟩
    · rw [if_neg k] at q2
      rw [q2, show ({ s0 with lower := L dir i, upper := P dir i, constant := decide (U dir i = L dir i) } : Shortcut).required = s0.required from rfl, hnew q1] at hr
      exact (nomatch hr)
  · intro dir i a s _ ha hs hr hu
    obtain ⟨_, _, q3, _⟩ := hon dir i s hs hr
    rw [q3]
    have := hF.modest W hW dir i a ha hu
    have := hF.pu dir i a ha
    have := hW.fin dir i
    linarith
  · intro h; rw [hpre] at h; exact (nomatch h)
  · intro dir i a s ha hs hr hc hlt
    obtain ⟨q1, _, _, q4⟩ := hon dir i s hs hr
    have hUL := q4.1 hc
    rcases hF.att dir i a ha (by rw [hUL]; exact hlt) with ⟨e, p, e1, e2, e3⟩ | ⟨d, u, z, e1, e2, e3⟩
    · exact .inl ⟨e, p, e1, e2, fun t => by rw [← hUL]; exact e3 t⟩
    · have l1 := hF.lu false d _ e1
      have l2 := hF.lu true u _ e2
      have l3 := hF.ltri dir i d u z a ha e1 e2
      have p1 := hF.pu false d _ e1
      have p2 := hF.pu true u _ e2
      have p3 := hF.ptri dir i d u z a ha e1 e2
      obtain ⟨sd, d1, d2, d3⟩ := hyes false d _ e1 (by linarith) (by linarith)
      obtain ⟨su, u1, u2, u3⟩ := hyes true u _ e2 (by linarith) (by linarith)
      exact .inr ⟨d, u, z, sd, su, e1, e2, d1, u1, d2, d3, u2, u3, by linarith⟩

end Verif.Ftd
