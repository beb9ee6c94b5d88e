import Verif.Proof.FtdCombine
import Verif.Proof.CatchupTree
import Verif.Props.FlMerge
set_option linter.unusedSimpArgs false
set_option linter.unusedVariables false
/- Merging a triangle into a shortcut. -/
namespace Verif.Ftd
open Spec Fl Catchup

theorem lowerBound_mem {l : List Pt} {lo : Rat} (h : lowerBound l = some lo) : ∃ p ∈ l, lo = p.v := by
  cases l with
  | nil => simp [lowerBound] at h
  | cons p l =>
    simp only [lowerBound, Option.some.injEq] at h
    subst h
    have key : ∀ (l : List Pt) (a : Rat), l.foldl (fun m q => min m q.v) a = a ∨ ∃ q ∈ l, l.foldl (fun m q => min m q.v) a = q.v := by
      intro l
      induction l with
      | nil => intro a; exact .inl rfl
      | cons x l ih =>
        intro a
        rw [List.foldl_cons]
        rcases ih (min a x.v) with h | ⟨q, hq, h⟩
        · rcases min_choice a x.v with h2 | h2
          · rw [h, h2]; exact .inl rfl
          · rw [h, h2]; exact .inr ⟨x, by simp, rfl⟩
        · exact .inr ⟨q, by simp [hq], h⟩
    rcases key l p.v with h | ⟨q, hq, h⟩
    · exact ⟨p, by simp, h⟩
    · exact ⟨q, by simp [hq], h⟩

theorem valid_nonneg {l : List Pt} (h : ValidTtf l) {p : Pt} (hp : p ∈ l) : 0 ≤ p.v := by
  rcases h with ⟨v, rfl, hv⟩ | ⟨_, h, _⟩
  · simp only [List.mem_singleton] at hp; subst hp; exact hv
  · exact h p hp

/-- bounds of a function -/
theorem bounds {l : List Pt} (h : ValidTtf l) : ∃ lo up, lowerBound l = some lo ∧ upperBound l = some up ∧ 0 ≤ lo ∧ (∀ t, lo ≤ fn l t) ∧ (∀ t, fn l t ≤ up) := by
  obtain ⟨lo, h1, h2⟩ := lower_spec (valid_ne h)
  obtain ⟨up, h3, h4⟩ := upper_spec (valid_ne h)
  refine ⟨lo, up, h1, h3, ?_, fn_ge_lower h h2, fn_le_upper h h4⟩
  obtain ⟨p, hp, e⟩ := lowerBound_mem h1
  rw [e]; exact valid_nonneg h hp

theorem fn_nonneg {l : List Pt} (h : ValidTtf l) (t : Rat) : 0 ≤ fn l t := by
  obtain ⟨lo, up, _, _, h1, h2, _⟩ := bounds h
  exact le_trans h1 (h2 t)

theorem fn_tod {l : List Pt} (h : ValidTtf l) (t : Rat) : fn l (splitDay t).2 = fn l t := by
  have := fn_shift h t (-(t / day).floor)
  rw [← this]
  congr 1
  unfold splitDay
  push_cast
  ring

theorem atT_split {ch : List (Rat × Bool)} {t : Rat} (ht : t ≤ day) {b : Bool} : atT ch t = some b → ∃ A x B, ch = A ++ x :: B ∧ x.2 = b ∧ x.1 ≤ t ∧ t ≤ until_ B := by
  induction ch using List.reverseRecOn with
  | nil => intro h; simp [atT_nil] at h
  | append_singleton l p ih =>
    intro h
    rw [atT_snoc] at h
    split at h
    · next hp => injection h with h; exact ⟨l, p, [], rfl, h, hp, ht⟩
    · next hp =>
      obtain ⟨A, x, B, e, h1, h2, h3⟩ := ih h
      refine ⟨A, x, B ++ [p], by rw [e]; simp, h1, h2, ?_⟩
      cases B with
      | nil => exact (not_le.1 hp).le
      | cons q B => exact h3

theorem faster_shape {f g : List Pt} {ch : List (Rat × Bool)} (h : Faster f g ch) : Shape ch := by
  refine ⟨h.start, ?_, fun p hp => (h.inDay p hp).2⟩
  have key : ∀ (l : List (Rat × Bool)), (∀ A x y B, l = A ++ x :: y :: B → x.1 < y.1) → Srt l := by
    intro l
    induction l with
    | nil => intro _; exact List.Pairwise.nil
    | cons p l ih =>
      intro h
      have hl := ih (fun A x y B e => h (p :: A) x y B (by rw [e]; rfl))
      unfold Srt at hl ⊢
      rw [List.pairwise_cons]
      refine ⟨?_, hl⟩
      cases l with
      | nil => simp
      | cons q l =>
        have hpq := h [] p q l rfl
        rw [List.pairwise_cons] at hl
        intro r hr
        rw [List.mem_cons] at hr
        rcases hr with rfl | hr
        · exact hpq
        · exact lt_trans hpq (hl.1 r hr)
  exact key ch (fun A x y B e => (h.change A x y B e).1)

theorem faster_at {f g : List Pt} {ch : List (Rat × Bool)} (h : Faster f g ch) (hf : ValidTtf f) (hg : ValidTtf g) (t : Rat) :
    if atT ch (splitDay t).2 = some true then fn f t ≤ fn g t else fn g t ≤ fn f t := by
  obtain ⟨b, hb, _⟩ := atT_some (faster_shape h) (t := (splitDay t).2) tod.1
  obtain ⟨A, x, B, e, h1, h2, h3⟩ := atT_split tod.2.le hb
  have := h.right A x B e (splitDay t).2 _ _ h2 h3 ((fn_iff hf).2 rfl) ((fn_iff hg).2 rfl)
  rw [fn_tod hf, fn_tod hg, h1] at this
  rw [hb]
  cases b <;> simpa using this

/-- The function of a shortcut and its sources: `Val d t x` says that the source `d` takes `x` at time `t`, `Ok d` that it may be used. -/
structure Cur (ttf : Nat → Option (List Pt)) (Val : Src → Rat → Rat → Prop) (Ok : Src → Prop) (s : Shortcut) (f : List Pt) : Prop where
  req : s.required = true
  ttf : s.ttf ttf = some f
  valid : ValidTtf f
  shape : Shape s.sources
  val : ∀ t d, sourceAt s.sources t = some d → Val d t (fn f t)
  ok : ∀ p ∈ s.sources, Ok p.2

/-- what does not change, and the upper bound -/
structure Step (s s' : Shortcut) (f' : List Pt) : Prop where
  lower : s'.lower = s.lower
  const : s'.constant = s.constant
  le : s'.upper ≤ s.upper
  up : s'.upper = s.upper ∨ ∀ t, fn f' t ≤ s'.upper

section
variable {c : Cfg} {Val : Src → Rat → Rat → Prop} {Ok : Src → Prop}

theorem setLinked_spec {s : Shortcut} (hr : s.required = true) {ids : Nat × Nat} {g : List Pt} (hg : ValidTtf g) (hval : ∀ t, Val (.short ids.1 ids.2) t (fn g t))
    (hok : Ok (.short ids.1 ids.2)) : ∃ s', setLinked s ids g = some s' ∧ Cur c.ttf Val Ok s' g ∧ Step s s' g := by
  obtain ⟨lo, up, h1, h2, h3, h4, h5⟩ := bounds hg
  refine ⟨{ s with sources := [(0, .short ids.1 ids.2)], cache := some g, upper := min s.upper up }, by simp only [setLinked, h2, Option.bind_eq_bind, Option.bind_some], ⟨hr, rfl, hg, ⟨⟨_, _, rfl⟩, by simp [Srt], by simp [Spec.day]⟩, ?_, ?_⟩, rfl, rfl, min_le_left _ _, ?_⟩
  · intro t d h
    simp only [sourceAt, Option.some.injEq] at h
    subst h; exact hval t
  · intro p hp; simp only [List.mem_singleton] at hp; subst hp; exact hok
  · rcases min_choice s.upper up with h | h
    · exact .inl h
    · right; intro t; show _ ≤ min s.upper up; rw [h]; exact h5 t

/-- the new function -/
structure Less (f g f' : List Pt) (u : Rat) : Prop where
  le : ∀ t, fn f' t ≤ fn f t
  or : ∀ t, fn f' t = fn f t ∨ fn f' t = fn g t
  cand : ∀ t, fn f' t ≤ fn g t ∨ u < fn g t

theorem mergeTtf_spec (htl : c.tl = Tol.exact) {s : Shortcut} {f g : List Pt} (hs : Cur c.ttf Val Ok s f) {ids : Nat × Nat} (hg : ValidTtf g)
    (hval : ∀ t, Val (.short ids.1 ids.2) t (fn g t)) (hok : Ok (.short ids.1 ids.2)) :
    ∃ s' f', mergeTtf c s ids f g = some s' ∧ Cur c.ttf Val Ok s' f' ∧ Step s s' f' ∧ Less f g f' s'.upper := by
  obtain ⟨lo, up, h1, h2, h3, h4, h5⟩ := bounds hg
  obtain ⟨flo, fup, g1, g2, g3, g4, g5⟩ := bounds hs.valid
  have he : c.tl.eps = 0 := by rw [htl]; rfl
  unfold mergeTtf
  simp only [h1, h2, g1, Option.bind_eq_bind, Option.bind_some, he]
  by_cases k1 : flt 0 flo up = true
  · simp only [k1, Bool.not_true, Bool.false_eq_true, if_false]
    by_cases k2 : flt 0 s.upper lo = true
    · simp only [k2, if_true]
      rw [flt_iff] at k2
      exact ⟨s, f, rfl, hs, ⟨rfl, rfl, le_refl _, .inl rfl⟩, fun _ => le_refl _, fun _ => .inl rfl, fun t => .inr (by have := h4 t; linarith)⟩
    · simp only [k2, Bool.false_eq_true, if_false]
      obtain ⟨r, ch, hm, m1, _⟩ := merge_spec c.co hs.valid hg
      rw [htl, m1]
      simp only [Option.bind_some]
      obtain ⟨rlo, rup, r1, r2, r3, r4, r5⟩ := bounds hm.valid
      rw [r2]
      simp only [Option.bind_some]
      have hmin : ∀ t, fn r t = min (fn f t) (fn g t) := hm.val
      obtain ⟨q1, q2⟩ := combine_spec (other := .short ids.1 ids.2) hs.shape (faster_shape hm.fast)
      refine ⟨_, r, rfl, ⟨hs.req, rfl, hm.valid, q1, ?_, ?_⟩, ⟨rfl, rfl, min_le_left _ _, ?_⟩, fun t => by rw [hmin]; exact min_le_left _ _,
        fun t => by rw [hmin]; exact min_choice _ _, fun t => .inl (by rw [hmin]; exact min_le_right _ _)⟩
      · intro t d hd
        show Val d t (fn r t)
        have hd' : sourceAt (combine 0 s.sources ch (.short ids.1 ids.2)) t = some d := hd
        rw [sourceAt_eq q1, q2 _ tod.1] at hd'
        have hfa := faster_at hm.fast hs.valid hg t
        unfold sel at hd'
        rw [hmin]
        split at hd'
        · next h =>
          rw [if_pos h] at hfa
          rw [min_eq_left hfa]
          exact hs.val t d (by rw [sourceAt_eq hs.shape]; exact hd')
        · next h =>
          rw [if_neg h] at hfa
          rw [min_eq_right hfa]
          injection hd' with hd'; subst hd'; exact hval t
      · intro p hp
        -- every entry of the result is used
        have : ∀ p ∈ combine 0 s.sources ch (.short ids.1 ids.2), p.2 = .short ids.1 ids.2 ∨ ∃ q ∈ s.sources, q.2 = p.2 := by
          intro p hp
          have hsh := q1
          have h0 : 0 ≤ p.1 := by
            obtain ⟨d, rest, e⟩ := hsh.head
            have hsr := hsh.srt
            rw [e] at hp hsr
            unfold Srt at hsr
            rw [List.pairwise_cons] at hsr
            rw [List.mem_cons] at hp
            rcases hp with rfl | hp
            · exact le_refl _
            · exact (hsr.1 p hp).le
          have hat : atT (combine 0 s.sources ch (.short ids.1 ids.2)) p.1 = some p.2 := by
            obtain ⟨A, B, e⟩ := List.append_of_mem hp
            have hsr := hsh.srt
            rw [e] at hsr ⊢
            unfold Srt at hsr
            rw [List.pairwise_append, List.pairwise_cons] at hsr
            unfold atT
            rw [List.filter_append, List.filter_cons]
            have hB : List.filter (fun q : Rat × Src => decide (q.1 ≤ p.1)) B = [] := by
              rw [List.filter_eq_nil_iff]
              intro q hq
              have := hsr.2.1.1 q hq
              simp only [decide_eq_true_eq, not_le]; exact this
            simp [hB]
          rw [q2 _ h0] at hat
          unfold sel at hat
          split at hat
          · obtain ⟨d, h6, a, h7⟩ := atT_some hs.shape h0
            rw [h6] at hat; injection hat with hat
            exact .inr ⟨(a, d), h7, hat⟩
          · injection hat with hat; exact .inl hat.symm
        rcases this p hp with h | ⟨q, h6, h7⟩
        · rw [h]; exact hok
        · rw [← h7]; exact hs.ok q h6
      · rcases min_choice s.upper rup with h | h
        · exact .inl h
        · right; intro t; show _ ≤ min s.upper rup; rw [h]; exact r5 t
  · simp only [k1, Bool.not_false, if_true]
    simp only [Bool.not_eq_true] at k1
    rw [flt_false] at k1
    obtain ⟨s', e1, e2, e3⟩ := setLinked_spec (c := c) (s := s) hs.req hg hval hok
    exact ⟨s', g, e1, e2, e3, fun t => by have := h5 t; have := g4 t; linarith, fun _ => .inr rfl, fun _ => .inl (le_refl _)⟩

/-- a shortcut in progress: no function yet, or one -/
def Prog (ttf : Nat → Option (List Pt)) (Val : Src → Rat → Rat → Prop) (Ok : Src → Prop) (s : Shortcut) : Option (List Pt) → Prop
  | none => s.required = true ∧ s.sources = []
  | some f => Cur ttf Val Ok s f

/-- comparing the functions before and after -/
structure Less' (o : Option (List Pt)) (g : Option (List Pt)) (o' : Option (List Pt)) (u : Rat) : Prop where
  le : ∀ f, o = some f → ∃ f', o' = some f' ∧ ∀ t, fn f' t ≤ fn f t
  or : ∀ f', o' = some f' → ∀ t, (∃ f, o = some f ∧ fn f' t = fn f t) ∨ ∃ g', g = some g' ∧ fn f' t = fn g' t
  cand : ∀ g', g = some g' → ∀ t, (∃ f', o' = some f' ∧ fn f' t ≤ fn g' t) ∨ u < fn g' t

structure Step' (s s' : Shortcut) (o' : Option (List Pt)) : Prop where
  lower : s'.lower = s.lower
  const : s'.constant = s.constant
  le : s'.upper ≤ s.upper
  up : s'.upper = s.upper ∨ ∃ f', o' = some f' ∧ ∀ t, fn f' t ≤ s'.upper

/-- Merging a triangle whose arcs have the functions `fa` and `fb`. -/
theorem merge_ok (hbs : SearchBy c.bs) (htl : c.tl = Tol.exact) {inc out : List Shortcut} {s : Shortcut} {o : Option (List Pt)} (hs : Prog c.ttf Val Ok s o)
    {ids : Nat × Nat} {a b : Shortcut} (ha : inc[ids.1]? = some a) (hb : out[ids.2]? = some b) {fa fb : List Pt} (hfa : ValidTtf fa) (hfb : ValidTtf fb)
    (ta : a.ttf c.ttf = some fa) (tb : b.ttf c.ttf = some fb) (va : a.valid = true) (vb : b.valid = true) (la : ∀ t, a.lower ≤ fn fa t) (lb : ∀ t, b.lower ≤ fn fb t)
    (hval : ∀ t, Val (.short ids.1 ids.2) t (fn fa t + fn fb (t + fn fa t))) (hok : Ok (.short ids.1 ids.2)) :
    ∃ s' o' g, merge c inc out s ids = some s' ∧ Prog c.ttf Val Ok s' o' ∧ Step' s s' o' ∧ ValidTtf g ∧ (∀ t, fn g t = fn fa t + fn fb (t + fn fa t)) ∧ Less' o (some g) o' s'.upper := by
  have hreq : s.required = true := by
    cases o with
    | none => exact hs.1
    | some f => exact hs.req
  obtain ⟨g, e1, hg, hgl⟩ := link_spec hbs c.co hfa hfb
  have hgv : ∀ t, fn g t = fn fa t + fn fb (t + fn fa t) := fun t => ((fn_iff hg).1 (hgl t _ _ ((fn_iff hfa).2 rfl) ((fn_iff hfb).2 rfl))).symm
  have he : c.tl.eps = 0 := by rw [htl]; rfl
  unfold merge
  simp only [hreq, Bool.not_true, Bool.false_eq_true, if_false, ha, hb, Option.bind_eq_bind, Option.bind_some, va, vb, Bool.and_self, he]
  by_cases k : flt 0 s.upper (a.lower + b.lower) = true
  · simp only [k, if_true]
    rw [flt_iff] at k
    refine ⟨s, o, g, rfl, hs, ⟨rfl, rfl, le_refl _, .inl rfl⟩, hg, hgv, ⟨fun f hf => ⟨f, hf, fun _ => le_refl _⟩, fun f' hf' t => .inl ⟨f', hf', rfl⟩, ?_⟩⟩
    intro g' hg' t
    injection hg' with hg'; subst hg'
    right
    rw [hgv]
    have := la t
    have := lb (t + fn fa t)
    linarith
  · simp only [k, Bool.false_eq_true, if_false]
    unfold mergeLegs
    simp only [ta, tb, Option.bind_eq_bind, Option.bind_some, he, e1]
    have hval' : ∀ t, Val (.short ids.1 ids.2) t (fn g t) := fun t => by rw [hgv]; exact hval t
    cases o with
    | none =>
      have hv : s.valid = false := by simp [Shortcut.valid, hs.2]
      simp only [hv, Bool.not_false, if_true]
      obtain ⟨s', p1, p2, p3⟩ := setLinked_spec (c := c) (s := s) hreq hg hval' hok
      refine ⟨s', some g, g, p1, p2, ⟨p3.lower, p3.const, p3.le, ?_⟩, hg, hgv, ⟨fun f hf => (nomatch hf), fun f' hf' t => .inr ⟨g, rfl, by injection hf' with hf'; rw [hf']⟩,
        fun g' hg' t => .inl ⟨g, rfl, by injection hg' with hg'; rw [hg']⟩⟩⟩
      rcases p3.up with h | h
      · exact .inl h
      · exact .inr ⟨g, rfl, h⟩
    | some f =>
      have hv : s.valid = true := by
        obtain ⟨d, rest, e⟩ := hs.shape.head
        simp [Shortcut.valid, e]
      have hst : s.ttf c.ttf = some f := hs.ttf
      simp only [hv, Bool.not_true, Bool.false_eq_true, if_false, hst, Option.bind_some]
      obtain ⟨s', f', p1, p2, p3, p4⟩ := mergeTtf_spec htl hs hg hval' hok
      refine ⟨s', some f', g, p1, p2, ⟨p3.lower, p3.const, p3.le, ?_⟩, hg, hgv, ⟨?_, ?_, ?_⟩⟩
      · rcases p3.up with h | h
        · exact .inl h
        · exact .inr ⟨f', rfl, h⟩
      · intro f0 h0; injection h0 with h0; subst h0; exact ⟨f', rfl, p4.le⟩
      · intro f0 h0 t; injection h0 with h0; subst h0
        rcases p4.or t with h | h
        · exact .inl ⟨f, rfl, h⟩
        · exact .inr ⟨g, rfl, h⟩
      · intro g' hg' t; injection hg' with hg'; subst hg'
        rcases p4.cand t with h | h
        · exact .inl ⟨f', rfl, h⟩
        · exact .inr h

end
end Verif.Ftd
