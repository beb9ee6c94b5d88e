import Verif.Proof.FtdMerge
set_option linter.unusedSimpArgs false
set_option linter.unusedVariables false
/- Customizing one direction of one arc. -/
namespace Verif.Ftd
open Spec Fl Catchup

/-- one function after the other -/
noncomputable def legSum (f g : List Pt) (t : Rat) : Rat := fn f t + fn g (t + fn f t)

/-- the travel time of a source, if the arcs have the functions `F` -/
def Val (ttf : Nat → Option (List Pt)) (F : Bool → Nat → List Pt) : Src → Rat → Rat → Prop
  | .orig e, t, x => ∃ p, ttf e = some p ∧ ValidTtf p ∧ x = fn p t
  | .short d u, t, x => x = legSum (F false d) (F true u) t
  | .no, _, _ => False

structure LegOK (ttf : Nat → Option (List Pt)) (s : Shortcut) (f : List Pt) : Prop where
  fun_ : ValidTtf f
  ttf : s.ttf ttf = some f
  valid : s.valid = true
  lo : ∀ t, s.lower ≤ fn f t

/-- `x` is above the bound, or the function is at least as fast -/
def Hit (u : Rat) (o : Option (List Pt)) (t x : Rat) : Prop := u < x ∨ ∃ f, o = some f ∧ fn f t ≤ x

/-- `x` needs not be considered, or the function is at least as fast -/
def HitQ (Q : Rat → Rat → Prop) (o : Option (List Pt)) (t x : Rat) : Prop := Q t x ∨ ∃ f, o = some f ∧ fn f t ≤ x

theorem Hit.step {o o' g : Option (List Pt)} {u u' w : Rat} (hl : Less' o g o' w) (hu : u' ≤ u) {t x : Rat} (h : Hit u o t x) : Hit u' o' t x := by
  rcases h with h | ⟨f, h1, h2⟩
  · exact .inl (lt_of_le_of_lt hu h)
  · obtain ⟨f', h3, h4⟩ := hl.le f h1
    exact .inr ⟨f', h3, le_trans (h4 t) h2⟩

theorem Hit.mono {o : Option (List Pt)} {u t x x' : Rat} (hx : x ≤ x') (h : Hit u o t x) : Hit u o t x' := by
  rcases h with h | ⟨f, h1, h2⟩
  · exact .inl (lt_of_lt_of_le h hx)
  · exact .inr ⟨f, h1, le_trans h2 hx⟩

/-- the triangle is left out: an arc is missing, or is switched off and has an infinite bound -/
def Skip (u : Rat) (a b : Shortcut) : Prop := ¬ (a.required = true ∧ b.required = true) ∧ ((a.valid && b.valid) = false ∨ u < a.lower + b.lower)

variable {c : Cfg} {F : Bool → Nat → List Pt} {Ok : Src → Prop}

/-- the triangles -/
def LegsOK (c : Cfg) (F : Bool → Nat → List Pt) (Ok : Src → Prop) (u : Rat) (inc out : List Shortcut) (ids : Nat × Nat) : Prop :=
  ∃ a b, inc[ids.1]? = some a ∧ out[ids.2]? = some b ∧ (Skip u a b ∨ (a.required = true ∧ b.required = true ∧ LegOK c.ttf a (F false ids.1) ∧ LegOK c.ttf b (F true ids.2) ∧
    Ok (.short ids.1 ids.2)))

/-- both arcs of a triangle are required -/
def ReqLegs (inc out : List Shortcut) (ids : Nat × Nat) : Prop := ∃ a b, inc[ids.1]? = some a ∧ out[ids.2]? = some b ∧ a.required = true ∧ b.required = true

theorem merges_ok (hbs : SearchBy c.bs) (htl : c.tl = Tol.exact) {inc out : List Shortcut} {u : Rat} : ∀ (ts : List (Nat × Nat)) (s : Shortcut) (o : Option (List Pt)),
    Prog c.ttf (Val c.ttf F) Ok s o → s.upper ≤ u → (∀ ids ∈ ts, LegsOK c F Ok u inc out ids) →
    ∃ s' o', ts.foldlM (merge c inc out) s = some s' ∧ Prog c.ttf (Val c.ttf F) Ok s' o' ∧ (s'.constant = s.constant ∧ s'.lower = s.lower) ∧
      (s'.upper = s.upper ∨ ∃ f', o' = some f' ∧ ∀ t, fn f' t ≤ s'.upper) ∧
      (∀ t x, Hit s.upper o t x → Hit s'.upper o' t x) ∧
      (∀ ids ∈ ts, ReqLegs inc out ids → ∀ t, Hit s'.upper o' t (legSum (F false ids.1) (F true ids.2) t)) ∧
      (∀ f', o' = some f' → ∀ t, (∃ f, o = some f ∧ fn f' t = fn f t) ∨ ∃ ids ∈ ts, ReqLegs inc out ids ∧ fn f' t = legSum (F false ids.1) (F true ids.2) t)
  | [], s, o, h, _, _ => ⟨s, o, rfl, h, ⟨rfl, rfl⟩, .inl rfl, fun _ _ h => h, fun _ h => (nomatch h), fun f' h t => .inl ⟨f', h, rfl⟩⟩
  | ids :: ts, s, o, h, hu, hts => by
    obtain ⟨a, b, h1, h2, h3⟩ := hts ids (by simp)
    have he : c.tl.eps = 0 := by rw [htl]; rfl
    have hreq : s.required = true := by
      cases o with
      | none => exact h.1
      | some f => exact h.req
    have hrest := fun i (hi : i ∈ ts) => hts i (List.mem_cons_of_mem _ hi)
    rcases h3 with ⟨hr, hv⟩ | ⟨r1, r2, h3, h4, h5⟩
    · obtain ⟨s', o', e1, e2, e3, e4, e5, e6, e7⟩ := merges_ok hbs htl ts s o h hu hrest
      refine ⟨s', o', ?_, e2, e3, e4, e5, ?_, ?_⟩
      · rw [List.foldlM_cons]
        have : merge c inc out s ids = some s := by
          rcases Bool.eq_false_or_eq_true (a.valid && b.valid) with hv' | hv'
          · have hlt : flt 0 s.upper (a.lower + b.lower) = true := by
              rw [flt_iff, add_zero]
              rcases hv with hv | hv
              · rw [hv] at hv'; exact (nomatch hv')
              · exact lt_of_le_of_lt hu hv
            simp only [merge, hreq, Bool.not_true, Bool.false_eq_true, if_false, h1, h2, Option.bind_eq_bind, Option.bind_some, hv', he, hlt, if_true]
          · simp only [merge, hreq, Bool.not_true, Bool.false_eq_true, if_false, h1, h2, Option.bind_eq_bind, Option.bind_some, hv', Bool.not_false, if_true]
        simp only [this, Option.bind_eq_bind, Option.bind_some]
        exact e1
      · rintro i hi ⟨a', b', ha', hb', ra, rb⟩ t
        rw [List.mem_cons] at hi
        rcases hi with rfl | hi
        · rw [h1] at ha'; rw [h2] at hb'
          injection ha' with ha'; injection hb' with hb'
          subst ha'; subst hb'
          exact absurd ⟨ra, rb⟩ hr
        · exact e6 i hi ⟨a', b', ha', hb', ra, rb⟩ t
      · intro f' hf' t
        rcases e7 f' hf' t with h | ⟨i, hi, h⟩
        · exact .inl h
        · exact .inr ⟨i, by simp [hi], h⟩
    · obtain ⟨s1, o1, g, m1, m2, m3, m4, m5, m6⟩ := merge_ok hbs htl h h1 h2 h3.fun_ h4.fun_ h3.ttf h4.ttf h3.valid h4.valid h3.lo h4.lo (fun t => rfl) h5
      obtain ⟨s', o', e1, e2, e3, e4, e5, e6, e7⟩ := merges_ok hbs htl ts s1 o1 m2 (le_trans m3.le hu) hrest
      refine ⟨s', o', ?_, e2, ⟨by rw [e3.1, m3.const], by rw [e3.2, m3.lower]⟩, ?_, fun t x hx => e5 t x (hx.step m6 m3.le), ?_, ?_⟩
      · rw [List.foldlM_cons]
        simp only [m1, Option.bind_eq_bind, Option.bind_some]
        exact e1
      · rcases e4 with e4 | e4
        · rcases m3.up with k | ⟨f', k1, k2⟩
          · exact .inl (by rw [e4, k])
          · right
            have := fun t => e5 t (fn f' t) (.inr ⟨f', k1, le_refl _⟩)
            rw [e4] at this
            have h0 : ∀ t, ∃ f, o' = some f ∧ fn f t ≤ s1.upper := by
              intro t
              rcases this t with q | ⟨f, q1, q2⟩
              · exact absurd (k2 t) (not_le.2 q)
              · exact ⟨f, q1, le_trans q2 (k2 t)⟩
            obtain ⟨f, q1, _⟩ := h0 0
            refine ⟨f, q1, fun t => ?_⟩
            obtain ⟨f2, q3, q4⟩ := h0 t
            rw [q1] at q3; injection q3 with q3; subst q3
            rw [e4]; exact q4
        · exact .inr e4
      · rintro i hi hq t
        rw [List.mem_cons] at hi
        rcases hi with rfl | hi
        · apply e5
          rcases m6.cand g rfl t with ⟨f', q1, q2⟩ | q
          · exact .inr ⟨f', q1, by rw [legSum, ← m5]; exact q2⟩
          · left; rw [legSum, ← m5]; exact q
        · exact e6 i hi hq t
      · intro f' hf' t
        rcases e7 f' hf' t with ⟨f, q1, q2⟩ | ⟨i, hi, q⟩
        · rcases m6.or f q1 t with ⟨f0, r1, r2⟩ | ⟨g', r1', r2'⟩
          · exact .inl ⟨f0, r1, by rw [q2, r2]⟩
          · injection r1' with r1'; subst r1'
            exact .inr ⟨ids, by simp, ⟨a, b, h1, h2, r1, r2⟩, by rw [q2, r2', m5]; rfl⟩
        · exact .inr ⟨i, by simp [hi], q⟩

/-- a finished shortcut that is kept -/
structure Kept (ttf : Nat → Option (List Pt)) (F : Bool → Nat → List Pt) (Ok : Src → Prop) (B : Rat → Prop) (s : Shortcut) (f : List Pt) : Prop where
  fun_ : ValidTtf f
  shape : Shape s.sources
  val : ∀ t d, sourceAt s.sources t = some d → Val ttf F d t (fn f t)
  ok : ∀ p ∈ s.sources, Ok p.2
  lo0 : 0 ≤ s.lower
  lo : ∀ t, s.lower ≤ fn f t
  up0 : 0 ≤ s.upper
  up : B s.upper ∨ ∀ t, fn f t ≤ s.upper
  const : s.constant = true → ∀ t, fn f t = s.lower

/-- One direction of an arc: `o` is the function of the original edge. -/
theorem dir_ok (hbs : SearchBy c.bs) (htl : c.tl = Tol.exact) {inc out : List Shortcut} {ts : List (Nat × Nat)} {s : Shortcut} {o : Option (List Pt)}
    (hs : Prog c.ttf (Val c.ttf F) Ok s o) (hts : ∀ ids ∈ ts, LegsOK c F Ok s.upper inc out ids) {B : Rat → Prop} {Q : Rat → Rat → Prop}
    (hB : B s.upper) (hup0 : 0 ≤ s.upper) (hBQ : ∀ u, B u → ∀ t x, u < x → Q t x)
    (hlo : c.pre = true → s.lower ≤ s.upper ∧ (∀ f, o = some f → ∀ t, s.lower ≤ fn f t) ∧
      ∀ ids ∈ ts, ReqLegs inc out ids → ∀ t, s.lower ≤ legSum (F false ids.1) (F true ids.2) t)
    (hcst : s.constant = true → c.pre = true ∧ ((∀ d, ¬ Ok d) ∨ (∀ t, Hit s.upper o t s.lower) ∨
      ∃ ids ∈ ts, ReqLegs inc out ids ∧ ∀ t, legSum (F false ids.1) (F true ids.2) t ≤ s.lower)) :
    ∃ s' o', customizeDir c inc out ts s = some s' ∧
      (∀ t x, Hit s.upper o t x → HitQ Q o' t x) ∧
      (∀ ids ∈ ts, ReqLegs inc out ids → ∀ t, HitQ Q o' t (legSum (F false ids.1) (F true ids.2) t)) ∧
      (s.constant = true → ((∀ t, Hit s.upper o t s.lower) ∨ ∃ ids ∈ ts, ReqLegs inc out ids ∧ ∀ t, legSum (F false ids.1) (F true ids.2) t ≤ s.lower) →
        ∃ f, o' = some f ∧ ∀ t, fn f t = s.lower) ∧
      (c.pre = true → ∀ f, o' = some f → ∀ t, s.lower ≤ fn f t) ∧
      ((s'.required = false ∧ s'.upper = INF ∧ s'.sources = [] ∧ o' = none) ∨ ∃ f, o' = some f ∧ s'.required = true ∧ s'.ttf c.ttf = some f ∧ Kept c.ttf F Ok B s' f) := by
  obtain ⟨s1, o1, e1, e2, ⟨e3, e3'⟩, e4, e5, e6, e7⟩ := merges_ok hbs htl ts s o hs (le_refl _) hts
  have he : c.tl.eps = 0 := by rw [htl]; rfl
  have hlow1 : c.pre = true → ∀ f, o1 = some f → ∀ t, s.lower ≤ fn f t := by
    intro hp f hf t
    obtain ⟨_, h1, h2⟩ := hlo hp
    rcases e7 f hf t with ⟨f0, q1, q2⟩ | ⟨ids, q1, q2, q3⟩
    · rw [q2]; exact h1 f0 q1 t
    · rw [q3]; exact h2 ids q1 q2 t
  have hup1 : c.pre = true → s.lower ≤ s1.upper := by
    intro hp
    rcases e4 with h | ⟨f', h1, h2⟩
    · rw [h]; exact (hlo hp).1
    · exact le_trans (hlow1 hp f' h1 0) (h2 0)
  have hconst1 : s.constant = true → ((∀ t, Hit s.upper o t s.lower) ∨ ∃ ids ∈ ts, ReqLegs inc out ids ∧ ∀ t, legSum (F false ids.1) (F true ids.2) t ≤ s.lower) →
      ∃ f, o1 = some f ∧ ∀ t, fn f t = s.lower := by
    intro hc hh
    have hp := (hcst hc).1
    have key : ∀ t, ∃ f, o1 = some f ∧ fn f t ≤ s.lower := by
      intro t
      have : Hit s1.upper o1 t s.lower := by
        rcases hh with hh | ⟨ids, q1, q2, q3⟩
        · exact e5 t _ (hh t)
        · exact (e6 ids q1 q2 t).mono (q3 t)
      rcases this with h | h
      · exact absurd (hup1 hp) (not_le.2 h)
      · exact h
    obtain ⟨f, q1, _⟩ := key 0
    refine ⟨f, q1, fun t => ?_⟩
    obtain ⟨f2, q2, q3⟩ := key t
    rw [q1] at q2; injection q2 with q2; subst q2
    exact le_antisymm q3 (hlow1 hp f q1 t)
  have hbd : ∀ f, o1 = some f → B s1.upper ∨ ∀ t, fn f t ≤ s1.upper := by
    intro f hf
    rcases e4 with h | ⟨f', q1, q3⟩
    · left; rw [h]; exact hB
    · rw [hf] at q1; injection q1 with q1; subst q1; exact .inr q3
  have hQ : ∀ t x, Hit s1.upper o1 t x → HitQ Q o1 t x := by
    rintro t x (h | h)
    · rcases e4 with h' | ⟨f', q1, q3⟩
      · left; exact hBQ s1.upper (by rw [h']; exact hB) t x h
      · right; exact ⟨f', q1, le_of_lt (lt_of_le_of_lt (q3 t) h)⟩
    · exact .inr h
  cases o1 with
  | none =>
    obtain ⟨r1, r2⟩ := e2
    refine ⟨{ s1 with required := false, lower := INF, upper := INF }, none, ?_, fun t x hx => hQ t x (e5 t x hx), fun ids h1 h2 t => hQ t _ (e6 ids h1 h2 t), hconst1,
      hlow1, .inl ⟨rfl, rfl, r2, rfl⟩⟩
    simp only [customizeDir, e1, Option.bind_eq_bind, Option.bind_some, finalize, r1, Bool.not_true, Bool.false_eq_true, if_false, Shortcut.valid, r2, List.isEmpty_nil, if_true, Bool.not_false]
  | some f =>
    have hv : s1.valid = true := by
      obtain ⟨d, rest, e⟩ := e2.shape.head
      simp [Shortcut.valid, e]
    obtain ⟨lo, up, l1, l2, l3, l4, l5⟩ := bounds e2.valid
    generalize hlo' : (if c.pre = true then max s1.lower lo else lo) = lo'
    have hfin : customizeDir c inc out ts s = some (setLower 0 lo' s1) := by
      have hr : s1.required = true := e2.req
      have ht : s1.ttf c.ttf = some f := e2.ttf
      simp only [customizeDir, e1, Option.bind_eq_bind, Option.bind_some, finalize, hr, hv, Bool.not_true, Bool.false_eq_true, if_false, ht, l1, he, hlo']
    have hge : ∀ t, lo' ≤ fn f t := by
      intro t
      rw [← hlo']
      split
      · next hp => exact max_le (by rw [e3']; exact hlow1 hp f rfl t) (l4 t)
      · exact l4 t
    have h0 : 0 ≤ lo' := by
      rw [← hlo']
      split
      · exact le_trans l3 (le_max_right _ _)
      · exact l3
    by_cases k : flt 0 s1.upper lo' = true
    · have hk := flt_iff.1 k
      rw [add_zero] at hk
      have hQ' : ∀ t x, Hit s1.upper (some f) t x → HitQ Q none t x := by
        intro t x hx
        left
        have hlt : s1.upper < x := by
          rcases hx with h | ⟨f', q1, q2⟩
          · exact h
          · injection q1 with q1; subst q1
            exact lt_of_lt_of_le hk (le_trans (hge t) q2)
        rcases e4 with h' | ⟨f', q1, q3⟩
        · exact hBQ s1.upper (by rw [h']; exact hB) t x hlt
        · injection q1 with q1; subst q1
          exact absurd (lt_of_lt_of_le hk (hge t)) (not_lt.2 (q3 t))
      refine ⟨setLower 0 lo' s1, none, hfin, fun t x hx => hQ' t x (e5 t x hx), fun ids h1 h2 t => hQ' t _ (e6 ids h1 h2 t), ?_, fun _ f hf => (nomatch hf), .inl ?_⟩
      · intro hc hh
        obtain ⟨f', q1, q2⟩ := hconst1 hc hh
        injection q1 with q1; subst q1
        have := hup1 (hcst hc).1
        have := hge 0
        rw [q2 0] at this
        linarith
      · unfold setLower; rw [if_pos k]; exact ⟨rfl, rfl, rfl, rfl⟩
    · refine ⟨setLower 0 lo' s1, some f, hfin, fun t x hx => hQ t x (e5 t x hx), fun ids h1 h2 t => hQ t _ (e6 ids h1 h2 t), hconst1, hlow1, .inr ⟨f, rfl, ?_⟩⟩
      unfold setLower
      rw [if_neg k]
      refine ⟨e2.req, e2.ttf, e2.valid, e2.shape, e2.val, e2.ok, h0, hge, ?_, hbd f rfl, ?_⟩
      · rcases e4 with h | ⟨f', q1, q3⟩
        · show 0 ≤ s1.upper
          rw [h]; exact hup0
        · injection q1 with q1; subst q1
          exact le_trans (fn_nonneg e2.valid 0) (q3 0)
      · intro hc t
        have hc' : s.constant = true := by rw [← e3]; exact hc
        obtain ⟨hp, hh⟩ := hcst hc'
        rcases hh with hh | hh
        · obtain ⟨d, rest, e⟩ := e2.shape.head
          exact absurd (e2.ok _ (by rw [e]; exact List.mem_cons_self)) (hh _)
        · obtain ⟨f', q1, q2⟩ := hconst1 hc' hh
          injection q1 with q1; subst q1
          apply le_antisymm _ (hge t)
          show fn f t ≤ lo'
          rw [← hlo', if_pos hp, q2, e3']
          exact le_max_left _ _

/-- A shortcut that is switched off stays so. -/
theorem dir_off {inc out : List Shortcut} {s : Shortcut} (hs : s.required = false) : ∀ (ts : List (Nat × Nat)), customizeDir c inc out ts s = some s := by
  have hm : ∀ ids, merge c inc out s ids = some s := by
    intro ids
    simp only [merge, hs, Bool.not_false, if_true]
  have hf : ∀ (ts : List (Nat × Nat)), ts.foldlM (merge c inc out) s = some s := by
    intro ts
    induction ts with
    | nil => rfl
    | cons ids ts ih => rw [List.foldlM_cons, hm]; exact ih
  intro ts
  simp only [customizeDir, hf, Option.bind_eq_bind, Option.bind_some, finalize, hs, Bool.not_false, if_true]

end Verif.Ftd
