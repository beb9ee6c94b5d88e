import Verif.Proof.FtdArc
import Verif.Proof.FtdPreOK
import Verif.Proof.FtdTriangles
import Verif.Proof.CatchupCorridor
set_option linter.unusedSimpArgs false
set_option linter.unusedVariables false
/- All arcs of a hierarchy. -/
namespace Verif.Ftd
open Spec Fl Catchup

section
variable (c : Cfg) (R : Network) (arcs : List (Nat × Nat)) (orig : Bool → Nat → Option Nat) (L : Bool → Nat → Rat) (init : Both)

/-- the functions, if required, of finished arcs -/
abbrev Ghost := Bool → Nat → Option (List Pt)
def Ghost.F (g : Ghost) : Bool → Nat → List Pt := fun dir i => (g dir i).getD []

/-- travel times that an arc must not exceed -/
def Cand (g : Ghost) (dir : Bool) (i : Nat) (a : Nat × Nat) (t x : Rat) : Prop :=
  (∃ e p, orig dir i = some e ∧ c.ttf e = some p ∧ x = fn p t) ∨
  ∃ d u z fd fu, arcs[d]? = some (z, a0 dir a) ∧ arcs[u]? = some (z, a1 dir a) ∧ g false d = some fd ∧ g true u = some fu ∧ x = legSum fd fu t

/-- sources that an arc may have -/
def OkSrc (g : Ghost) (dir : Bool) (i : Nat) (a : Nat × Nat) : Src → Prop
  | .orig e => orig dir i = some e
  | .short d u => ∃ z fd fu, arcs[d]? = some (z, a0 dir a) ∧ arcs[u]? = some (z, a1 dir a) ∧ g false d = some fd ∧ g true u = some fu
  | .no => False

/-- a valid upper bound -/
def UpOK (u v : Nat) (x : Rat) : Prop := x < INF → Within R u v x

/-- travel times that are infinite or not the least ones -/
def Slow (u v : Nat) (t x : Rat) : Prop := INF ≤ x ∨ ∃ y, y < x ∧ Trip R u t v (t + y)

structure DoneS (g : Ghost) (w : Nat) (dir : Bool) (i : Nat) (a : Nat × Nat) (s : Shortcut) : Prop where
  full : ∀ t x, Cand c arcs orig g dir i a t x → HitQ (Slow R (a0 dir a) (a1 dir a)) (g dir i) t x
  out : g dir i = none → s.required = false ∧ s.upper = INF ∧ (∀ p ∈ s.sources, ∃ e, p.2 = .orig e) ∧ (s.sources = [] ∨ (c.pre = true ∧ INF ≤ s.lower ∧ Unf arcs orig dir i))
  kept : ∀ f, g dir i = some f → s.required = true ∧ Kept c.ttf g.F (OkSrc arcs orig g dir i a) (UpOK R (a0 dir a) (a1 dir a)) s f ∧ (w ≤ a.2 → s.ttf c.ttf = some f) ∧
    ∀ t, Trip R (a0 dir a) t (a1 dir a) (t + fn f t)
  unf : ∀ f, g dir i = some f → Unf arcs orig dir i ∧ ∀ t, L dir i ≤ fn f t
  cst : ∀ s0, (side init dir)[i]? = some s0 → s0.required = true → s0.constant = true → L dir i < INF → ∃ f, g dir i = some f ∧ ∀ t, fn f t = L dir i

structure Inv (D : Nat → Prop) (w : Nat) (st : List Shortcut × List Shortcut) (g : Ghost) : Prop where
  len : ∀ dir, (side st dir).length = arcs.length
  fresh : ∀ (dir : Bool) (i : Nat), ¬ D i → (side st dir)[i]? = (side init dir)[i]?
  done : ∀ (dir : Bool) (i : Nat) (a : Nat × Nat) (s : Shortcut), D i → arcs[i]? = some a → (side st dir)[i]? = some s → DoneS c R arcs orig L init g w dir i a s

end

variable {c : Cfg} {R : Network} {arcs : List (Nat × Nat)} {orig : Bool → Nat → Option Nat} {n : Nat} {par : Nat → Option Nat} {L : Bool → Nat → Rat} {init : Both}

theorem sourceAt_mem {l : List (Rat × Src)} (h : Shape l) {t : Rat} {d : Src} (hd : sourceAt l t = some d) : ∃ p ∈ l, p.2 = d := by
  rw [sourceAt_eq h] at hd
  obtain ⟨d', h1, a, h2⟩ := atT_some h (t := (splitDay t).2) tod.1
  rw [h1] at hd; injection hd with hd; subst hd
  exact ⟨_, h2, rfl⟩

theorem a_lt {a : Nat × Nat} (h : a.1 < a.2) (dir : Bool) : a.1 ≤ a0 dir a ∧ a.1 ≤ a1 dir a := by
  cases dir <;> simp [a0, a1] <;> omega

/-- the functions of other arcs may change -/
theorem DoneS.frame (hT : HierarchyOK arcs n par) {g g' : Ghost} {id : Nat} {b : Nat × Nat} (hb : arcs[id]? = some b) (hg : ∀ dir j, j ≠ id → g' dir j = g dir j) {w : Nat} {dir : Bool}
    {i : Nat} {a : Nat × Nat} (ha : arcs[i]? = some a) (hab : a.1 ≤ b.1) (hi : i ≠ id) {s : Shortcut} (h : DoneS c R arcs orig L init g w dir i a s) : DoneS c R arcs orig L init g' w dir i a s := by
  have hne : ∀ {d z y : Nat}, arcs[d]? = some (z, y) → z < a.1 → d ≠ id := by
    intro d z y h1 h2 e
    rw [e, hb] at h1; injection h1 with h1; rw [h1] at hab; simp only at hab; omega
  have halt := (hT.up _ _ ha).1
  have hok : ∀ d, OkSrc arcs orig g dir i a d → OkSrc arcs orig g' dir i a d := by
    intro d hd
    cases d with
    | orig e => exact hd
    | no => exact hd
    | short d u =>
      obtain ⟨z, fd, fu, h1, h2, h3, h4⟩ := hd
      have hz := leg_lt hT halt h1 h2
      exact ⟨z, fd, fu, h1, h2, by rw [hg _ _ (hne h1 hz), h3], by rw [hg _ _ (hne h2 hz), h4]⟩
  refine ⟨?_, ?_, ?_, by rw [hg dir i hi]; exact h.unf, by rw [hg dir i hi]; exact h.cst⟩
  · intro t x hx
    rw [hg dir i hi]
    apply h.full
    rcases hx with hx | ⟨d, u, z, fd, fu, h1, h2, h3, h4, h5⟩
    · exact .inl hx
    · have hz := leg_lt hT halt h1 h2
      rw [hg _ _ (hne h1 hz)] at h3
      rw [hg _ _ (hne h2 hz)] at h4
      exact .inr ⟨d, u, z, fd, fu, h1, h2, h3, h4, h5⟩
  · rw [hg dir i hi]; exact h.out
  · rw [hg dir i hi]
    intro f hf
    obtain ⟨k1, k2, k3, k4⟩ := h.kept f hf
    refine ⟨k1, ?_, k3, k4⟩
    refine ⟨k2.fun_, k2.shape, ?_, fun p hp => hok _ (k2.ok p hp), k2.lo0, k2.lo, k2.up0, k2.up, k2.const⟩
    intro t d hd
    have hv := k2.val t d hd
    obtain ⟨p, hp, e⟩ := sourceAt_mem k2.shape hd
    have hk := k2.ok p hp
    rw [e] at hk
    cases d with
    | orig e => exact hv
    | no => exact hv
    | short d u =>
      obtain ⟨z, fd, fu, h1, h2, h3, h4⟩ := hk
      have hz := leg_lt hT halt h1 h2
      simp only [Val, Ghost.F] at hv ⊢
      rw [hg _ _ (hne h1 hz), hg _ _ (hne h2 hz)]
      exact hv

/-- the initial shortcut -/
theorem start_prog (hI : PreOK c R arcs orig L init) {g : Ghost} {dir : Bool} {i : Nat} {a : Nat × Nat} (ha : arcs[i]? = some a) {s : Shortcut}
    (hs : (side init dir)[i]? = some s) (hr : s.required = true) : ∃ o, Prog c.ttf (Val c.ttf g.F) (OkSrc arcs orig g dir i a) s o ∧
      (∀ f, o = some f → ∀ t, L dir i ≤ fn f t) ∧ ∀ u t x e p, orig dir i = some e → c.ttf e = some p → fn p t ≤ x → Hit u o t x := by
  obtain ⟨s0, h, hsrc, hca⟩ := hI.start dir i s hs
  cases ho : orig dir i with
  | none =>
    rw [ho] at h
    simp only [newShortcut, Option.some.injEq] at h
    subst h
    exact ⟨none, ⟨hr, hsrc⟩, fun f h => (nomatch h), fun u t x e p h => (nomatch h)⟩
  | some e =>
    rw [ho] at h
    obtain ⟨p, h1, h2, h3⟩ := hI.road dir i a e ha ho
    obtain ⟨lo, up, l1, l2, l3, l4, l5⟩ := bounds h2
    simp only [newShortcut, h1, l1, l2, Option.bind_eq_bind, Option.bind_some, Option.some.injEq] at h
    subst h
    simp only at hsrc hca
    have httf : s.ttf c.ttf = some p := by
      unfold Shortcut.ttf
      rw [hca, hsrc]
      exact h1
    refine ⟨some p, ⟨hr, httf, h2, by rw [hsrc]; exact ⟨⟨_, _, rfl⟩, by simp [Srt], by simp [Spec.day]⟩, ?_, ?_⟩, ?_, ?_⟩
    · intro t d hd
      rw [hsrc] at hd
      simp only [sourceAt, Option.some.injEq] at hd
      subst hd
      exact ⟨p, h1, h2, rfl⟩
    · intro q hq
      rw [hsrc] at hq
      simp only [List.mem_singleton] at hq
      subst hq
      exact ho
    · intro f hf t
      injection hf with hf; subst hf
      exact hI.lroad dir i a e p ha ho h1 t
    · intro u t x e' p' h4 h5 h6
      injection h4 with h4; subst h4
      rw [h1] at h5; injection h5 with h5; subst h5
      exact .inr ⟨p, rfl, h6⟩

/-- shortcuts that are switched off from the start -/
theorem off_ok (hI : PreOK c R arcs orig L init) {dir : Bool} {i : Nat} {a : Nat × Nat} (ha : arcs[i]? = some a) {s : Shortcut}
    (hs : (side init dir)[i]? = some s) (hr : s.required = false) : c.pre = true ∧ INF ≤ s.lower ∧ (s.sources = [] ∨ Unf arcs orig dir i) := by
  refine ⟨?_, by rw [(hI.off dir i a s ha hs hr).1], ?_⟩
  · rcases Bool.eq_false_or_eq_true c.pre with h | h
    · exact h
    · rw [(hI.nopre h dir i s hs).1] at hr; exact (nomatch hr)
  · obtain ⟨s0, h, hsrc, _⟩ := hI.start dir i s hs
    cases ho : orig dir i with
    | none =>
      rw [ho] at h
      simp only [newShortcut, Option.some.injEq] at h
      subst h
      exact .inl hsrc
    | some e => exact .inr (.road ho)

/-- One direction of an arc, given the functions of the arcs from lower nodes. -/
theorem dir_done (hbs : SearchBy c.bs) (htl : c.tl = Tol.exact) (hT : HierarchyOK arcs n par) {st : List Shortcut × List Shortcut} (hI : PreOK c R arcs orig L init)
    {D : Nat → Prop} {w : Nat} {g : Ghost} (hinv : Inv c R arcs orig L init D w st g) (hlow : ∀ i a, arcs[i]? = some a → a.1 < w → D i) {dir : Bool} {id : Nat} {a : Nat × Nat}
    (ha : arcs[id]? = some a) (hw : a.1 = w) (hD : ¬ D id) {ts : List (Nat × Nat)}
    (hts : ∀ d u, (d, u) ∈ ts ↔ ∃ z, arcs[d]? = some (z, a0 dir a) ∧ arcs[u]? = some (z, a1 dir a)) :
    ∃ s s' o, (side st dir)[id]? = some s ∧ customizeDir c st.2 st.1 ts s = some s' ∧
      ∀ g' : Ghost, g' dir id = o → (∀ dir' j, j ≠ id → g' dir' j = g dir' j) → DoneS c R arcs orig L init g' w dir id a s' := by
  have halt := (hT.up _ _ ha).1
  have hlt : id < (side st dir).length := by rw [hinv.len]; exact (List.getElem?_eq_some_iff.1 ha).1
  obtain ⟨s, hs⟩ : ∃ s, (side st dir)[id]? = some s := ⟨_, List.getElem?_eq_getElem hlt⟩
  have hs0 := hs
  rw [hinv.fresh dir id hD] at hs0
  have hne : ∀ {d z y : Nat}, arcs[d]? = some (z, y) → z < a.1 → d ≠ id := by
    intro d z y h1 h2 e
    rw [e, ha] at h1; injection h1 with h1; rw [h1] at h2; simp only at h2; omega
  have hy := a_lt halt dir
  -- the arcs of triangles
  have hleg : ∀ {d z y : Nat} (dir' : Bool), arcs[d]? = some (z, y) → z < w → w ≤ y → ∃ sd, (side st dir')[d]? = some sd ∧ DoneS c R arcs orig L init g w dir' d (z, y) sd ∧
      (sd.required = true ↔ ∃ f, g dir' d = some f) ∧ (sd.required = true → LegOK c.ttf sd (g.F dir' d)) ∧
      (sd.valid = true → 0 ≤ sd.lower ∧ Unf arcs orig dir' d ∧ (sd.required = false → c.pre = true ∧ INF ≤ sd.lower)) := by
    intro d z y dir' h1 h2 h3
    have hl : d < (side st dir').length := by rw [hinv.len]; exact (List.getElem?_eq_some_iff.1 h1).1
    have hsd : (side st dir')[d]? = some (side st dir')[d] := List.getElem?_eq_getElem hl
    have hdone := hinv.done dir' d _ _ (hlow _ _ h1 h2) h1 hsd
    refine ⟨_, hsd, hdone, ?_⟩
    cases hg : g dir' d with
    | none =>
      obtain ⟨q1, _, _, q2⟩ := hdone.out hg
      refine ⟨⟨fun h => by rw [q1] at h; exact (nomatch h), fun ⟨_, h⟩ => (nomatch h)⟩, fun h => by rw [q1] at h; exact (nomatch h), ?_⟩
      intro hv
      rcases q2 with q2 | ⟨q2, q3, q4⟩
      · simp [Shortcut.valid, q2] at hv
      · exact ⟨le_trans (by decide +kernel) q3, q4, fun _ => ⟨q2, q3⟩⟩
    | some f =>
      obtain ⟨q1, q2, q3, _⟩ := hdone.kept f hg
      refine ⟨⟨fun _ => ⟨f, rfl⟩, fun _ => q1⟩, fun _ => ?_, fun _ => ⟨q2.lo0, (hdone.unf f hg).1, fun h => by rw [q1] at h; exact (nomatch h)⟩⟩
      have hF : g.F dir' d = f := by unfold Ghost.F; rw [hg]; rfl
      rw [hF]
      refine ⟨q2.fun_, q3 h3, ?_, q2.lo⟩
      obtain ⟨d', rest, e⟩ := q2.shape.head
      simp [Shortcut.valid, e]
  -- functions of required legs are not below the bound
  have hleglow : ∀ {d u z : Nat} {fd fu : List Pt}, arcs[d]? = some (z, a0 dir a) → arcs[u]? = some (z, a1 dir a) → g false d = some fd → g true u = some fu → ∀ t, L dir id ≤ legSum fd fu t := by
    intro d u z fd fu h1 h2 h3 h4 t
    have hz := leg_lt hT halt h1 h2
    obtain ⟨sd, _, k2, _⟩ := hleg false h1 (by omega) (by omega)
    obtain ⟨su, _, m2, _⟩ := hleg true h2 (by omega) (by omega)
    have e1 := (k2.unf fd h3).2 t
    have e2 := (m2.unf fu h4).2 (t + fn fd t)
    have e3 := hI.ltri dir id d u z a ha h1 h2
    unfold legSum
    linarith
  have hcandlow : ∀ g' : Ghost, (∀ dir' j, j ≠ id → g' dir' j = g dir' j) → ∀ t x, Cand c arcs orig g' dir id a t x → L dir id ≤ x := by
    rintro g' hg2 t x (⟨e, p, h1, h2, rfl⟩ | ⟨d, u, z, fd, fu, h1, h2, h3, h4, rfl⟩)
    · exact hI.lroad dir id a e p ha h1 h2 t
    · have hz := leg_lt hT halt h1 h2
      rw [hg2 _ _ (hne h1 hz)] at h3
      rw [hg2 _ _ (hne h2 hz)] at h4
      exact hleglow h1 h2 h3 h4 t
  rcases Bool.eq_false_or_eq_true s.required with hr | hr
  swap
  -- switched off
  · obtain ⟨o1, o2, o3⟩ := off_ok hI ha hs0 hr
    obtain ⟨_, o6, x0, o4, o5⟩ := hI.off dir id a s ha hs0 hr
    refine ⟨s, s, none, hs, dir_off hr ts, ?_⟩
    intro g' hg1 hg2
    refine ⟨?_, ?_, fun f hf => by rw [hg1] at hf; exact (nomatch hf), fun f hf => by rw [hg1] at hf; exact (nomatch hf), ?_⟩
    · intro t x hx
      have := hcandlow g' hg2 t x hx
      obtain ⟨y, y1, y2⟩ := o5 t
      exact .inl (.inr ⟨y, by linarith, y2⟩)
    · intro _
      refine ⟨hr, o6, ?_, ?_⟩
      · obtain ⟨s0, h, hsrc, _⟩ := hI.start dir id s hs0
        rw [hsrc]
        cases ho : orig dir id with
        | none => rw [ho] at h; simp only [newShortcut, Option.some.injEq] at h; subst h; intro p hp; exact (nomatch hp)
        | some e =>
          rw [ho] at h
          simp only [newShortcut, Option.bind_eq_bind, Option.bind_eq_some_iff, Option.some.injEq] at h
          obtain ⟨p, _, lo, _, up, _, h⟩ := h
          subst h
          intro p hp
          simp only [List.mem_singleton] at hp
          exact ⟨e, by rw [hp]⟩
      rcases o3 with o3 | o3
      · exact .inl o3
      · exact .inr ⟨o1, o2, o3⟩
    · intro s0 h1 h2
      rw [hs0] at h1; injection h1 with h1; subst h1
      rw [hr] at h2; exact (nomatch h2)
  obtain ⟨n1, n2, n3⟩ := hI.on dir id a s ha hs0 hr
  obtain ⟨o0, p1, p2, p3⟩ := start_prog hI (g := g) ha hs0 hr
  have hL0 := hI.lo0 dir id a ha
  have hpre : s.constant = true → c.pre = true := by
    intro hc
    rcases Bool.eq_false_or_eq_true c.pre with h | h
    · exact h
    · rw [(hI.nopre h dir id s hs0).2] at hc; exact (nomatch hc)
  have hreq : ∀ {d u z : Nat}, arcs[d]? = some (z, a0 dir a) → arcs[u]? = some (z, a1 dir a) → (ReqLegs st.2 st.1 (d, u) ↔ ∃ fd fu, g false d = some fd ∧ g true u = some fu) := by
    intro d u z h1 h2
    have hz := leg_lt hT halt h1 h2
    obtain ⟨sd, k1, _, k3, _⟩ := hleg false h1 (by omega) (by omega)
    obtain ⟨su, m1, _, m3, _⟩ := hleg true h2 (by omega) (by omega)
    constructor
    · rintro ⟨x, y, x1, y1, x2, y2⟩
      have x1' : (side st false)[d]? = some x := x1
      have y1' : (side st true)[u]? = some y := y1
      rw [k1] at x1'; injection x1' with x1'; subst x1'
      rw [m1] at y1'; injection y1' with y1'; subst y1'
      obtain ⟨fd, hfd⟩ := k3.1 x2
      obtain ⟨fu, hfu⟩ := m3.1 y2
      exact ⟨fd, fu, hfd, hfu⟩
    · rintro ⟨fd, fu, hfd, hfu⟩
      exact ⟨sd, su, k1, m1, k3.2 ⟨fd, hfd⟩, m3.2 ⟨fu, hfu⟩⟩
  have hunf : ∀ src, OkSrc arcs orig g dir id a src → Unf arcs orig dir id := by
    intro src hsrc
    cases src with
    | orig e => exact .road hsrc
    | no => exact absurd hsrc (by simp [OkSrc])
    | short d u =>
      obtain ⟨z, fd, fu, h1, h2, h3, h4⟩ := hsrc
      have hz := leg_lt hT halt h1 h2
      obtain ⟨sd, _, k2, _⟩ := hleg false h1 (by omega) (by omega)
      obtain ⟨su, _, m2, _⟩ := hleg true h2 (by omega) (by omega)
      exact .tri ha h1 h2 (k2.unf fd h3).1 (m2.unf fu h4).1
  -- constant shortcuts
  have hcon : s.constant = true → L dir id < INF → (∀ t, Hit s.upper o0 t s.lower) ∨ ∃ ids ∈ ts, ReqLegs st.2 st.1 ids ∧ ∀ t, legSum (g.F false ids.1) (g.F true ids.2) t ≤ s.lower := by
    intro hc hlt
    rw [n1 (hpre hc)]
    rcases hI.cst dir id a s ha hs0 hr hc hlt with ⟨e, p, e1, e2, e3⟩ | ⟨d, u, z, sd, su, e1, e2, d1, u1, d2, d3, u2, u3, e3⟩
    · left
      intro t
      exact p3 _ t _ e p e1 e2 (e3 t)
    · right
      have hz := leg_lt hT halt e1 e2
      have z1 := hI.lo0 false d _ e1
      have z2 := hI.lo0 true u _ e2
      obtain ⟨_, _, k2, _⟩ := hleg false e1 (by omega) (by omega)
      obtain ⟨_, _, m2, _⟩ := hleg true e2 (by omega) (by omega)
      obtain ⟨fd, f1, f2⟩ := k2.cst sd d1 d2 d3 (by linarith)
      obtain ⟨fu, f3, f4⟩ := m2.cst su u1 u2 u3 (by linarith)
      refine ⟨(d, u), (hts d u).2 ⟨z, e1, e2⟩, (hreq e1 e2).2 ⟨fd, fu, f1, f3⟩, fun t => ?_⟩
      simp only [Ghost.F, f1, f3, Option.getD_some, legSum]
      rw [f2, f4]
      exact e3
  obtain ⟨s', o', e1, e2, e3, e3', e3'', e4⟩ := dir_ok (F := g.F) (Ok := OkSrc arcs orig g dir id a) (B := UpOK R (a0 dir a) (a1 dir a)) (Q := Slow R (a0 dir a) (a1 dir a))
    hbs htl (inc := st.2) (out := st.1) (ts := ts) p1 (by
    rintro ⟨d, u⟩ hids
    obtain ⟨z, h1, h2⟩ := (hts d u).1 hids
    have hz := leg_lt hT halt h1 h2
    obtain ⟨sd, k1, k2, k3, k4, k5⟩ := hleg false h1 (by omega) (by omega)
    obtain ⟨su, m1, m2, m3, m4, m5⟩ := hleg true h2 (by omega) (by omega)
    refine ⟨sd, su, k1, m1, ?_⟩
    by_cases hq : sd.required = true ∧ su.required = true
    · obtain ⟨fd, hfd⟩ := k3.1 hq.1
      obtain ⟨fu, hfu⟩ := m3.1 hq.2
      exact .inr ⟨hq.1, hq.2, k4 hq.1, m4 hq.2, z, fd, fu, h1, h2, hfd, hfu⟩
    · refine .inl ⟨hq, ?_⟩
      rcases Bool.eq_false_or_eq_true (sd.valid && su.valid) with hv | hv
      · right
        rw [Bool.and_eq_true] at hv
        obtain ⟨v1, v2, v3⟩ := k5 hv.1
        obtain ⟨w1, w2, w3⟩ := m5 hv.2
        have hoff : c.pre = true ∧ INF ≤ sd.lower + su.lower := by
          rcases Bool.eq_false_or_eq_true sd.required with r | r
          · rcases Bool.eq_false_or_eq_true su.required with r' | r'
            · exact absurd ⟨r, r'⟩ hq
            · obtain ⟨q1, q2⟩ := w3 r'
              exact ⟨q1, by linarith⟩
          · obtain ⟨q1, q2⟩ := v3 r
            exact ⟨q1, by linarith⟩
        exact lt_of_lt_of_le (hI.fin dir id a s hoff.1 ha hs0 hr (.tri ha h1 h2 v2 w2)) hoff.2
      · exact .inl hv) n3 (le_trans hL0 n2) (by
    intro u hu t x hux
    rcases lt_or_ge u INF with h | h
    · obtain ⟨y, y1, y2⟩ := hu h t
      exact .inr ⟨y, by linarith, y2⟩
    · exact .inl (by linarith)) (by
    intro hp
    rw [n1 hp]
    refine ⟨n2, p2, ?_⟩
    rintro ⟨d, u⟩ hids hq t
    obtain ⟨z, h1, h2⟩ := (hts d u).1 hids
    obtain ⟨fd, fu, h3, h4⟩ := (hreq h1 h2).1 hq
    have := hleglow h1 h2 h3 h4 t
    simpa [Ghost.F, h3, h4] using this) (by
    intro hc
    refine ⟨hpre hc, ?_⟩
    rcases lt_or_ge (L dir id) INF with h | h
    · exact .inr (hcon hc h)
    · left
      intro src hsrc
      have := hI.fin dir id a s (hpre hc) ha hs0 hr (hunf src hsrc)
      linarith)
  refine ⟨s, s', o', hs, e1, ?_⟩
  intro g' hg1 hg2
  have hfull : ∀ t x, Cand c arcs orig g' dir id a t x → HitQ (Slow R (a0 dir a) (a1 dir a)) o' t x := by
    rintro t x (⟨e, p, h1, h2, h3⟩ | ⟨d, u, z, fd, fu, h1, h2, h3, h4, rfl⟩)
    · exact e2 t x (p3 _ t x e p h1 h2 (by rw [h3]))
    · have hz := leg_lt hT halt h1 h2
      rw [hg2 _ _ (hne h1 hz)] at h3
      rw [hg2 _ _ (hne h2 hz)] at h4
      have := e3 (d, u) ((hts d u).2 ⟨z, h1, h2⟩) ((hreq h1 h2).2 ⟨fd, fu, h3, h4⟩) t
      simpa [Ghost.F, h3, h4] using this
  have hcst : ∀ s0, (side init dir)[id]? = some s0 → s0.required = true → s0.constant = true → L dir id < INF → ∃ f, g' dir id = some f ∧ ∀ t, fn f t = L dir id := by
    intro s0 h1 _ hc hlt
    rw [hs0] at h1; injection h1 with h1; subst h1
    obtain ⟨f, q1, q2⟩ := e3' hc (hcon hc hlt)
    rw [hg1]
    exact ⟨f, q1, fun t => by rw [q2, n1 (hpre hc)]⟩
  -- first for the old functions with the new one
  rcases e4 with ⟨q1, q0, q2, rfl⟩ | ⟨f, rfl, q1, q2, q3⟩
  · exact ⟨by rw [hg1]; exact hfull, fun _ => ⟨q1, q0, by rw [q2]; intro p hp; exact (nomatch hp), .inl q2⟩, fun f hf => by rw [hg1] at hf; exact (nomatch hf), fun f hf => by rw [hg1] at hf; exact (nomatch hf), hcst⟩
  · refine ⟨by rw [hg1]; exact hfull, fun h => by rw [hg1] at h; exact (nomatch h), ?_, ?_, hcst⟩
    swap
    · intro f' hf'
      rw [hg1] at hf'; injection hf' with hf'; subst hf'
      constructor
      · obtain ⟨d, rest, e⟩ := q3.shape.head
        exact hunf _ (q3.ok _ (by rw [e]; exact List.mem_cons_self))
      · intro t
        obtain ⟨d, hd, _⟩ := atT_some q3.shape (t := (splitDay t).2) tod.1
        rw [← sourceAt_eq q3.shape] at hd
        have hv := q3.val t d hd
        obtain ⟨p, hp, e⟩ := sourceAt_mem q3.shape hd
        have hk := q3.ok p hp
        rw [e] at hk
        cases d with
        | no => exact absurd hv (by simp [Val])
        | orig e0 =>
          obtain ⟨p, v1, v2, v3⟩ := hv
          rw [v3]
          exact hI.lroad dir id a e0 p ha hk v1 t
        | short d u =>
          obtain ⟨z, fd, fu, h1, h2, h3, h4⟩ := hk
          simp only [Val, Ghost.F, h3, h4, Option.getD_some] at hv
          rw [hv]
          exact hleglow h1 h2 h3 h4 t
    intro f' hf'
    rw [hg1] at hf'; injection hf' with hf'; subst hf'
    have hok : ∀ d, OkSrc arcs orig g dir id a d → OkSrc arcs orig g' dir id a d := by
      intro d hd
      cases d with
      | orig e => exact hd
      | no => exact hd
      | short d u =>
        obtain ⟨z, fd, fu, h1, h2, h3, h4⟩ := hd
        have hz := leg_lt hT halt h1 h2
        exact ⟨z, fd, fu, h1, h2, by rw [hg2 _ _ (hne h1 hz), h3], by rw [hg2 _ _ (hne h2 hz), h4]⟩
    refine ⟨q1, ⟨q3.fun_, q3.shape, ?_, fun p hp => hok _ (q3.ok p hp), q3.lo0, q3.lo, q3.up0, q3.up, q3.const⟩, fun _ => q2, ?_⟩
    · intro t d hd
      have hv := q3.val t d hd
      obtain ⟨p, hp, e⟩ := sourceAt_mem q3.shape hd
      have hk := q3.ok p hp
      rw [e] at hk
      cases d with
      | orig e => exact hv
      | no => exact hv
      | short d u =>
        obtain ⟨z, fd, fu, h1, h2, h3, h4⟩ := hk
        have hz := leg_lt hT halt h1 h2
        simp only [Val, Ghost.F] at hv ⊢
        rw [hg2 _ _ (hne h1 hz), hg2 _ _ (hne h2 hz)]
        exact hv
    · intro t
      obtain ⟨d, hd, _⟩ := atT_some q3.shape (t := (splitDay t).2) tod.1
      rw [← sourceAt_eq q3.shape] at hd
      have hv := q3.val t d hd
      obtain ⟨p, hp, e⟩ := sourceAt_mem q3.shape hd
      have hk := q3.ok p hp
      rw [e] at hk
      cases d with
      | no => exact absurd hv (by simp [Val])
      | orig e0 =>
        obtain ⟨p, v1, v2, v3⟩ := hv
        obtain ⟨p', w1, w2, w3⟩ := hI.road dir id a e0 ha hk
        rw [v1] at w1; injection w1 with w1; subst w1
        rw [v3]
        exact .there (w3 t) (.here _ _)
      | short d u =>
        obtain ⟨z, fd, fu, h1, h2, h3, h4⟩ := hk
        have hz := leg_lt hT halt h1 h2
        simp only [Val, Ghost.F, h3, h4, Option.getD_some, legSum] at hv
        rw [hv, ← add_assoc]
        obtain ⟨sd, k1, k2, _⟩ := hleg false h1 (by omega) (by omega)
        obtain ⟨su, m1, m2, _⟩ := hleg true h2 (by omega) (by omega)
        have t1 := (k2.kept fd h3).2.2.2 t
        have t2 := (m2.kept fu h4).2.2.2 (t + fn fd t)
        exact t1.append t2

theorem side_upd (st : List Shortcut × List Shortcut) (x y : List Shortcut) (dir : Bool) : side (x, y) dir = if dir then x else y := rfl

/-- One arc. -/
theorem arc_ok (hbs : SearchBy c.bs) (htl : c.tl = Tol.exact) (hsrt : ∀ k l, (c.srt k l).Perm l) (hT : HierarchyOK arcs n par)
    {st : List Shortcut × List Shortcut} (hI : PreOK c R arcs orig L init)
    {D : Nat → Prop} {w : Nat} {g : Ghost} (hinv : Inv c R arcs orig L init D w st g) (hlow : ∀ i a, arcs[i]? = some a → a.1 < w → D i) (hup : ∀ i a, D i → arcs[i]? = some a → a.1 ≤ w)
    {id : Nat} {a : Nat × Nat} (ha : arcs[id]? = some a) (hw : a.1 = w) (hD : ¬ D id) :
    ∃ st' g', customizeArc c arcs st id = some st' ∧ Inv c R arcs orig L init (fun i => D i ∨ i = id) w st' g' := by
  have hts : ∀ d u, (d, u) ∈ c.srt (key st.2 st.1) (triangles arcs a.1 a.2) ↔ ∃ z, arcs[d]? = some (z, a0 true a) ∧ arcs[u]? = some (z, a1 true a) := by
    intro d u
    rw [(hsrt _ _).mem_iff, mem_triangles hT]; rfl
  have hts' : ∀ d u, (d, u) ∈ (c.srt (fun t => key st.2 st.1 t.swap) (c.srt (key st.2 st.1) (triangles arcs a.1 a.2))).map Prod.swap ↔
      ∃ z, arcs[d]? = some (z, a0 false a) ∧ arcs[u]? = some (z, a1 false a) := by
    intro d u
    rw [List.mem_map]
    constructor
    · rintro ⟨⟨x, y⟩, h1, h2⟩
      simp only [Prod.swap, Prod.mk.injEq] at h2
      obtain ⟨rfl, rfl⟩ := h2
      rw [(hsrt _ _).mem_iff, (hsrt _ _).mem_iff, mem_triangles hT] at h1
      obtain ⟨z, h1, h2⟩ := h1
      exact ⟨z, h2, h1⟩
    · rintro ⟨z, h1, h2⟩
      refine ⟨(u, d), ?_, rfl⟩
      rw [(hsrt _ _).mem_iff, (hsrt _ _).mem_iff, mem_triangles hT]
      exact ⟨z, h2, h1⟩
  obtain ⟨s1, s1', o1, u1, u2, u3⟩ := dir_done hbs htl hT hI hinv hlow (dir := true) ha hw hD hts
  obtain ⟨s0, s0', o0, d1, d2, d3⟩ := dir_done hbs htl hT hI hinv hlow (dir := false) ha hw hD hts'
  have hlt := (List.getElem?_eq_some_iff.1 ha).1
  have l1 : st.1.length = arcs.length := hinv.len true
  have l0 : st.2.length = arcs.length := hinv.len false
  have hu1 : st.1[id]? = some s1 := u1
  have hu0 : st.2[id]? = some s0 := d1
  let g' : Ghost := fun dir j => if j = id then (if dir then o1 else o0) else g dir j
  have hg : ∀ dir j, j ≠ id → g' dir j = g dir j := fun dir j h => by simp only [g', if_neg h]
  refine ⟨(st.1.set id s1', st.2.set id s0'), g', ?_, ?_⟩
  · simp only [customizeArc, ha, Option.bind_eq_bind, Option.bind_some, hu1, hu0, u2, d2, upd, l1, l0, hlt, if_true]
  · constructor
    · intro dir; cases dir <;> simp [side, l1, l0]
    · intro dir i hi
      have h1 : ¬ D i := fun h => hi (.inl h)
      have h2 : id ≠ i := fun h => hi (.inr h.symm)
      rw [← hinv.fresh dir i h1]
      cases dir <;> simp only [side, Bool.false_eq_true, if_false, if_true, List.getElem?_set_ne h2]
    · intro dir i b s hi hb hs
      by_cases e : i = id
      · subst e
        rw [ha] at hb; injection hb with hb; subst hb
        cases dir with
        | true =>
          simp only [side, if_true, List.getElem?_set, if_true, l1, hlt, Option.some.injEq] at hs
          subst hs
          exact u3 g' (by simp [g']) hg
        | false =>
          simp only [side, Bool.false_eq_true, if_false, List.getElem?_set, if_true, l0, hlt, Option.some.injEq] at hs
          subst hs
          exact d3 g' (by simp [g']) hg
      · have hDi : D i := hi.resolve_right e
        have hs' : (side st dir)[i]? = some s := by
          rw [← hs]
          cases dir <;> simp only [side, Bool.false_eq_true, if_false, if_true, List.getElem?_set_ne (Ne.symm e)]
        exact (hinv.done dir i b s hDi hb hs').frame hT ha hg hb (by rw [hw]; exact hup i b hDi hb) e

theorem Inv.congr {st : List Shortcut × List Shortcut} {D D' : Nat → Prop} {w : Nat} {g : Ghost} (h : Inv c R arcs orig L init D w st g) (he : ∀ i, D i ↔ D' i) :
    Inv c R arcs orig L init D' w st g := by
  have : D = D' := funext fun i => propext (he i)
  subst this; exact h

/-- The arcs of one node. -/
theorem arcs_ok (hbs : SearchBy c.bs) (htl : c.tl = Tol.exact) (hsrt : ∀ k l, (c.srt k l).Perm l) (hT : HierarchyOK arcs n par)
    (hI : PreOK c R arcs orig L init) {w : Nat} : ∀ (ids : List Nat) {st : List Shortcut × List Shortcut} {D : Nat → Prop} {g : Ghost},
    Inv c R arcs orig L init D w st g → (∀ i a, arcs[i]? = some a → a.1 < w → D i) → (∀ i a, D i → arcs[i]? = some a → a.1 ≤ w) → ids.Nodup →
    (∀ i ∈ ids, ¬ D i ∧ ∃ a, arcs[i]? = some a ∧ a.1 = w) →
    ∃ st' g', ids.foldlM (customizeArc c arcs) st = some st' ∧ Inv c R arcs orig L init (fun i => D i ∨ i ∈ ids) w st' g'
  | [], st, D, g, h, _, _, _, _ => ⟨st, g, rfl, h.congr (by simp)⟩
  | id :: ids, st, D, g, h, hlow, hup, hnd, hids => by
    obtain ⟨h1, a, h2, h3⟩ := hids id (by simp)
    obtain ⟨st1, g1, e1, e2⟩ := arc_ok hbs htl hsrt hT hI h hlow hup h2 h3 h1
    rw [List.nodup_cons] at hnd
    obtain ⟨st', g', e3, e4⟩ := arcs_ok hbs htl hsrt hT hI ids e2 (fun i a h1 h2 => .inl (hlow i a h1 h2)) (by
      rintro i b (hi | rfl) hb
      · exact hup i b hi hb
      · rw [h2] at hb; injection hb with hb; subst hb; omega) hnd.2 (by
      intro i hi
      obtain ⟨k1, k2⟩ := hids i (by simp [hi])
      refine ⟨?_, k2⟩
      rintro (k | rfl)
      · exact k1 k
      · exact hnd.1 hi)
    refine ⟨st', g', ?_, e4.congr (fun i => by simp [or_assoc])⟩
    rw [List.foldlM_cons]
    simp only [e1, Option.bind_eq_bind, Option.bind_some, e3]

theorem clearInto_get (arcs : List (Nat × Nat)) (v : Nat) (l : List Shortcut) (i : Nat) :
    (clearInto arcs v l)[i]? = (l[i]?).map (fun s => if (arcs[i]?.map (·.2)) == some v then clear s else s) := by
  unfold clearInto
  rw [List.getElem?_map, List.getElem?_zipIdx]
  cases l[i]? <;> simp

/-- One node. -/
theorem node_ok (hbs : SearchBy c.bs) (htl : c.tl = Tol.exact) (hsrt : ∀ k l, (c.srt k l).Perm l) (hT : HierarchyOK arcs n par)
    (hI : PreOK c R arcs orig L init) {w : Nat} {st : List Shortcut × List Shortcut} {g : Ghost}
    (h : Inv c R arcs orig L init (fun i => ∃ a, arcs[i]? = some a ∧ a.1 < w) w st g) :
    ∃ st' g', customizeNode c arcs st w = some st' ∧ Inv c R arcs orig L init (fun i => ∃ a, arcs[i]? = some a ∧ a.1 < w + 1) (w + 1) st' g' := by
  obtain ⟨st1, g1, e1, e2⟩ := arcs_ok hbs htl hsrt hT hI (arcsOf arcs w) h (fun i a h1 h2 => ⟨a, h1, h2⟩) (by
    rintro i a ⟨a', h1, h2⟩ h3
    rw [h1] at h3; injection h3 with h3; subst h3; omega) (arcsOf_nodup arcs w) (by
    intro i hi
    obtain ⟨a, h1, h2⟩ := mem_arcsOf.1 hi
    refine ⟨?_, a, h1, h2⟩
    rintro ⟨a', h3, h4⟩
    rw [h1] at h3; injection h3 with h3; subst h3; omega)
  have e3 := e2.congr (D' := fun i => ∃ a, arcs[i]? = some a ∧ a.1 < w + 1) (by
    intro i
    rw [mem_arcsOf]
    constructor
    · rintro (⟨a, h1, h2⟩ | ⟨a, h1, h2⟩)
      · exact ⟨a, h1, by omega⟩
      · exact ⟨a, h1, by omega⟩
    · rintro ⟨a, h1, h2⟩
      rcases Nat.lt_succ_iff_lt_or_eq.1 h2 with h | h
      · exact .inl ⟨a, h1, h⟩
      · exact .inr ⟨a, h1, h⟩)
  refine ⟨(clearInto arcs w st1.1, clearInto arcs w st1.2), g1, ?_, ?_⟩
  · simp only [customizeNode, e1, Option.bind_eq_bind, Option.bind_some]
  · have hside : ∀ dir, side (clearInto arcs w st1.1, clearInto arcs w st1.2) dir = clearInto arcs w (side st1 dir) := by intro dir; cases dir <;> rfl
    constructor
    · intro dir
      rw [hside, ← e3.len dir]; simp [clearInto]
    · intro dir i hi
      rw [hside, clearInto_get]
      have : ((arcs[i]?.map (·.2)) == some w) = false := by
        cases ha : arcs[i]? with
        | none => rfl
        | some a =>
          simp only [Option.map_some, beq_eq_false_iff_ne, ne_eq, Option.some.injEq]
          intro e
          have := (hT.up _ _ ha).1
          exact hi ⟨a, ha, by omega⟩
      rw [this, ← e3.fresh dir i hi]
      simp
    · intro dir i a s hi ha hs
      rw [hside, clearInto_get, ha] at hs
      rw [Option.map_eq_some_iff] at hs
      obtain ⟨s0, h1, h2⟩ := hs
      have hd := e3.done dir i a s0 hi ha h1
      simp only [Option.map_some] at h2
      by_cases e : a.2 = w
      · rw [if_pos (by simp [e])] at h2
        subst h2
        refine ⟨hd.full, hd.out, ?_, hd.unf, hd.cst⟩
        intro f hf
        obtain ⟨k1, k2, k3, k4⟩ := hd.kept f hf
        exact ⟨k1, ⟨k2.fun_, k2.shape, k2.val, k2.ok, k2.lo0, k2.lo, k2.up0, k2.up, k2.const⟩, fun h => by omega, k4⟩
      · rw [if_neg (by simp [e])] at h2
        subst h2
        refine ⟨hd.full, hd.out, ?_, hd.unf, hd.cst⟩
        intro f hf
        obtain ⟨k1, k2, k3, k4⟩ := hd.kept f hf
        exact ⟨k1, k2, fun h => k3 (by omega), k4⟩

/-- The main customization. -/
theorem main_ok (hbs : SearchBy c.bs) (htl : c.tl = Tol.exact) (hsrt : ∀ k l, (c.srt k l).Perm l) (hT : HierarchyOK arcs n par)
    (hI : PreOK c R arcs orig L init) :
    ∃ st g, customizeMain c arcs n init = some st ∧ Inv c R arcs orig L init (fun i => ∃ a, arcs[i]? = some a) n st g := by
  have key : ∀ k, ∃ st g, (List.range k).foldlM (customizeNode c arcs) init = some st ∧ Inv c R arcs orig L init (fun i => ∃ a, arcs[i]? = some a ∧ a.1 < k) k st g := by
    intro k
    induction k with
    | zero =>
      refine ⟨init, fun _ _ => none, rfl, hI.len, fun _ _ _ => rfl, ?_⟩
      rintro dir i a s ⟨_, _, h⟩
      omega
    | succ k ih =>
      obtain ⟨st, g, h1, h2⟩ := ih
      obtain ⟨st', g', h3, h4⟩ := node_ok hbs htl hsrt hT hI h2
      refine ⟨st', g', ?_, h4⟩
      rw [List.range_succ, List.foldlM_append, h1]
      simp only [Option.bind_eq_bind, Option.bind_some, List.foldlM_cons, List.foldlM_nil, h3, Option.pure_def]
  obtain ⟨st, g, h1, h2⟩ := key n
  refine ⟨st, g, h1, h2.congr ?_⟩
  intro i
  constructor
  · rintro ⟨a, h, _⟩; exact ⟨a, h⟩
  · rintro ⟨a, h⟩
    have := hT.up _ _ h
    exact ⟨a, h, by omega⟩

end Verif.Ftd
