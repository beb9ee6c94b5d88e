import Verif.Proof.FtdLoop
import Verif.Proof.FtdInit
import Verif.Props.FlPlf
import Verif.Spec.CatchupPath
set_option linter.unusedSimpArgs false
set_option linter.unusedVariables false
/- The customized graph. -/
namespace Verif.Ftd
open Spec Fl Catchup

theorem filter_get {α : Type} {p : α → Bool} : ∀ {l : List α} {i : Nat} {x : α}, l[i]? = some x → p x = true → (l.filter p)[(l.take i).countP p]? = some x
  | a :: l, 0, x, h, hp => by simp at h; subst h; simp [List.filter_cons, hp]
  | a :: l, i + 1, x, h, hp => by
    simp only [List.getElem?_cons_succ] at h
    have := filter_get (p := p) h hp
    rw [List.take_succ_cons, List.countP_cons, List.filter_cons]
    by_cases ha : p a = true
    · simp only [ha, if_true, List.getElem?_cons_succ]; exact this
    · simp only [ha, if_false, Nat.add_zero]; exact this

theorem filter_get_inv {α : Type} {p : α → Bool} : ∀ {l : List α} {k : Nat} {x : α}, (l.filter p)[k]? = some x → ∃ i, l[i]? = some x ∧ p x = true ∧ k = (l.take i).countP p
  | [], k, x, h => by simp at h
  | a :: l, k, x, h => by
    rw [List.filter_cons] at h
    by_cases ha : p a = true
    · rw [if_pos ha] at h
      cases k with
      | zero => simp at h; subst h; exact ⟨0, rfl, ha, by simp⟩
      | succ k =>
        simp only [List.getElem?_cons_succ] at h
        obtain ⟨i, h1, h2, h3⟩ := filter_get_inv h
        exact ⟨i + 1, by simpa using h1, h2, by rw [List.take_succ_cons, List.countP_cons, if_pos ha, h3]⟩
    · rw [if_neg ha] at h
      obtain ⟨i, h1, h2, h3⟩ := filter_get_inv h
      exact ⟨i + 1, by simpa using h1, h2, by rw [List.take_succ_cons, List.countP_cons, if_neg ha, h3]; rfl⟩

theorem countP_zip {arcs : List (Nat × Nat)} {l : List Shortcut} (h : l.length = arcs.length) (i : Nat) :
    ((arcs.zip l).take i).countP (fun p => p.2.required) = (l.take i).countP (·.required) := by
  have : l = (arcs.zip l).map Prod.snd := by rw [List.map_snd_zip]; omega
  conv_rhs => rw [this, ← List.map_take, List.countP_map]
  rfl

/-- a source with the new ids -/
def ren (inc out : List Shortcut) : Src → Src
  | .short d u => .short ((rank inc d).getD 0) ((rank out u).getD 0)
  | s => s

theorem sourceAt_map (r : Src → Src) (l : List (Rat × Src)) (t : Rat) : sourceAt (l.map (fun p => (p.1, r p.2))) t = (sourceAt l t).map r := by
  match l with
  | [] => rfl
  | [p] => rfl
  | p :: q :: l =>
    show (List.getLast? (List.filter (fun p => decide (p.1 ≤ (splitDay t).2)) (List.map (fun p => (p.1, r p.2)) (p :: q :: l)))).map (·.2) = _
    rw [List.filter_map, List.getLast?_map]
    show _ = Option.map r (Option.map (fun q : Rat × Src => q.2) (List.getLast? (List.filter (fun p : Rat × Src => decide (p.1 ≤ (splitDay t).2)) (p :: q :: l))))
    simp only [Option.map_map]
    rfl

variable {c : Cfg} {R : Network} {arcs : List (Nat × Nat)} {orig : Bool → Nat → Option Nat} {n : Nat} {par : Nat → Option Nat}
  {init st : List Shortcut × List Shortcut} {g : Ghost} {L : Bool → Nat → Rat}

/-- the arcs of the result in one direction -/
structure Arcs (arcs : List (Nat × Nat)) (st : List Shortcut × List Shortcut) (dir : Bool) (L : List Arc) : Prop where
  get : ∀ (i k : Nat) (a : Nat × Nat) (s : Shortcut), arcs[i]? = some a → (side st dir)[i]? = some s → rank (side st dir) i = some k →
    L[k]? = some ⟨a.1, a.2, s.lower, s.upper, s.sources.map (fun p => (p.1, ren st.2 st.1 p.2)), s.constant⟩
  inv : ∀ (k : Nat) (A : Arc), L[k]? = some A → ∃ i a s, arcs[i]? = some a ∧ (side st dir)[i]? = some s ∧ rank (side st dir) i = some k ∧ s.required = true ∧
    A = ⟨a.1, a.2, s.lower, s.upper, s.sources.map (fun p => (p.1, ren st.2 st.1 p.2)), s.constant⟩

/-- a shortcut of the result, with the function `g dir i` -/
structure FinS (c : Cfg) (R : Network) (arcs : List (Nat × Nat)) (orig : Bool → Nat → Option Nat) (g : Ghost) (dir : Bool) (i : Nat) (a : Nat × Nat) (s : Shortcut) : Prop where
  full : ∀ t x, Cand c arcs orig g dir i a t x → HitQ (Slow R (a0 dir a) (a1 dir a)) (g dir i) t x
  out : g dir i = none → s.required = false
  kept : ∀ f, g dir i = some f → s.required = true ∧ Kept c.ttf g.F (OkSrc arcs orig g dir i a) (UpOK R (a0 dir a) (a1 dir a)) s f ∧
    ∀ t, Trip R (a0 dir a) t (a1 dir a) (t + fn f t)

/-- all shortcuts of the result -/
structure Fin (c : Cfg) (R : Network) (arcs : List (Nat × Nat)) (orig : Bool → Nat → Option Nat) (st : Both) (g : Ghost) : Prop where
  len : ∀ dir, (side st dir).length = arcs.length
  done : ∀ (dir : Bool) (i : Nat) (a : Nat × Nat) (s : Shortcut), arcs[i]? = some a → (side st dir)[i]? = some s → FinS c R arcs orig g dir i a s

theorem Inv.fin (h : Inv c R arcs orig L init (fun i => ∃ a, arcs[i]? = some a) n st g) : Fin c R arcs orig st g := by
  refine ⟨h.len, fun dir i a s ha hs => ?_⟩
  have hd := h.done dir i a s ⟨a, ha⟩ ha hs
  exact ⟨hd.full, fun h => (hd.out h).1, fun f hf => ⟨(hd.kept f hf).1, (hd.kept f hf).2.1, (hd.kept f hf).2.2.2⟩⟩

theorem inv_get (h : Fin c R arcs orig st g) (dir : Bool) {i : Nat} {a : Nat × Nat} (ha : arcs[i]? = some a) :
    ∃ s, (side st dir)[i]? = some s ∧ FinS c R arcs orig g dir i a s := by
  have hl : i < (side st dir).length := by rw [h.len]; exact (List.getElem?_eq_some_iff.1 ha).1
  exact ⟨_, List.getElem?_eq_getElem hl, h.done dir i a _ ha (List.getElem?_eq_getElem hl)⟩

theorem rank_some (h : Fin c R arcs orig st g) {dir : Bool} {i : Nat} {a : Nat × Nat} (ha : arcs[i]? = some a) {f : List Pt}
    (hf : g dir i = some f) : ∃ k, rank (side st dir) i = some k := by
  obtain ⟨s, h1, h2⟩ := inv_get h dir ha
  obtain ⟨h3, _⟩ := h2.kept f hf
  exact ⟨((side st dir).take i).countP (·.required), by simp only [rank, h1, Option.bind_eq_bind, Option.bind_some, h3, if_true]⟩

theorem toArc_ok (htl : c.tl = Tol.exact) (h : Fin c R arcs orig st g) {dir : Bool} {i : Nat} {a : Nat × Nat} (ha : arcs[i]? = some a)
    {s : Shortcut} (hs : (side st dir)[i]? = some s) (hr : s.required = true) :
    toArc c.tl.eps st.2 st.1 (a, s) = some ⟨a.1, a.2, s.lower, s.upper, s.sources.map (fun p => (p.1, ren st.2 st.1 p.2)), s.constant⟩ := by
  obtain ⟨s', h1, h2⟩ := inv_get h dir ha
  rw [hs] at h1; injection h1 with h1; subst h1
  cases hg : g dir i with
  | none => rw [h2.out hg] at hr; exact (nomatch hr)
  | some f =>
    obtain ⟨_, k2, _⟩ := h2.kept f hg
    have he : c.tl.eps = 0 := by rw [htl]; rfl
    have key : ∀ (l : List (Rat × Src)), (∀ p ∈ l, OkSrc arcs orig g dir i a p.2) → l.mapM (renumber st.2 st.1) = some (l.map (fun p => (p.1, ren st.2 st.1 p.2))) := by
      intro l
      induction l with
      | nil => intro _; rfl
      | cons p l ih =>
        intro hl
        have h1 := ih (fun q hq => hl q (by simp [hq]))
        have hp := hl p (by simp)
        have h2 : renumber st.2 st.1 p = some (p.1, ren st.2 st.1 p.2) := by
          obtain ⟨t, d⟩ := p
          cases d with
          | orig e => rfl
          | no => rfl
          | short d u =>
            obtain ⟨z, fd, fu, q1, q2, q3, q4⟩ := hp
            obtain ⟨kd, hkd⟩ := rank_some h q1 q3
            obtain ⟨ku, hku⟩ := rank_some h q2 q4
            have hkd' : rank st.2 d = some kd := hkd
            have hku' : rank st.1 u = some ku := hku
            simp only [renumber, ren, hkd', hku', Option.bind_eq_bind, Option.bind_some, Option.getD_some]
        simp [List.mapM_cons, h1, h2]
    simp only [toArc, he, sourcesIter_eq k2.shape, key _ k2.ok, Option.bind_eq_bind, Option.bind_some]

theorem toArcs_ok (htl : c.tl = Tol.exact) (h : Fin c R arcs orig st g) (dir : Bool) :
    ∃ L, toArcs c.tl.eps arcs st.2 st.1 (side st dir) = some L ∧ Arcs arcs st dir L := by
  have hz : ∀ {i : Nat} {x : (Nat × Nat) × Shortcut}, (arcs.zip (side st dir))[i]? = some x ↔ arcs[i]? = some x.1 ∧ (side st dir)[i]? = some x.2 := by
    intro i x
    rw [List.getElem?_zip_eq_some]
  obtain ⟨L, h1, h2, h3⟩ := mapM_some (f := toArc c.tl.eps st.2 st.1) (l := (arcs.zip (side st dir)).filter (fun p => p.2.required)) (by
    rintro ⟨a, s⟩ hx
    rw [List.mem_filter] at hx
    obtain ⟨i, hi⟩ := List.mem_iff_getElem?.1 hx.1
    rw [hz] at hi
    exact ⟨_, toArc_ok htl h hi.1 hi.2 hx.2⟩)
  have hcp := fun i => countP_zip (h.len dir) i
  refine ⟨L, h1, ?_, ?_⟩
  · intro i k a s ha hs hk
    simp only [rank, hs, Option.bind_eq_bind, Option.bind_some] at hk
    split at hk
    · next hr =>
      injection hk with hk
      have := filter_get (p := fun p : (Nat × Nat) × Shortcut => p.2.required) (hz.2 ⟨ha, hs⟩) (x := (a, s)) hr
      rw [hcp, hk] at this
      obtain ⟨y, q1, q2⟩ := h3 k _ this
      rw [toArc_ok htl h ha hs hr] at q1
      injection q1 with q1; subst q1
      exact q2
    · exact (nomatch hk)
  · intro k A hA
    have hl : k < L.length := (List.getElem?_eq_some_iff.1 hA).1
    rw [h2] at hl
    obtain ⟨y, q1, q2⟩ := h3 k _ (List.getElem?_eq_getElem hl)
    rw [hA] at q2; injection q2 with q2; subst q2
    obtain ⟨i, r1, r2, r3⟩ := filter_get_inv (List.getElem?_eq_getElem hl)
    generalize ((arcs.zip (side st dir)).filter (fun p => p.2.required))[k] = x at q1 r1 r2
    obtain ⟨a, s⟩ := x
    rw [hz] at r1
    rw [toArc_ok htl h r1.1 r1.2 r2] at q1
    injection q1 with q1
    rw [hcp] at r3
    simp only at r1 r2
    exact ⟨i, a, s, r1.1, r1.2, by simp only [rank, r1.2, Option.bind_eq_bind, Option.bind_some, r2, if_true, r3], r2, q1.symm⟩

/-- Evaluating the arcs of the result. -/
theorem eval_arc (hbs : SearchBy c.bs) (htl : c.tl = Tol.exact) (hT : HierarchyOK arcs n par) (h : Fin c R arcs orig st g) {G : Graph}
    (hA : ∀ dir, Arcs arcs st dir (G.arcs dir)) (ho : ∀ e p t, c.ttf e = some p → ValidTtf p → G.orig e t = fn p t) :
    ∀ (depth : Nat) (dir : Bool) (i k : Nat) (a : Nat × Nat) (f : List Pt), arcs[i]? = some a → g dir i = some f → rank (side st dir) i = some k → a.1 < depth →
      ∀ t, evalArc G depth dir k t = some (fn f t)
  | 0, dir, i, k, a, f, ha, hg, hk, hd, t => by omega
  | depth + 1, dir, i, k, a, f, ha, hg, hk, hd, t => by
    obtain ⟨s, h1, h2⟩ := inv_get h dir ha
    obtain ⟨k1, k2, _⟩ := h2.kept f hg
    have hget := (hA dir).get i k a s ha h1 hk
    rw [evalArc]
    rcases Bool.eq_false_or_eq_true s.constant with hc | hc
    · simp only [hget, Option.bind_eq_bind, Option.bind_some, hc, if_true]
      rw [k2.const hc t]
    simp only [hget, Option.bind_eq_bind, Option.bind_some, hc, Bool.false_eq_true, if_false, sourceAt_map]
    obtain ⟨d, hd', _⟩ := atT_some k2.shape (t := (splitDay t).2) tod.1
    rw [← sourceAt_eq k2.shape] at hd'
    have hv := k2.val t d hd'
    obtain ⟨p, hp, e⟩ := sourceAt_mem k2.shape hd'
    have hok := k2.ok p hp
    rw [e] at hok
    rw [hd']
    cases d with
    | no => exact absurd hv (by simp [Val])
    | orig e0 =>
      obtain ⟨q, v1, v2, v3⟩ := hv
      simp only [Option.map_some, ren]
      rw [ho e0 q t v1 v2, v3]
    | short d u =>
      obtain ⟨z, fd, fu, q1, q2, q3, q4⟩ := hok
      have hz := leg_lt hT (hT.up _ _ ha).1 q1 q2
      obtain ⟨kd, hkd⟩ := rank_some h q1 q3
      obtain ⟨ku, hku⟩ := rank_some h q2 q4
      have hkd' : rank st.2 d = some kd := hkd
      have hku' : rank st.1 u = some ku := hku
      simp only [Option.map_some, ren, hkd', hku', Option.getD_some]
      rw [eval_arc hbs htl hT h hA ho depth false d kd _ fd q1 q3 hkd (by simp only; omega) t]
      simp only [Option.bind_some]
      rw [eval_arc hbs htl hT h hA ho depth true u ku _ fu q2 q4 hku (by simp only; omega) _]
      simp only [Val, Ghost.F, q3, q4, Option.getD_some, legSum] at hv
      simp only [Option.bind_some, hv]

theorem rides_append {heads : List Nat} : ∀ (l : List (Nat × Rat)) {u v w : Nat} {τ y z : Rat} {r : List (Nat × Rat)}, Rides R heads u τ l v y → Rides R heads v y r w z →
    Rides R heads u τ (l ++ r) w z
  | [], u, v, w, τ, y, z, r, ⟨h1, h2⟩, h => by subst h1; subst h2; exact h
  | e :: l, u, v, w, τ, y, z, r, ⟨x, h1, h2, h3⟩, h => ⟨x, h1, h2, rides_append l h3 h⟩

theorem rides_last {heads : List Nat} : ∀ (l : List (Nat × Rat)) {u v : Nat} {τ y : Rat}, Rides R heads u τ l v y → l ≠ [] → ∃ e, l.getLast? = some (e, y)
  | [], u, v, τ, y, _, h => absurd rfl h
  | [(e, a)], u, v, τ, y, ⟨x, h1, h2, h3, h4⟩, _ => by simp only at h4; subst h4; exact ⟨e, rfl⟩
  | e :: e' :: l, u, v, τ, y, ⟨x, h1, h2, h3⟩, _ => by
    obtain ⟨e0, h⟩ := rides_last (e' :: l) h3 (by simp)
    exact ⟨e0, by rw [List.getLast?_cons_cons]; exact h⟩

/-- Unpacking the arcs of the result. -/
theorem unpack_arc (hT : HierarchyOK arcs n par) (h : Fin c R arcs orig st g) {G : Graph}
    (hA : ∀ dir, Arcs arcs st dir (G.arcs dir)) (ho : ∀ e p t, c.ttf e = some p → ValidTtf p → G.orig e t = fn p t) {heads : List Nat}
    (hor : ∀ (dir : Bool) (i : Nat) (a : Nat × Nat) (e : Nat), arcs[i]? = some a → orig dir i = some e → heads[e]? = some (a1 dir a) ∧
      ∃ p, c.ttf e = some p ∧ ValidTtf p ∧ ∀ t, R (a0 dir a) (a1 dir a) t (t + fn p t)) :
    ∀ (depth : Nat) (dir : Bool) (i k : Nat) (a : Nat × Nat) (f : List Pt), arcs[i]? = some a → g dir i = some f → rank (side st dir) i = some k → a.1 < depth →
      ∀ t, ∃ es, unpackAt G depth dir k t = some es ∧ es ≠ [] ∧ Rides R heads (a0 dir a) t es (a1 dir a) (t + fn f t)
  | 0, dir, i, k, a, f, ha, hg, hk, hd, t => by omega
  | depth + 1, dir, i, k, a, f, ha, hg, hk, hd, t => by
    obtain ⟨s, h1, h2⟩ := inv_get h dir ha
    obtain ⟨k1, k2, _⟩ := h2.kept f hg
    have hget := (hA dir).get i k a s ha h1 hk
    rw [unpackAt]
    simp only [hget, Option.bind_eq_bind, Option.bind_some, sourceAt_map]
    obtain ⟨d, hd', _⟩ := atT_some k2.shape (t := (splitDay t).2) tod.1
    rw [← sourceAt_eq k2.shape] at hd'
    have hv := k2.val t d hd'
    obtain ⟨p, hp, e⟩ := sourceAt_mem k2.shape hd'
    have hok := k2.ok p hp
    rw [e] at hok
    rw [hd']
    cases d with
    | no => exact absurd hv (by simp [Val])
    | orig e0 =>
      obtain ⟨q, v1, v2, v3⟩ := hv
      obtain ⟨w1, p, w2, w3, w4⟩ := hor dir i a e0 ha hok
      rw [v1] at w2; injection w2 with w2; subst w2
      simp only [Option.map_some, ren]
      rw [ho e0 q t v1 v2, v3]
      exact ⟨_, rfl, by simp, _, w1, w4 t, rfl, rfl⟩
    | short d u =>
      obtain ⟨z, fd, fu, q1, q2, q3, q4⟩ := hok
      have hz := leg_lt hT (hT.up _ _ ha).1 q1 q2
      obtain ⟨kd, hkd⟩ := rank_some h q1 q3
      obtain ⟨ku, hku⟩ := rank_some h q2 q4
      have hkd' : rank st.2 d = some kd := hkd
      have hku' : rank st.1 u = some ku := hku
      simp only [Option.map_some, ren, hkd', hku', Option.getD_some]
      obtain ⟨l, l1, l2, l3⟩ := unpack_arc hT h hA ho hor depth false d kd _ fd q1 q3 hkd (by simp only; omega) t
      obtain ⟨r, r1, r2, r3⟩ := unpack_arc hT h hA ho hor depth true u ku _ fu q2 q4 hku (by simp only; omega) (t + fn fd t)
      obtain ⟨e0, he⟩ := rides_last l l3 l2
      simp only [Val, Ghost.F, q3, q4, Option.getD_some, legSum] at hv
      refine ⟨l ++ r, by simp only [l1, he, r1, Option.bind_some], by simp [l2], ?_⟩
      rw [hv, ← add_assoc]
      exact rides_append l l3 r3

/-- What the query relies on. -/
theorem graph_ok (hbs : SearchBy c.bs) (htl : c.tl = Tol.exact) (hT : HierarchyOK arcs n par) (h : Fin c R arcs orig st g)
    (hroads : ∀ u v τ y, R u v τ y → u ≠ v → ∃ dir i a e p, arcs[i]? = some a ∧ a0 dir a = u ∧ a1 dir a = v ∧ orig dir i = some e ∧ c.ttf e = some p ∧ y = τ + fn p τ)
    {heads : List Nat} (hor : ∀ (dir : Bool) (i : Nat) (a : Nat × Nat) (e : Nat), arcs[i]? = some a → orig dir i = some e → heads[e]? = some (a1 dir a) ∧
      ∃ p, c.ttf e = some p ∧ ValidTtf p ∧ ∀ t, R (a0 dir a) (a1 dir a) t (t + fn p t)) :
    ∃ G, customizedGraph c arcs n par st = some G ∧ G.n = n ∧ BoundsOK G R ∧ EvalOK G R n ∧ Triangulated (G.net n true) (G.net n false) R INF ∧
      ArcsFifo G n ∧ UnpackOK G R heads n := by
  obtain ⟨L1, e1, A1⟩ := toArcs_ok htl h true
  obtain ⟨L0, e0, A0⟩ := toArcs_ok htl h false
  have e1' : toArcs c.tl.eps arcs st.2 st.1 st.1 = some L1 := e1
  have e0' : toArcs c.tl.eps arcs st.2 st.1 st.2 = some L0 := e0
  have he : c.tl.eps = 0 := by rw [htl]; rfl
  refine ⟨⟨n, L1, L0, par, fun e t => ((c.ttf e).bind (fun f => evaluate c.bs c.tl.eps f t)).getD 0⟩,
    by simp only [customizedGraph, e1', e0', Option.bind_eq_bind, Option.bind_some], rfl, ?_⟩
  generalize hG : (⟨n, L1, L0, par, fun e t => ((c.ttf e).bind (fun f => evaluate c.bs c.tl.eps f t)).getD 0⟩ : Graph) = G
  have hA : ∀ dir, Arcs arcs st dir (G.arcs dir) := by
    intro dir; rw [← hG]; cases dir
    · exact A0
    · exact A1
  have ho : ∀ e p t, c.ttf e = some p → ValidTtf p → G.orig e t = fn p t := by
    intro e p t h1 h2
    rw [← hG]
    obtain ⟨y, q1, _, q2⟩ := C72_evaluate_partial hbs h2 t
    simp only [h1, Option.bind_some, he, q1, Option.getD_some]
    exact ((q2 _).1 ((fn_iff h2).2 rfl)).symm
  have hev := eval_arc hbs htl hT h hA ho n
  -- an arc of the result
  have hinv : ∀ (dir : Bool) (k : Nat) (A : Arc), (G.arcs dir)[k]? = some A → ∃ i a s f, arcs[i]? = some a ∧ g dir i = some f ∧ rank (side st dir) i = some k ∧
      Kept c.ttf g.F (OkSrc arcs orig g dir i a) (UpOK R (a0 dir a) (a1 dir a)) s f ∧ (∀ t, Trip R (a0 dir a) t (a1 dir a) (t + fn f t)) ∧ A.tail = a.1 ∧ A.head = a.2 ∧ A.lo = s.lower ∧ A.up = s.upper := by
    intro dir k A hk
    obtain ⟨i, a, s, q1, q2, q3, q4, rfl⟩ := (hA dir).inv k A hk
    obtain ⟨s', h1, h2⟩ := inv_get h dir q1
    rw [q2] at h1; injection h1 with h1; subst h1
    cases hg : g dir i with
    | none => rw [h2.out hg] at q4; exact (nomatch q4)
    | some f =>
      obtain ⟨_, k2, k4⟩ := h2.kept f hg
      exact ⟨i, a, s, f, q1, hg, q3, k2, k4, rfl, rfl, rfl, rfl⟩
  have hsrc : ∀ (dir : Bool) (A : Arc) (a : Nat × Nat), A.tail = a.1 → A.head = a.2 → A.src' dir = a0 dir a ∧ A.dst dir = a1 dir a := by
    intro dir A a h1 h2
    cases dir <;> simp [Arc.src', Arc.dst, a0, a1, h1, h2]
  have hpn : G.n = n ∧ G.parent = par := by rw [← hG]; exact ⟨rfl, rfl⟩
  -- an arc in the network
  have hnet : ∀ (dir : Bool) (i : Nat) (a : Nat × Nat) (f : List Pt), arcs[i]? = some a → g dir i = some f → ∀ t, G.net n dir (a0 dir a) (a1 dir a) t (t + fn f t) := by
    intro dir i a f ha hg t
    obtain ⟨s, h1, h2⟩ := inv_get h dir ha
    obtain ⟨k, hk⟩ := rank_some h ha hg
    refine ⟨k, _, (hA dir).get i k a s ha h1 hk, (hsrc dir _ a rfl rfl).1, (hsrc dir _ a rfl rfl).2, fn f t, ?_, rfl⟩
    exact hev dir i k a f ha hg hk (by have := hT.up _ _ ha; omega) t
  have hinvnet : ∀ (dir : Bool) (u v : Nat) (t y : Rat), G.net n dir u v t y → ∃ i a f, arcs[i]? = some a ∧ g dir i = some f ∧ a0 dir a = u ∧ a1 dir a = v ∧ y = t + fn f t := by
    rintro dir u v t y ⟨k, A, h1, h2, h3, x, h4, h5⟩
    obtain ⟨i, a, s, f, q1, q2, q3, q4, q5, q6, q7, q8, q9⟩ := hinv dir k A h1
    obtain ⟨r1, r2⟩ := hsrc dir A a q6 q7
    rw [hev dir i k a f q1 q2 q3 (by have := hT.up _ _ q1; omega) t] at h4
    injection h4 with h4
    exact ⟨i, a, f, q1, q2, by rw [← r1, h2], by rw [← r2, h3], by rw [h5, h4]⟩
  have hcand : ∀ (dir : Bool) (i : Nat) (a : Nat × Nat), arcs[i]? = some a → ∀ t x, 0 ≤ t → t + x < INF → Cand c arcs orig g dir i a t x →
      NoDetour (G.net n true) (G.net n false) R (a0 dir a) (a1 dir a) t (t + x) := by
    intro dir i a ha t x ht hx hc
    obtain ⟨s, h1, h2⟩ := inv_get h dir ha
    rcases h2.full t x hc with (hh | ⟨y, y1, y2⟩) | ⟨f, q1, q2⟩
    · linarith
    · exact .inr ⟨t + y, by linarith, y2⟩
    · refine .inl ⟨t + fn f t, by linarith, ?_⟩
      have := hnet dir i a f ha q1 t
      cases dir
      · exact .inr this
      · exact .inl this
  refine ⟨⟨?_, ?_⟩, ?_, ⟨?_, ?_⟩, ?_, ?_⟩
  · intro v w hvw
    rw [hpn.2] at hvw
    rw [hpn.1]; exact hT.par_lt v w hvw
  · intro dir A hAm
    obtain ⟨k, hk⟩ := List.mem_iff_getElem?.1 hAm
    obtain ⟨i, a, s, f, q1, q2, q3, q4, q5, q6, q7, q8, q9⟩ := hinv dir k A hk
    obtain ⟨r1, r2⟩ := hsrc dir A a q6 q7
    rw [r1, r2, q6, q7, q8, q9, hpn.2]
    refine ⟨(hT.up _ _ q1).1, hT.anc a (List.mem_of_getElem? q1), q4.lo0, q4.up0, ?_⟩
    intro hup τ
    rcases q4.up with hh | hh
    · obtain ⟨y, y1, y2⟩ := hh hup τ
      exact ⟨τ + y, by linarith, y2⟩
    · exact ⟨τ + fn f τ, by have := hh τ; linarith, q5 τ⟩
  · intro dir k A hk τ
    obtain ⟨i, a, s, f, q1, q2, q3, q4, q5, q6, q7, q8, q9⟩ := hinv dir k A hk
    obtain ⟨r1, r2⟩ := hsrc dir A a q6 q7
    rw [r1, r2, q8]
    exact ⟨fn f τ, hev dir i k a f q1 q2 q3 (by have := hT.up _ _ q1; omega) τ, q4.lo τ, q5 τ⟩
  · intro u v τ y h0 hy hR huv
    obtain ⟨dir, i, a, e, p, q1, q2, q3, q4, q5, q6⟩ := hroads u v τ y hR huv
    subst q6
    have := hcand dir i a q1 τ (fn p τ) h0 hy (.inl ⟨e, p, q4, q5, rfl⟩)
    rw [q2, q3] at this
    exact this
  · intro u x v τ a b h0 hb hd hu huv
    obtain ⟨i, a, f, q1, q2, q3, q4, q5⟩ := hinvnet false u x τ _ hd
    obtain ⟨i', a', f', p1, p2, p3, p4, p5⟩ := hinvnet true x v _ b hu
    simp only [a0, a1, Bool.false_eq_true, if_false, if_true] at q3 q4 p3 p4
    obtain ⟨x1, u1⟩ := a
    obtain ⟨x2, v1⟩ := a'
    simp only at q3 q4 p3 p4
    subst q3; subst q4; subst p3; subst p4
    have hval : b = τ + legSum f f' τ := by rw [p5, q5, legSum]; ring
    rw [hval] at hb ⊢
    rcases Nat.lt_or_gt_of_ne huv with hlt | hlt
    · have hm := hT.chordal x2 u1 v1 (List.mem_of_getElem? q1) (List.mem_of_getElem? p1) hlt
      obtain ⟨j, hj⟩ := List.mem_iff_getElem?.1 hm
      exact hcand true j _ hj τ _ h0 hb (.inr ⟨i, i', x2, f, f', q1, p1, q2, p2, rfl⟩)
    · have hm := hT.chordal x2 v1 u1 (List.mem_of_getElem? p1) (List.mem_of_getElem? q1) hlt
      obtain ⟨j, hj⟩ := List.mem_iff_getElem?.1 hm
      exact hcand false j _ hj τ _ h0 hb (.inr ⟨i, i', x2, f, f', q1, p1, q2, p2, rfl⟩)
  · intro dir k τ τ' v v' hle h1 h2
    have hk : ∃ A, (G.arcs dir)[k]? = some A := by
      cases n with
      | zero => exact (nomatch h1)
      | succ n =>
        rw [evalArc] at h1
        simp only [Option.bind_eq_bind, Option.bind_eq_some_iff] at h1
        obtain ⟨A, hA', _⟩ := h1
        exact ⟨A, hA'⟩
    obtain ⟨A, hk⟩ := hk
    obtain ⟨i, a, s, f, q1, q2, q3, q4, q5, q6, q7, q8, q9⟩ := hinv dir k A hk
    have hn : a.1 < n := by have := hT.up _ _ q1; omega
    rw [hev dir i k a f q1 q2 q3 hn τ] at h1
    rw [hev dir i k a f q1 q2 q3 hn τ'] at h2
    injection h1 with h1; injection h2 with h2
    subst h1; subst h2
    exact fn_fifo q4.fun_ hle
  · intro dir k A hk τ v hv
    obtain ⟨i, a, s, f, q1, q2, q3, q4, q5, q6, q7, q8, q9⟩ := hinv dir k A hk
    obtain ⟨r1, r2⟩ := hsrc dir A a q6 q7
    have hn : a.1 < n := by have := hT.up _ _ q1; omega
    rw [hev dir i k a f q1 q2 q3 hn τ] at hv
    injection hv with hv; subst hv
    obtain ⟨es, u1, _, u2⟩ := unpack_arc hT h hA ho hor n dir i k a f q1 q2 q3 hn τ
    rw [r1, r2]
    exact ⟨es, _, u1, le_refl _, u2⟩

/-- What the query relies on, for roads. -/
theorem result_ok (hbs : SearchBy c.bs) (htl : c.tl = Tol.exact) (hT : HierarchyOK arcs n par)
    {roads : List (Nat × Nat × (Rat → Rat))} {fwd bwd : List (List Nat)} (hr : RoadsOK roads c.ttf arcs fwd bwd) (hI : InitOK c (roadNet roads) arcs (origOf fwd bwd) init)
    (h : Fin c (roadNet roads) arcs (origOf fwd bwd) st g) :
    ∃ G, customizedGraph c arcs n par st = some G ∧ G.n = n ∧ BoundsOK G (roadNet roads) ∧ EvalOK G (roadNet roads) n ∧
      Triangulated (G.net n true) (G.net n false) (roadNet roads) INF ∧ ArcsFifo G n ∧ UnpackOK G (roadNet roads) (roads.map (fun r => r.2.1)) n := by
  have hlist := roads_list hr
  have hro := roads_fn hr
  exact graph_ok hbs htl hT h (by
    rintro u v τ y ⟨r, hrm, rfl, rfl, rfl⟩ huv
    obtain ⟨e, he⟩ := List.mem_iff_getElem?.1 hrm
    obtain ⟨p, p1, p2, p3⟩ := hro e r he
    have hone : ∀ (es : List Nat) (dir : Bool) (i : Nat), (side (fwd, bwd) dir)[i]? = some es → e ∈ es → origOf fwd bwd dir i = some e := by
      intro es dir i h1 h2
      have h3 := (hlist dir i es h1).1
      simp only [origOf, h1, Option.bind_some]
      match es, h2, h3 with
      | [e'], h2, _ => simp at h2; rw [h2]; rfl
      | _ :: _ :: _, _, h3 => simp at h3
    obtain ⟨i, es, h | h⟩ := hr.all e r he huv
    · exact ⟨true, i, _, e, p, h.1, rfl, rfl, hone es true i h.2.1 h.2.2, p1, by rw [p3]⟩
    · exact ⟨false, i, _, e, p, h.1, rfl, rfl, hone es false i h.2.1 h.2.2, p1, by rw [p3]⟩) (heads := roads.map (fun r => r.2.1)) (by
    intro dir i a e ha ho
    refine ⟨?_, hI.road dir i a e ha ho⟩
    simp only [origOf, Option.bind_eq_some_iff] at ho
    obtain ⟨es, h1, h2⟩ := ho
    obtain ⟨r, a', q1, q2, q3, q4⟩ := (hlist dir i es h1).2 e (List.mem_of_mem_head? h2)
    rw [ha] at q2; injection q2 with q2; subst q2
    rw [List.getElem?_map, q1, Option.map_some, q4])

/-- Customization. -/
theorem customize_ok (hbs : SearchBy c.bs) (htl : c.tl = Tol.exact) (hsrt : ∀ k l, (c.srt k l).Perm l) (hT : HierarchyOK arcs n par)
    {roads : List (Nat × Nat × (Rat → Rat))} {fwd bwd : List (List Nat)} (hr : RoadsOK roads c.ttf arcs fwd bwd) (hpre : PreReady c.pre c.ttf arcs fwd bwd) :
    ∃ G, customize c arcs n par fwd bwd = some G ∧ G.n = n ∧ BoundsOK G (roadNet roads) ∧ EvalOK G (roadNet roads) n ∧
      Triangulated (G.net n true) (G.net n false) (roadNet roads) INF ∧ ArcsFifo G n ∧ UnpackOK G (roadNet roads) (roads.map (fun r => r.2.1)) n := by
  obtain ⟨l1, l0, w1, v1, hI⟩ := init_ok hr
  obtain ⟨L, st0, m0, hP⟩ := before_main htl hT hI hpre
  obtain ⟨st, g, m1, m2⟩ := main_ok hbs htl hsrt hT hP
  obtain ⟨G, g1, g2⟩ := result_ok hbs htl hT hr hI m2.fin
  refine ⟨G, ?_, g2⟩
  have w1' : applyWeights c.ttf fwd = some l1 := w1
  have v1' : applyWeights c.ttf bwd = some l0 := v1
  simp only [customize, w1', v1', m0, m1, Option.bind_eq_bind, Option.bind_some]
  exact g1

end Verif.Ftd
