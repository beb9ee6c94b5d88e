import Mathlib.Data.List.Nodup
import Verif.Proof.ForbiddenBlocked
/- Following a walk through the forbidden paths: helper lemmas. -/
set_option linter.unusedSimpArgs false
set_option linter.unusedVariables false
namespace Verif.Traffic
open Spec Active

theorem Active.ext {a b : Active} (h : Same a b) (hb : ∀ i, a.Has i ↔ b.Has i) : a = b := by
  cases a with
  | one x =>
    cases b with
    | one y =>
      congr 1
      apply BitVec.eq_of_getLsbD_eq
      intro i hi
      exact Bool.eq_iff_iff.2 (hb i)
    | more y => exact absurd h (by simp [Same])
  | more x =>
    cases b with
    | one y => exact absurd h (by simp [Same])
    | more y =>
      congr 1
      simp only [Same] at h
      apply List.ext_getElem h
      intro k h1 h2
      apply BitVec.eq_of_getLsbD_eq
      intro i hi
      have := hb (128 * k + i)
      simp only [Has, show (128 * k + i) / 128 = k from by omega, show (128 * k + i) % 128 = i from by omega, List.getElem?_eq_getElem h1,
        List.getElem?_eq_getElem h2] at this
      simp at this
      exact Bool.eq_iff_iff.2 (by simpa using this)

theorem Same.trans {a b c : Active} (h1 : Same a b) (h2 : Same b c) : Same a c := by
  cases a <;> cases b <;> cases c <;> simp_all [Same]

theorem Same.symm {a b : Active} (h1 : Same a b) : Same b a := by
  cases a <;> cases b <;> simp_all [Same]

theorem scan_spec {b : Blocked} {a : Active} (fs : List (Nat × Nat × Nat)) (h : Active)
    (hok : ∀ k off tl, (k, off, tl) ∈ fs → (off ≠ 1 → tl < a.cap) ∧ ∃ p, b.paths[k]? = some p ∧ off < p.length ∧ (off + 1 ≠ p.length → ∃ x, p[off]? = some x ∧ x.2 < h.cap)) :
    ∃ r, b.scan a fs h = some r ∧
      (r = none ↔ ∃ k off tl p, (k, off, tl) ∈ fs ∧ (off = 1 ∨ a.Has tl) ∧ b.paths[k]? = some p ∧ p.length = off + 1) ∧
      ∀ x, r = some x → Same h x ∧ ∀ i, x.Has i ↔ h.Has i ∨ ∃ k off tl p y, (k, off, tl) ∈ fs ∧ (off = 1 ∨ a.Has tl) ∧ b.paths[k]? = some p ∧
        p.length ≠ off + 1 ∧ p[off]? = some y ∧ i = y.2 := by
  induction fs generalizing h with
  | nil =>
    refine ⟨some h, rfl, by simp, ?_⟩
    intro x hx
    injection hx with hx
    subst hx
    exact ⟨Same.refl _, by simp⟩
  | cons f fs ih =>
    obtain ⟨k, off, tl⟩ := f
    obtain ⟨h1, p, h2, h3, h4⟩ := hok k off tl (by simp)
    have hon : ∃ on : Bool, (if off = 1 then some true else a.get tl) = some on ∧ (on = true ↔ off = 1 ∨ a.Has tl) := by
      by_cases ho : off = 1
      · exact ⟨true, by simp [ho], by simp [ho]⟩
      · obtain ⟨x, hx1, hx2⟩ := get_spec (h1 ho)
        exact ⟨x, by simp [ho, hx1], by simp [ho, hx2]⟩
    obtain ⟨on, hon1, hon2⟩ := hon
    cases on with
    | false =>
      obtain ⟨r, e1, e2, e3⟩ := ih h (fun k' off' tl' hm => hok k' off' tl' (by simp [hm]))
      have hno : ¬ (off = 1 ∨ a.Has tl) := fun hx => (nomatch (hon2.2 hx))
      refine ⟨r, ?_, ?_, ?_⟩
      · rw [Blocked.scan]
        by_cases ho : off = 1
        · exact absurd (.inl ho) hno
        · rw [if_neg ho] at hon1
          simp only [if_neg ho, hon1, Option.bind_eq_bind, Option.bind_some, Bool.false_eq_true, if_false]
          exact e1
      · rw [e2]
        constructor
        · rintro ⟨k', off', tl', p', q1, q2⟩
          exact ⟨k', off', tl', p', by simp [q1], q2⟩
        · rintro ⟨k', off', tl', p', q1, q2, q3⟩
          rcases List.mem_cons.1 q1 with q1 | q1
          · injection q1 with q4 q5
            injection q5 with q5 q6
            subst q5 q6
            exact absurd q2 hno
          · exact ⟨k', off', tl', p', q1, q2, q3⟩
      · intro x hx
        obtain ⟨e4, e5⟩ := e3 x hx
        refine ⟨e4, fun i => ?_⟩
        rw [e5]
        constructor
        · rintro (q | ⟨k', off', tl', p', y, q1, q2⟩)
          · exact .inl q
          · exact .inr ⟨k', off', tl', p', y, by simp [q1], q2⟩
        · rintro (q | ⟨k', off', tl', p', y, q1, q2, q3⟩)
          · exact .inl q
          · rcases List.mem_cons.1 q1 with q1 | q1
            · injection q1 with q4 q5
              injection q5 with q5 q6
              subst q5 q6
              exact absurd q2 hno
            · exact .inr ⟨k', off', tl', p', y, q1, q2, q3⟩
    | true =>
      have hyes : off = 1 ∨ a.Has tl := hon2.1 rfl
      by_cases hlen : p.length = off + 1
      · refine ⟨none, ?_, ?_, fun x hx => by simp at hx⟩
        · rw [Blocked.scan]
          by_cases ho : off = 1
          · simp only [if_pos ho, h2, Option.bind_eq_bind, Option.bind_some, if_true, if_pos hlen, Option.pure_def]
          · rw [if_neg ho] at hon1
            simp only [if_neg ho, hon1, h2, Option.bind_eq_bind, Option.bind_some, if_true, if_pos hlen, Option.pure_def]
        · simp only [true_iff]
          exact ⟨k, off, tl, p, by simp, hyes, h2, hlen⟩
      · obtain ⟨x, hx1, hx2⟩ := h4 (fun hx => hlen hx.symm)
        obtain ⟨h', hs1, hs2, hs3⟩ := set_spec hx2
        obtain ⟨r, e1, e2, e3⟩ := ih h' (fun k' off' tl' hm => by
          rw [hs2.cap]; exact hok k' off' tl' (by simp [hm]))
        refine ⟨r, ?_, ?_, ?_⟩
        · rw [Blocked.scan]
          by_cases ho : off = 1
          · simp only [if_pos ho, h2, hx1, hs1, Option.bind_eq_bind, Option.bind_some, if_true, if_neg hlen, Option.pure_def]
            exact e1
          · rw [if_neg ho] at hon1
            simp only [if_neg ho, hon1, h2, hx1, hs1, Option.bind_eq_bind, Option.bind_some, if_true, if_neg hlen, Option.pure_def]
            exact e1
        · rw [e2]
          constructor
          · rintro ⟨k', off', tl', p', q1, q2⟩
            exact ⟨k', off', tl', p', by simp [q1], q2⟩
          · rintro ⟨k', off', tl', p', q1, q2, q3, q4⟩
            rcases List.mem_cons.1 q1 with q1 | q1
            · injection q1 with q5 q6
              injection q6 with q6 q7
              subst q5 q6 q7
              rw [h2] at q3
              injection q3 with q3
              subst q3
              exact absurd q4 hlen
            · exact ⟨k', off', tl', p', q1, q2, q3, q4⟩
        · intro z hz
          obtain ⟨e4, e5⟩ := e3 z hz
          refine ⟨Same.trans hs2 e4, fun i => ?_⟩
          rw [e5, hs3]
          constructor
          · rintro ((q | q) | ⟨k', off', tl', p', y, q1, q2⟩)
            · exact .inl q
            · exact .inr ⟨k, off, tl, p, x, by simp, hyes, h2, hlen, hx1, q⟩
            · exact .inr ⟨k', off', tl', p', y, by simp [q1], q2⟩
          · rintro (q | ⟨k', off', tl', p', y, q1, q2, q3, q4, q5, q6⟩)
            · exact .inl (.inl q)
            · rcases List.mem_cons.1 q1 with q1 | q1
              · injection q1 with q7 q8
                injection q8 with q8 q9
                subst q7 q8 q9
                rw [h2] at q3
                injection q3 with q3
                subst q3
                rw [hx1] at q5
                injection q5 with q5
                subst q5
                exact .inl (.inr q6)
              · exact .inr ⟨k', off', tl', p', y, q1, q2, q3, q4, q5, q6⟩

/-- `f` is forbidden, in its step `off` it goes from `u` to `v`, and it is active at `u` -/
structure At (b : Blocked) (loc : Nat → Nat → Nat) (u v : Nat) (a : Active) (k off : Nat) (f : List Nat) : Prop where
  get : b.nodes[k]? = some f
  pos : 1 ≤ off
  tail : f[off - 1]? = some u
  head : f[off]? = some v
  act : off = 1 ∨ a.Has (loc k u)

/-- the arc completes a forbidden path -/
def Ill (b : Blocked) (loc : Nat → Nat → Nat) (u v : Nat) (a : Active) : Prop := ∃ k off f, At b loc u v a k off f ∧ f.length = off + 1

/-- active at the head -/
def Nxt (b : Blocked) (loc : Nat → Nat → Nat) (u v : Nat) (a : Active) (i : Nat) : Prop :=
  ∃ k off f, At b loc u v a k off f ∧ off + 1 < f.length ∧ i = loc k v

/-- the representation used at a node -/
def Shape (b : Blocked) (v : Nat) (a : Active) : Prop := ∃ c, b.counter[v]? = some c ∧ Same (Active.new c) a

/-- the effect of going from `u` to `v` -/
def stepF (g : FOGraph) (b : Blocked) (u v : Nat) (a : Active) : Option Active :=
  (do
    let es ← g.edgeIndices u v
    let e ← es.head?
    let fs ← b.edges[e]?
    let c ← b.counter[v]?
    b.scan a fs (Active.new c)).join

theorem nodes_get {b : Blocked} {k : Nat} {f : List Nat} : b.nodes[k]? = some f ↔ ∃ p, b.paths[k]? = some p ∧ f = p.map Prod.fst := by
  unfold Blocked.nodes
  rw [List.getElem?_map, Option.map_eq_some_iff]
  constructor
  · rintro ⟨p, h1, h2⟩; exact ⟨p, h1, h2.symm⟩
  · rintro ⟨p, h1, h2⟩; exact ⟨p, h1, h2.symm⟩

theorem scan_edge {g : FOGraph} (hg : g.WF) {b : Blocked} {loc : Nat → Nat → Nat} (hb : BOK g b loc) {e u v : Nat} {a : Active} (he : Ed g e u v)
    (ha : Shape b u a) : ∃ fs c r, b.edges[e]? = some fs ∧ b.counter[v]? = some c ∧ b.scan a fs (Active.new c) = some r ∧
      (r = none ↔ Ill b loc u v a) ∧ ∀ x, r = some x → Same (Active.new c) x ∧ ∀ i, x.Has i ↔ Nxt b loc u v a i := by
  have hel : e < b.edges.length := by rw [hb.el]; exact he.lt
  obtain ⟨fs, hfs⟩ : ∃ fs, b.edges[e]? = some fs := ⟨_, List.getElem?_eq_getElem hel⟩
  have hv : v < g.numNodes := by
    obtain ⟨w, _, _, _, _, _, _, h5, _⟩ := he
    exact hg.heads v (List.mem_of_getElem? h5)
  obtain ⟨c, hc⟩ : ∃ c, b.counter[v]? = some c := ⟨_, List.getElem?_eq_getElem (by rw [hb.cl]; exact hv)⟩
  obtain ⟨cu, hcu, hsame⟩ := ha
  have hkey : ∀ k off tl, (k, off, tl) ∈ fs ↔ ∃ p x y, b.paths[k]? = some p ∧ 1 ≤ off ∧ p[off - 1]? = some x ∧ p[off]? = some y ∧ x.1 = u ∧ y.1 = v ∧ tl = loc k u := by
    intro k off tl
    rw [hb.edge e fs hfs]
    constructor
    · rintro ⟨p, x, y, h1, h2, h3, h4, h5, h6⟩
      obtain ⟨h7, h8⟩ := Ed.unique hg h5 he
      exact ⟨p, x, y, h1, h2, h3, h4, h7, h8, by rw [h6, h7]⟩
    · rintro ⟨p, x, y, h1, h2, h3, h4, rfl, rfl, h6⟩
      exact ⟨p, x, y, h1, h2, h3, h4, he, h6⟩
  obtain ⟨r, h1, h2, h3⟩ := scan_spec (b := b) (a := a) fs (Active.new c) (by
    intro k off tl hm
    obtain ⟨p, x, y, k1, k2, k3, k4, rfl, rfl, k7⟩ := (hkey k off tl).1 hm
    have hlt := (List.getElem?_eq_some_iff.1 k4).1
    refine ⟨fun ho => ?_, p, k1, hlt, fun hl => ⟨y, k4, ?_⟩⟩
    · obtain ⟨c', q1, q2⟩ := hb.cnt k p (off - 1) x k1 (by omega) (by omega) k3
      rw [hcu] at q1
      injection q1 with q1
      rw [k7, hsame.cap]
      have := (new_cap cu).1
      omega
    · obtain ⟨c', q1, q2⟩ := hb.cnt k p off y k1 k2 (by omega) k4
      rw [hc] at q1
      injection q1 with q1
      rw [hb.lid k p off y k1 k2 k4]
      have := (new_cap c).1
      omega)
  refine ⟨fs, c, r, hfs, hc, h1, ?_, ?_⟩
  · rw [h2]
    constructor
    · rintro ⟨k, off, tl, p, q1, q2, q3, q4⟩
      obtain ⟨p', x, y, k1, k2, k3, k4, k5, k6, k7⟩ := (hkey k off tl).1 q1
      rw [q3] at k1
      injection k1 with k1
      subst k1
      refine ⟨k, off, p.map Prod.fst, ⟨nodes_get.2 ⟨p, q3, rfl⟩, k2, ?_, ?_, ?_⟩, by simpa using q4⟩
      · rw [List.getElem?_map, k3, ← k5]; rfl
      · rw [List.getElem?_map, k4, ← k6]; rfl
      · rw [← k7]; exact q2
    · rintro ⟨k, off, f, ⟨q1, q2, q3, q4, q5⟩, q6⟩
      obtain ⟨p, k1, rfl⟩ := nodes_get.1 q1
      rw [List.getElem?_map, Option.map_eq_some_iff] at q3 q4
      obtain ⟨x, k3, k5⟩ := q3
      obtain ⟨y, k4, k6⟩ := q4
      exact ⟨k, off, loc k u, p, (hkey _ _ _).2 ⟨p, x, y, k1, q2, k3, k4, k5, k6, rfl⟩, q5, k1, by simpa using q6⟩
  · intro x hx
    obtain ⟨h4, h5⟩ := h3 x hx
    refine ⟨h4, fun i => ?_⟩
    rw [h5]
    constructor
    · rintro (h | ⟨k, off, tl, p, y', q1, q2, q3, q4, q5, q6⟩)
      · exact absurd h (has_new _ _)
      · obtain ⟨p', x, y, k1, k2, k3, k4, k5, k6, k7⟩ := (hkey k off tl).1 q1
        rw [q3] at k1
        injection k1 with k1
        subst k1
        rw [k4] at q5
        injection q5 with q5
        subst q5
        have hlt := (List.getElem?_eq_some_iff.1 k4).1
        refine ⟨k, off, p.map Prod.fst, ⟨nodes_get.2 ⟨p, q3, rfl⟩, k2, ?_, ?_, ?_⟩, by simp; omega, ?_⟩
        · rw [List.getElem?_map, k3, ← k5]; rfl
        · rw [List.getElem?_map, k4, ← k6]; rfl
        · rw [← k7]; exact q2
        · rw [q6, hb.lid k p off y q3 k2 k4, k6]
    · rintro ⟨k, off, f, ⟨q1, q2, q3, q4, q5⟩, q6, q7⟩
      obtain ⟨p, k1, rfl⟩ := nodes_get.1 q1
      rw [List.getElem?_map, Option.map_eq_some_iff] at q3 q4
      obtain ⟨x, k3, k5⟩ := q3
      obtain ⟨y, k4, k6⟩ := q4
      simp at q6
      refine .inr ⟨k, off, loc k u, p, y, (hkey _ _ _).2 ⟨p, x, y, k1, q2, k3, k4, k5, k6, rfl⟩, q5, k1, by omega, k4, ?_⟩
      rw [q7, hb.lid k p off y k1 q2 k4, k6]

/-- the effect of an arc does not depend on which of parallel edges is used -/
theorem stepF_spec {g : FOGraph} (hg : g.WF) {b : Blocked} {loc : Nat → Nat → Nat} (hb : BOK g b loc) {e u v : Nat} {a : Active} (he : Ed g e u v)
    (ha : Shape b u a) : ∃ fs c, b.edges[e]? = some fs ∧ b.counter[v]? = some c ∧ b.scan a fs (Active.new c) = some (stepF g b u v a) ∧
      (stepF g b u v a = none ↔ Ill b loc u v a) ∧ ∀ x, stepF g b u v a = some x → Shape b v x ∧ ∀ i, x.Has i ↔ Nxt b loc u v a i := by
  obtain ⟨fs, c, r, h1, h2, h3, h4, h5⟩ := scan_edge hg hb he ha
  have hu : u < g.numNodes := by
    obtain ⟨w, _, _, _, h5, _⟩ := he
    have := (List.getElem?_eq_some_iff.1 h5).1
    simp only [FOGraph.numNodes]; omega
  obtain ⟨es, k1, k2⟩ := CCH.edgeIndices_spec hg (v := v) hu
  have hes : e ∈ es := (k2 e).2 he
  obtain ⟨e0, es', rfl⟩ : ∃ e0 es', es = e0 :: es' := by
    cases es with
    | nil => simp at hes
    | cons x l => exact ⟨x, l, rfl⟩
  have he0 : Ed g e0 u v := (k2 e0).1 (by simp)
  obtain ⟨fs0, c0, r0, m1, m2, m3, m4, m5⟩ := scan_edge hg hb he0 ha
  rw [h2] at m2
  injection m2 with m2
  subst m2
  have hstep : stepF g b u v a = r0 := by
    simp only [stepF, k1, List.head?_cons, m1, h2, m3, Option.bind_eq_bind, Option.bind_some, Option.join]
    cases r0 <;> rfl
  have hr : r = r0 := by
    cases r with
    | none => exact (m4.2 (h4.1 rfl)).symm
    | some x =>
      cases r0 with
      | none => exact absurd (h4.2 (m4.1 rfl)) (by simp)
      | some y =>
        obtain ⟨q1, q2⟩ := h5 x rfl
        obtain ⟨q3, q4⟩ := m5 y rfl
        congr 1
        exact Active.ext (Same.trans (Same.symm q1) q3) (fun i => (q2 i).trans (q4 i).symm)
  subst hr
  rw [hstep]
  exact ⟨fs, c, h1, h2, h3, h4, fun x hx => ⟨⟨c, h2, (h5 x hx).1⟩, (h5 x hx).2⟩⟩

theorem Ill.mono {b : Blocked} {loc : Nat → Nat → Nat} {u v : Nat} {a a' : Active} (hs : Sub a a') (h : Ill b loc u v a) : Ill b loc u v a' := by
  obtain ⟨k, off, f, ⟨h1, h2, h3, h4, h5⟩, h6⟩ := h
  exact ⟨k, off, f, ⟨h1, h2, h3, h4, h5.imp id (hs _)⟩, h6⟩

theorem Nxt.mono {b : Blocked} {loc : Nat → Nat → Nat} {u v i : Nat} {a a' : Active} (hs : Sub a a') (h : Nxt b loc u v a i) : Nxt b loc u v a' i := by
  obtain ⟨k, off, f, ⟨h1, h2, h3, h4, h5⟩, h6⟩ := h
  exact ⟨k, off, f, ⟨h1, h2, h3, h4, h5.imp id (hs _)⟩, h6⟩

theorem stepF_mono {g : FOGraph} (hg : g.WF) {b : Blocked} {loc : Nat → Nat → Nat} (hb : BOK g b loc) {e u v : Nat} {a a' x : Active} (he : Ed g e u v)
    (ha : Shape b u a) (ha' : Shape b u a') (hs : Sub a a') (hx : stepF g b u v a' = some x) : ∃ y, stepF g b u v a = some y ∧ Sub y x := by
  obtain ⟨_, _, _, _, _, h1, h2⟩ := stepF_spec hg hb he ha
  obtain ⟨_, _, _, _, _, k1, k2⟩ := stepF_spec hg hb he ha'
  cases hy : stepF g b u v a with
  | none => exact absurd (k1.2 ((h1.1 hy).mono hs)) (by simp [hx])
  | some y => exact ⟨y, rfl, fun i hi => ((k2 x hx).2 i).2 (((h2 y hy).2 i).1 hi |>.mono hs)⟩

/-! ### Walks -/

/-- follow a walk; `none` if a forbidden path is completed -/
def track (g : FOGraph) (b : Blocked) : List Nat → Active → Option Active
  | u :: v :: rest, a => (stepF g b u v a).bind (track g b (v :: rest))
  | _, a => some a

/-- consecutive nodes are joined by arcs -/
def Linked (g : FOGraph) (p : List Nat) : Prop := ∀ (i u v : Nat), p[i]? = some u → p[i + 1]? = some v → ∃ e, Ed g e u v

theorem Linked.tail {g : FOGraph} {u : Nat} {p : List Nat} (h : Linked g (u :: p)) : Linked g p := fun i a b ha hb =>
  h (i + 1) a b (by simpa using ha) (by simpa using hb)

theorem track_append (g : FOGraph) (b : Blocked) (p q : List Nat) (v : Nat) (a : Active) :
    track g b (p ++ v :: q) a = (track g b (p ++ [v]) a).bind (track g b (v :: q)) := by
  induction p generalizing a with
  | nil => simp [track]
  | cons u p ih =>
    cases p with
    | nil => simp [track, Option.bind_assoc]
    | cons w p =>
      have := ih
      simp only [List.cons_append, track] at this ⊢
      rw [Option.bind_assoc]
      congr 1
      funext x
      exact this x

theorem track_shape {g : FOGraph} (hg : g.WF) {b : Blocked} {loc : Nat → Nat → Nat} (hb : BOK g b loc) (p : List Nat) (v : Nat) (a x : Active)
    (hp : Linked g (p ++ [v])) (ha : ∀ u, (p ++ [v]).head? = some u → Shape b u a) (h : track g b (p ++ [v]) a = some x) : Shape b v x := by
  induction p generalizing a with
  | nil =>
    simp [track] at h
    subst h
    exact ha v rfl
  | cons u p ih =>
    obtain ⟨w, hw⟩ : ∃ w, (p ++ [v]).head? = some w := by cases p <;> simp
    obtain ⟨q, hq⟩ : ∃ q, p ++ [v] = w :: q := by
      cases hpv : p ++ [v] with
      | nil => simp at hpv
      | cons y q => rw [hpv] at hw; simp at hw; exact ⟨q, by rw [hw]⟩
    have hl := hp
    rw [List.cons_append, hq] at h hl
    obtain ⟨e, he⟩ := hl 0 u w rfl rfl
    have hsu := ha u (by simp)
    obtain ⟨_, _, _, _, _, _, h2⟩ := stepF_spec hg hb he hsu
    rw [track] at h
    cases hs : stepF g b u w a with
    | none => simp [hs] at h
    | some y =>
      rw [hs, Option.bind_some, ← hq] at h
      exact ih y (Linked.tail (by rw [List.cons_append] at hp; exact hp)) (fun z hz => by
        rw [hw] at hz
        injection hz with hz
        subst hz
        exact (h2 y hs).1) h

theorem track_mono {g : FOGraph} (hg : g.WF) {b : Blocked} {loc : Nat → Nat → Nat} (hb : BOK g b loc) (p : List Nat) (a a' x : Active)
    (hp : Linked g p) (ha : ∀ u, p.head? = some u → Shape b u a) (ha' : ∀ u, p.head? = some u → Shape b u a') (hs : Sub a a') (h : track g b p a' = some x) :
    ∃ y, track g b p a = some y ∧ Sub y x := by
  induction p generalizing a a' with
  | nil => simp [track] at h ⊢; subst h; exact hs
  | cons u p ih =>
    cases p with
    | nil => simp [track] at h ⊢; subst h; exact hs
    | cons v p =>
      obtain ⟨e, he⟩ := hp 0 u v rfl rfl
      rw [track] at h
      cases hy' : stepF g b u v a' with
      | none => simp [hy'] at h
      | some y' =>
        rw [hy', Option.bind_some] at h
        obtain ⟨y, h1, h2⟩ := stepF_mono hg hb he (ha u rfl) (ha' u rfl) hs hy'
        obtain ⟨_, _, _, _, _, _, k1⟩ := stepF_spec hg hb he (ha u rfl)
        obtain ⟨_, _, _, _, _, _, k2⟩ := stepF_spec hg hb he (ha' u rfl)
        obtain ⟨z, h3, h4⟩ := ih y y' hp.tail (fun w hw => by simp at hw; subst hw; exact (k1 y h1).1)
          (fun w hw => by simp at hw; subst hw; exact (k2 y' hy').1) h2 h
        exact ⟨z, by rw [track, h1, Option.bind_some]; exact h3, h4⟩

/-- a walk that is followed to its end contains no forbidden path -/
theorem track_infix {g : FOGraph} (hg : g.WF) {b : Blocked} {loc : Nat → Nat → Nat} (hb : BOK g b loc) (p : List Nat) (a x : Active)
    (hp : Linked g p) (ha : ∀ u, p.head? = some u → Shape b u a) (h : track g b p a = some x) : ∀ f ∈ b.nodes, ¬ f <:+: p := by
  rintro f hf ⟨X, Y, rfl⟩
  obtain ⟨k, hk⟩ := List.mem_iff_getElem?.1 hf
  have hf2 : 2 ≤ f.length := by
    obtain ⟨q, h1, rfl⟩ := nodes_get.1 hk
    have := (hb.path k q h1).1
    simpa using this
  -- along `f`, from its second node on, it is active
  have key : ∀ (r : List Nat) (i u : Nat) (y : Active), 1 ≤ i → f[i]? = some u → f.drop (i + 1) = r → r ≠ [] → y.Has (loc k u) → Shape b u y →
      Linked g (u :: r ++ Y) → track g b (u :: r ++ Y) y = none := by
    intro r
    induction r with
    | nil => intro i u y _ _ _ hne; exact absurd rfl hne
    | cons v r ih =>
      intro i u y hi hu hr _ hy hsh hl
      have hv : f[i + 1]? = some v := by
        have : (f.drop (i + 1))[0]? = some v := by rw [hr]; rfl
        rwa [List.getElem?_drop] at this
      have hr' : f.drop (i + 1 + 1) = r := by
        rw [← List.drop_drop, hr]; rfl
      obtain ⟨e, he⟩ := hl 0 u v rfl rfl
      obtain ⟨_, _, _, _, _, k1, k2⟩ := stepF_spec hg hb he hsh
      have hat : At b loc u v y k (i + 1) f := ⟨hk, by omega, by simpa using hu, hv, .inr hy⟩
      have hflen : f.length = i + 2 + r.length := by
        have := congrArg List.length hr'
        rw [List.length_drop] at this
        have := (List.getElem?_eq_some_iff.1 hv).1
        omega
      cases hst : stepF g b u v y with
      | none => simp only [List.cons_append, track, hst]; rfl
      | some z =>
        cases r with
        | nil =>
          exact absurd (k1.2 ⟨k, i + 1, f, hat, by rw [hflen]; rfl⟩) (by simp [hst])
        | cons w r =>
          simp only [List.cons_append, track, hst, Option.bind_some]
          have := ih (i + 1) v z (by omega) hv hr' (by simp) (((k2 z hst).2 _).2 ⟨k, i + 1, f, hat, by rw [hflen]; simp, rfl⟩)
            (k2 z hst).1 (Linked.tail (u := u) (by simpa using hl))
          simpa [track] using this
  obtain ⟨u0, u1, r, rfl⟩ : ∃ u0 u1 r, f = u0 :: u1 :: r := by
    cases f with
    | nil => simp at hf2
    | cons a f =>
      cases f with
      | nil => simp at hf2
      | cons b r => exact ⟨a, b, r, rfl⟩
  -- the start
  have hstart : ∀ y, Shape b u0 y → Linked g (u0 :: u1 :: r ++ Y) → track g b (u0 :: u1 :: r ++ Y) y = none := by
    intro y hsh hl
    obtain ⟨e, he⟩ := hl 0 u0 u1 rfl rfl
    obtain ⟨_, _, _, _, _, k1, k2⟩ := stepF_spec hg hb he hsh
    have hat : At b loc u0 u1 y k 1 (u0 :: u1 :: r) := ⟨hk, by omega, rfl, rfl, .inl rfl⟩
    cases hst : stepF g b u0 u1 y with
    | none => simp only [List.cons_append, track, hst]; rfl
    | some z =>
      cases r with
      | nil => exact absurd (k1.2 ⟨k, 1, _, hat, rfl⟩) (by simp [hst])
      | cons w r =>
        simp only [List.cons_append, track, hst, Option.bind_some]
        have := key (w :: r) 1 u1 z (by omega) rfl rfl (by simp) (((k2 z hst).2 _).2 ⟨k, 1, _, hat, by simp, rfl⟩) (k2 z hst).1
          (Linked.tail (u := u0) (by simpa using hl))
        simpa [track] using this
  rw [show X ++ (u0 :: u1 :: r) ++ Y = X ++ u0 :: (u1 :: r ++ Y) from by simp] at h hp ha
  rw [track_append] at h
  cases hX : track g b (X ++ [u0]) a with
  | none => simp [hX] at h
  | some y =>
    rw [hX, Option.bind_some] at h
    have hlX : Linked g (X ++ [u0]) := by
      intro i c d hc hd
      have h1 := (List.getElem?_eq_some_iff.1 hd).1
      have h2 := (List.getElem?_eq_some_iff.1 hc).1
      simp at h1 h2
      refine hp i c d ?_ ?_
      · rw [show X ++ u0 :: (u1 :: r ++ Y) = (X ++ [u0]) ++ (u1 :: r ++ Y) from by simp, List.getElem?_append_left (by simp; omega)]; exact hc
      · rw [show X ++ u0 :: (u1 :: r ++ Y) = (X ++ [u0]) ++ (u1 :: r ++ Y) from by simp, List.getElem?_append_left (by simp; omega)]; exact hd
    have hsh := track_shape hg hb X u0 a y hlX (fun u hu => ha u (by cases X <;> simpa using hu)) hX
    have hlY : Linked g (u0 :: u1 :: r ++ Y) := by
      intro i c d hc hd
      refine hp (X.length + i) c d ?_ ?_
      · rw [List.getElem?_append_right (by omega)]; simpa using hc
      · rw [List.getElem?_append_right (by omega), show X.length + i + 1 - X.length = i + 1 from by omega]; simpa using hd
    have := hstart y hsh hlY
    simp only [List.cons_append] at h this
    rw [h] at this
    simp at this

/-- what an active path says about the walk so far -/
def Hist (b : Blocked) (loc : Nat → Nat → Nat) (q : List Nat) (v : Nat) (a : Active) : Prop :=
  ∀ i, a.Has i → ∃ (k off : Nat) (f : List Nat), b.nodes[k]? = some f ∧ i = loc k v ∧ 1 ≤ off ∧ off + 1 < f.length ∧ f[off]? = some v ∧
    (f.tail.Nodup → f.take (off + 1) <:+ q) ∧ ∀ z, f[0]? = some z → z ∈ q

theorem take_snoc {f q : List Nat} {off v : Nat} (hv : f[off]? = some v) (h : f.take off <:+ q) : f.take (off + 1) <:+ q ++ [v] := by
  obtain ⟨X, hX⟩ := h
  refine ⟨X, ?_⟩
  rw [List.take_succ, hv, ← hX]
  simp

theorem nodup_get {f : List Nat} (h : f.Nodup) {i j v : Nat} (hi : f[i]? = some v) (hj : f[j]? = some v) : i = j := by
  obtain ⟨h1, h2⟩ := List.getElem?_eq_some_iff.1 hi
  obtain ⟨h3, h4⟩ := List.getElem?_eq_some_iff.1 hj
  exact (List.Nodup.getElem_inj_iff h).1 (h2.trans h4.symm)

/-- one step of a forbidden path along a walk -/
theorem at_hist {g : FOGraph} {b : Blocked} {loc : Nat → Nat → Nat} (hb : BOK g b loc) {q : List Nat} {u v : Nat} {a : Active} {k off : Nat} {f : List Nat}
    (hu : q.getLast? = some u) (hh : Hist b loc q u a) (hat : At b loc u v a k off f) :
    (f.tail.Nodup → f.take (off + 1) <:+ q ++ [v]) ∧ ∀ z, f[0]? = some z → z ∈ q := by
  obtain ⟨h1, h2, h3, h4, h5⟩ := hat
  by_cases ho : off = 1
  · subst ho
    simp only [Nat.sub_self] at h3
    obtain ⟨q', rfl⟩ := List.getLast?_eq_some_iff.1 hu
    refine ⟨fun _ => take_snoc h4 ⟨q', ?_⟩, fun z hz => ?_⟩
    · rw [List.take_succ, h3]; simp
    · rw [h3] at hz; injection hz with hz; subst hz; simp
  · obtain ⟨k', off', f', k1, k2, k3, k4, k5, k6, k7⟩ := hh _ (h5.resolve_left ho)
    obtain ⟨p, hp, rfl⟩ := nodes_get.1 h1
    obtain ⟨p', hp', rfl⟩ := nodes_get.1 k1
    rw [List.getElem?_map, Option.map_eq_some_iff] at h3 k5
    obtain ⟨x, hx, rfl⟩ := h3
    obtain ⟨x', hx', hxx⟩ := k5
    have hlt := (List.getElem?_eq_some_iff.1 h4).1
    simp at hlt k4
    have hkk : k = k' := hb.inj k k' p p' (off - 1) off' x x' hp hp' (by omega) (by omega) k3 k4 hx hx' hxx.symm (by rw [hxx]; exact k2)
    subst hkk
    rw [hp] at hp'
    injection hp' with hp'
    subst hp'
    refine ⟨fun hnd => ?_, k7⟩
    have : off - 1 - 1 = off' - 1 := nodup_get hnd (v := x.1)
      (by rw [List.getElem?_tail, show off - 1 - 1 + 1 = off - 1 from by omega, List.getElem?_map, hx]; rfl)
      (by rw [List.getElem?_tail, show off' - 1 + 1 = off' from by omega, List.getElem?_map, hx']; simpa using hxx)
    replace this : off - 1 = off' := by omega
    have hk6 := k6 hnd
    rw [← this, show off - 1 + 1 = off from by omega] at hk6
    exact take_snoc h4 hk6

/-- A walk that visits no node twice and contains no forbidden path is followed to its end, if the forbidden paths are simple or closed. -/
theorem track_some {g : FOGraph} (hg : g.WF) {b : Blocked} {loc : Nat → Nat → Nat} (hb : BOK g b loc)
    (hF : ∀ f ∈ b.nodes, f.Nodup ∨ f.head? = f.getLast?) (r q : List Nat) (u : Nat) (a : Active) (hu : q.getLast? = some u)
    (hl : Linked g (u :: r)) (hsh : Shape b u a) (hh : Hist b loc q u a) (hnd : (q ++ r).Nodup) (hno : ∀ f ∈ b.nodes, ¬ f <:+: q ++ r) :
    ∃ x, track g b (u :: r) a = some x := by
  induction r generalizing q u a with
  | nil => exact ⟨a, rfl⟩
  | cons v r ih =>
    obtain ⟨e, he⟩ := hl 0 u v rfl rfl
    obtain ⟨_, _, _, _, _, k1, k2⟩ := stepF_spec hg hb he hsh
    cases hst : stepF g b u v a with
    | none =>
      exfalso
      obtain ⟨k, off, f, hat, hlen⟩ := k1.1 hst
      obtain ⟨h1, h2⟩ := at_hist hb hu hh hat
      have hmem := List.mem_of_getElem? hat.get
      rcases hF f hmem with hf | hf
      · have := h1 (hf.sublist (List.tail_sublist f))
        rw [List.take_of_length_le (by omega)] at this
        refine hno f hmem ?_
        obtain ⟨X, hX⟩ := this
        exact ⟨X, r, by rw [hX]; simp⟩
      · have hlast : f.getLast? = some v := by
          rw [List.getLast?_eq_getElem? (l := f), hlen, show off + 1 - 1 = off from by omega]; exact hat.head
        rw [hlast, List.head?_eq_getElem?] at hf
        have := h2 v hf
        rw [List.nodup_append] at hnd
        exact hnd.2.2 v this v (by simp) rfl
    | some y =>
      rw [track, hst, Option.bind_some]
      refine ih (q ++ [v]) v y (by simp) hl.tail (k2 y hst).1 ?_ (by simpa using hnd) (by simpa using hno)
      intro i hi
      obtain ⟨k, off, f, hat, hlen, rfl⟩ := ((k2 y hst).2 i).1 hi
      obtain ⟨h1, h2⟩ := at_hist hb hu hh hat
      exact ⟨k, off, f, hat.get, rfl, hat.pos, hlen, hat.head, h1, fun z hz => by simp [h2 z hz]⟩

/-- A walk that contains no forbidden path is followed to its end, if no forbidden path visits a node twice, apart from its first node. -/
theorem track_simple {g : FOGraph} (hg : g.WF) {b : Blocked} {loc : Nat → Nat → Nat} (hb : BOK g b loc)
    (hF : ∀ f ∈ b.nodes, f.tail.Nodup) (r q : List Nat) (u : Nat) (a : Active) (hu : q.getLast? = some u)
    (hl : Linked g (u :: r)) (hsh : Shape b u a) (hh : Hist b loc q u a) (hno : ∀ f ∈ b.nodes, ¬ f <:+: q ++ r) :
    ∃ x, track g b (u :: r) a = some x := by
  induction r generalizing q u a with
  | nil => exact ⟨a, rfl⟩
  | cons v r ih =>
    obtain ⟨e, he⟩ := hl 0 u v rfl rfl
    obtain ⟨_, _, _, _, _, k1, k2⟩ := stepF_spec hg hb he hsh
    cases hst : stepF g b u v a with
    | none =>
      exfalso
      obtain ⟨k, off, f, hat, hlen⟩ := k1.1 hst
      obtain ⟨h1, h2⟩ := at_hist hb hu hh hat
      have hmem := List.mem_of_getElem? hat.get
      have := h1 (hF f hmem)
      rw [List.take_of_length_le (by omega)] at this
      refine hno f hmem ?_
      obtain ⟨X, hX⟩ := this
      exact ⟨X, r, by rw [hX]; simp⟩
    | some y =>
      rw [track, hst, Option.bind_some]
      refine ih (q ++ [v]) v y (by simp) hl.tail (k2 y hst).1 ?_ (by simpa using hno)
      intro i hi
      obtain ⟨k, off, f, hat, hlen, rfl⟩ := ((k2 y hst).2 i).1 hi
      obtain ⟨h1, h2⟩ := at_hist hb hu hh hat
      exact ⟨k, off, f, hat.get, rfl, hat.pos, hlen, hat.head, h1, fun z hz => by simp [h2 z hz]⟩

/-- The test in debug builds: if it stops, a forbidden path ends at the node where it stops. -/
theorem testPath_spec {g : FOGraph} (hg : g.WF) {b : Blocked} {loc : Nat → Nat → Nat} (hb : BOK g b loc) (hF : ∀ f ∈ b.nodes, f.tail.Nodup) (last : Nat)
    (r q : List Nat) (u : Nat) (a : Active) (hu : q.getLast? = some u) (hl : Linked g (u :: r)) (hsh : Shape b u a) (hh : Hist b loc q u a) :
    ((∃ x, track g b (u :: r) a = some x) ∧ b.testPath g last (u :: r) a = some true) ∨
    ∃ v X Y f, r = X ++ v :: Y ∧ f ∈ b.nodes ∧ f <:+ q ++ X ++ [v] ∧ b.testPath g last (u :: r) a = if v = last then none else some false := by
  induction r generalizing q u a with
  | nil => exact .inl ⟨⟨a, rfl⟩, by simp [Blocked.testPath]⟩
  | cons v r ih =>
    obtain ⟨e, he⟩ := hl 0 u v rfl rfl
    have hun : u < g.numNodes := by
      obtain ⟨w, _, _, _, h5, _⟩ := he
      have := (List.getElem?_eq_some_iff.1 h5).1
      simp only [FOGraph.numNodes]; omega
    obtain ⟨es, k3, k4⟩ := CCH.edgeIndices_spec hg (v := v) hun
    have hes : e ∈ es := (k4 e).2 he
    obtain ⟨e0, es', rfl⟩ : ∃ e0 es', es = e0 :: es' := by
      cases es with
      | nil => simp at hes
      | cons x l => exact ⟨x, l, rfl⟩
    have he0 : Ed g e0 u v := (k4 e0).1 (by simp)
    obtain ⟨fs, c, m1, m2, m3, k1, k2⟩ := stepF_spec hg hb he0 hsh
    have hunf : b.testPath g last (u :: v :: r) a =
        match stepF g b u v a with
        | none => if v = last then none else some false
        | some h => b.testPath g last (v :: r) h := by
      rw [Blocked.testPath]
      simp only [m2, k3, m1, m3, Option.bind_eq_bind, Option.bind_some, Option.pure_def]
      cases stepF g b u v a <;> rfl
    cases hst : stepF g b u v a with
    | none =>
      rw [hst] at hunf
      obtain ⟨k, off, f, hat, hlen⟩ := k1.1 hst
      obtain ⟨h1, h2⟩ := at_hist hb hu hh hat
      have hmem := List.mem_of_getElem? hat.get
      have := h1 (hF f hmem)
      rw [List.take_of_length_le (by omega)] at this
      exact .inr ⟨v, [], r, f, rfl, hmem, by simpa using this, hunf⟩
    | some y =>
      rw [hst] at hunf
      rcases ih (q ++ [v]) v y (by simp) hl.tail (k2 y hst).1 (by
        intro i hi
        obtain ⟨k, off, f, hat, hlen, rfl⟩ := ((k2 y hst).2 i).1 hi
        obtain ⟨h1, h2⟩ := at_hist hb hu hh hat
        exact ⟨k, off, f, hat.get, rfl, hat.pos, hlen, hat.head, h1, fun z hz => by simp [h2 z hz]⟩) with ⟨⟨x, h1⟩, h2⟩ | ⟨v', X, Y, f, h1, h2, h3, h4⟩
      · exact .inl ⟨⟨x, by rw [track, hst, Option.bind_some]; exact h1⟩, by rw [hunf]; exact h2⟩
      · exact .inr ⟨v', v :: X, Y, f, by rw [h1]; rfl, h2, by simpa using h3, by rw [hunf]; exact h4⟩

end Verif.Traffic
