import Verif.Proof.HeuristicSearch
set_option linter.unusedSimpArgs false
set_option linter.unusedVariables false
/-
The searches do not depend on the timestamps in which the labels are stored, and repeating a forbidden path has no effect. Used to show
that a query may repeat the same round for ever.
-/
namespace Verif.Topo
variable {α β σ : Type}

/-- the same labels, predecessors and queue -/
structure DSim (d d' : DData β) : Prop where
  pred : d.pred = d'.pred
  queue : d.queue = d'.queue
  dflt : d.dist.default = d'.dist.default
  rep : ∃ l, TSVec.Rep d.dist l ∧ TSVec.Rep d'.dist l

theorem DSim.get {d d' : DData β} (h : DSim d d') (v : Nat) : d'.dist.get v = d.dist.get v := by
  obtain ⟨l, h1, h2⟩ := h.rep
  rw [h1.get, h2.get]

theorem DSim.trans {a b c : DData β} (h : DSim a b) (h' : DSim b c) : DSim a c := by
  obtain ⟨l, h1, h2⟩ := h.rep
  obtain ⟨l', h3, h4⟩ := h'.rep
  have : l = l' := by
    apply List.ext_getElem?
    intro i
    rw [← h2.get, h3.get]
  subst this
  exact ⟨h.pred.trans h'.pred, h.queue.trans h'.queue, h.dflt.trans h'.dflt, l, h1, h4⟩

theorem DSim.symm {a b : DData β} (h : DSim a b) : DSim b a := by
  obtain ⟨l, h1, h2⟩ := h.rep
  exact ⟨h.pred.symm, h.queue.symm, h.dflt.symm, l, h2, h1⟩

theorem DSim.modify {d d' : DData β} (h : DSim d d') {v : Nat} {f : Nat → Nat} {x : TSVec Nat} (hm : d.dist.modify v f = some x) :
    ∃ x', d'.dist.modify v f = some x' ∧ ∀ pr q, DSim (⟨x, pr, q⟩ : DData β) ⟨x', pr, q⟩ := by
  obtain ⟨l, h1, h2⟩ := h.rep
  have hv : v < l.length := by
    by_contra hv
    have : d.dist.timestamps[v]? = none := by rw [List.getElem?_eq_none_iff, h1.lenT]; omega
    simp [TSVec.modify, this] at hm
  obtain ⟨y, e1, e2, e3⟩ := TSVec.rep_modify h1 f (List.getElem?_eq_getElem hv)
  obtain ⟨y', e4, e5, e6⟩ := TSVec.rep_modify h2 f (List.getElem?_eq_getElem hv)
  rw [e1] at hm; injection hm with hm; subst hm
  exact ⟨y', e4, fun pr q => ⟨rfl, rfl, by rw [e3, e6]; exact h.dflt, _, e2, e5⟩⟩

section
variable {sk : Skip} {G : TGraph α} {ops : POps α β} {cl : Closures σ}

theorem advanceP_sim {node x : Nat} {b : Branch α} {d d1 d' : DData β} {loc loc1 : Loc α β} {c c1 : σ} (h : DSim d d')
    (ha : advanceP ops cl node x b d loc c = some (d1, loc1, c1)) : ∃ d1', advanceP ops cl node x b d' loc c = some (d1', loc1, c1) ∧ DSim d1 d1' := by
  unfold advanceP at ha ⊢
  rw [← h.pred, ← h.queue]
  split at ha
  · simp only [Option.bind_eq_bind, Option.bind_eq_some_iff, Option.pure_def, Option.some.injEq, Prod.mk.injEq] at ha
    obtain ⟨cs, h1, rfl, rfl, rfl⟩ := ha
    exact ⟨d', by simp only [h1, Option.bind_eq_bind, Option.bind_some, Option.pure_def], h⟩
  · split at ha
    · rename_i he
      simp only [Option.bind_eq_bind, Option.bind_eq_some_iff, Option.pure_def, Option.some.injEq, Prod.mk.injEq] at ha
      obtain ⟨⟨q, c2⟩, h1, rfl, rfl, rfl⟩ := ha
      refine ⟨{ d' with queue := q }, ?_, ⟨h.pred, rfl, h.dflt, h.rep⟩⟩
      simp only [he, if_true, h1, Option.bind_eq_bind, Option.bind_some, Option.pure_def, h.pred]
    · rename_i he
      simp only [Option.some.injEq, Prod.mk.injEq] at ha
      obtain ⟨rfl, rfl, rfl⟩ := ha
      exact ⟨d', by simp [he], h⟩

theorem secondP_sim {d d' : DData β} {loc : Loc α β} (h : DSim d d') : secondP ops d' loc = secondP ops d loc := by
  unfold secondP
  rw [← h.pred]
  split <;> simp only [h.get]

theorem chainBodyP_sim {c : ChainStep β} {d d1 d' : DData β} {loc loc1 : Loc α β} {st st1 : σ} (h : DSim d d')
    (hb : chainBodyP sk G ops cl c d loc st = some (d1, loc1, st1)) : ∃ d1', chainBodyP sk G ops cl c d' loc st = some (d1', loc1, st1) ∧ DSim d1 d1' := by
  unfold chainBodyP at hb ⊢
  simp only [Option.bind_eq_bind, Option.bind_eq_some_iff] at hb
  obtain ⟨old, h1, dist, h2, hb⟩ := hb
  obtain ⟨dist', h3, h4⟩ := h.modify h2
  simp only [h.get, h1, h3, Option.bind_eq_bind, Option.bind_some, ← h.queue, ← h.pred]
  have hg : ∀ v, dist'.get v = dist.get v := fun v => (h4 d.pred d.queue).get v
  by_cases hlt : c.dist < old
  · simp only [hlt, if_true, Option.bind_eq_some_iff] at hb ⊢
    obtain ⟨label, g1, ⟨b, loc2, s1⟩, g2, pred, g3, ⟨d2, loc3, s2⟩, g4, loc4, g5, g6⟩ := hb
    simp only [Option.pure_def, Option.some.injEq, Prod.mk.injEq] at g6
    obtain ⟨rfl, rfl, rfl⟩ := g6
    obtain ⟨d2', k1, k2⟩ := advanceP_sim (h4 pred d.queue) g4
    exact ⟨d2', ⟨label, by rw [hg]; exact g1, _, g2, pred, g3, _, k1, loc4, by rw [secondP_sim k2]; exact g5, rfl⟩, k2⟩
  · simp only [hlt, if_false, Option.bind_eq_some_iff] at hb ⊢
    obtain ⟨loc4, g5, g6⟩ := hb
    simp only [Option.pure_def, Option.some.injEq, Prod.mk.injEq] at g6
    obtain ⟨rfl, rfl, rfl⟩ := g6
    have := h4 d.pred d.queue
    exact ⟨⟨dist', d.pred, d.queue⟩, ⟨loc4, by rw [secondP_sim this]; exact g5, rfl⟩, this⟩

theorem chainLoopP_sim : ∀ (fuel : Nat) {d d1 d' : DData β} {loc : Loc α β} {st st1 : σ}, DSim d d' →
    chainLoopP sk G ops cl fuel d loc st = some (d1, st1) → ∃ d1', chainLoopP sk G ops cl fuel d' loc st = some (d1', st1) ∧ DSim d1 d1' := by
  intro fuel
  induction fuel with
  | zero => intro d d1 d' loc st st1 _ h; exact (nomatch h)
  | succ fuel ih =>
    intro d d1 d' loc st st1 h hl
    rw [chainLoopP] at hl ⊢
    split at hl
    · simp only [Option.some.injEq, Prod.mk.injEq] at hl
      obtain ⟨rfl, rfl⟩ := hl
      exact ⟨d', rfl, h⟩
    · simp only [Option.bind_eq_bind, Option.bind_eq_some_iff] at hl
      obtain ⟨⟨d2, loc2, s2⟩, h1, h2⟩ := hl
      obtain ⟨d2', k1, k2⟩ := chainBodyP_sim h h1
      obtain ⟨d1', k3, k4⟩ := ih k2 h2
      exact ⟨d1', by simp only [k1, Option.bind_eq_bind, Option.bind_some, k3], k4⟩

theorem settleNextP_sim {fuel : Nat} {d d1 d' : DData β} {st st1 : σ} {o : Option Nat} (h : DSim d d')
    (hs : settleNextP fuel sk G ops cl d st = some (o, d1, st1)) : ∃ d1', settleNextP fuel sk G ops cl d' st = some (o, d1', st1) ∧ DSim d1 d1' := by
  unfold settleNextP at hs ⊢
  rw [← h.queue]
  simp only [Option.bind_eq_bind, Option.bind_eq_some_iff] at hs
  obtain ⟨⟨o1, q⟩, h1, hs⟩ := hs
  have hq : DSim { d with queue := q } { d' with queue := q } := ⟨h.pred, rfl, h.dflt, h.rep⟩
  simp only [h1, Option.bind_eq_bind, Option.bind_some]
  cases o1 with
  | none =>
    simp only [Option.pure_def, Option.some.injEq, Prod.mk.injEq] at hs
    obtain ⟨rfl, rfl, rfl⟩ := hs
    exact ⟨_, rfl, hq⟩
  | some x =>
    simp only [Option.bind_eq_some_iff, Option.pure_def, Option.some.injEq, Prod.mk.injEq] at hs
    obtain ⟨ls, h2, ⟨d2, s2⟩, h3, rfl, rfl, rfl⟩ := hs
    have key : ∀ (es : List α) (d0 d0' : DData β) (s0 : σ), DSim d0 d0' → es.foldlM (relaxEdgeP fuel sk G ops cl x.node) (d0, s0) = some (d2, s2) →
        ∃ d2', es.foldlM (relaxEdgeP fuel sk G ops cl x.node) (d0', s0) = some (d2', s2) ∧ DSim d2 d2' := by
      intro es
      induction es with
      | nil =>
        intro d0 d0' s0 k1 k3
        simp only [List.foldlM_nil, Option.pure_def, Option.some.injEq, Prod.mk.injEq] at k3
        obtain ⟨rfl, rfl⟩ := k3
        exact ⟨d0', rfl, k1⟩
      | cons e es ih =>
        intro d0 d0' s0 k1 k3
        simp only [List.foldlM_cons, Option.bind_eq_bind, Option.bind_eq_some_iff] at k3
        obtain ⟨⟨d3, s3⟩, k4, k5⟩ := k3
        simp only [relaxEdgeP, Option.bind_eq_bind, Option.bind_eq_some_iff] at k4
        obtain ⟨label, k6, c, k7, k8⟩ := k4
        obtain ⟨d3', k9, k10⟩ := chainLoopP_sim fuel k1 k8
        obtain ⟨d2', k11, k12⟩ := ih d3 d3' s3 k10 k5
        refine ⟨d2', ?_, k12⟩
        simp only [List.foldlM_cons, relaxEdgeP, k1.get, k6, ← k1.pred, k7, k9, Option.bind_eq_bind, Option.bind_some, k11]
    obtain ⟨d2', k1, k2⟩ := key ls _ _ _ hq h3
    exact ⟨d2', by simp only [h2, k1, Option.bind_some, Option.pure_def], k2⟩

theorem mayStop_sim {d d' : DData β} (h : DSim d d') (t tp cap : Nat) : mayStop d' t tp cap = mayStop d t tp cap := by
  unfold mayStop DData.peekKey
  simp only [← h.queue, h.get]

theorem searchLoopP_sim {P : Potential σ} {inner tgt tp cap : Nat} : ∀ (fuel : Nat) {d d1 d' : DData β} {st st1 : σ}, DSim d d' →
    searchLoopP inner sk G ops P tgt tp cap fuel d st = some (d1, st1) →
    ∃ d1', searchLoopP inner sk G ops P tgt tp cap fuel d' st = some (d1', st1) ∧ DSim d1 d1' := by
  intro fuel
  induction fuel with
  | zero => intro d d1 d' st st1 _ h; exact (nomatch h)
  | succ fuel ih =>
    intro d d1 d' st st1 h hl
    rw [searchLoopP] at hl ⊢
    simp only [Option.bind_eq_bind, Option.bind_eq_some_iff] at hl
    obtain ⟨⟨o, d2, s2⟩, h1, hl⟩ := hl
    obtain ⟨d2', k1, k2⟩ := settleNextP_sim h h1
    simp only [k1, Option.bind_eq_bind, Option.bind_some]
    cases o with
    | none =>
      simp only [Option.pure_def, Option.some.injEq, Prod.mk.injEq] at hl
      obtain ⟨rfl, rfl⟩ := hl
      exact ⟨d2', rfl, k2⟩
    | some x =>
      simp only [mayStop_sim k2]
      simp only [Option.bind_eq_some_iff] at hl
      obtain ⟨b, h2, hl⟩ := hl
      simp only [h2, Option.bind_some]
      cases b with
      | true =>
        simp only [if_true, Option.pure_def, Option.some.injEq, Prod.mk.injEq] at hl
        obtain ⟨rfl, rfl⟩ := hl
        exact ⟨d2', rfl, k2⟩
      | false =>
        simp only [Bool.false_eq_true, if_false] at hl ⊢
        exact ih k2 hl

theorem distanceManuallyP_sim {P : Potential σ} {inner tgt cap : Nat} {d d1 d' : DData β} {st st1 : σ} {r : Bool} (h : DSim d d')
    (hm : distanceManuallyP inner sk G ops P d st tgt cap = some (r, d1, st1)) :
    ∃ d1', distanceManuallyP inner sk G ops P d' st tgt cap = some (r, d1', st1) ∧ DSim d1 d1' := by
  unfold distanceManuallyP at hm ⊢
  simp only [Option.bind_eq_bind, Option.bind_eq_some_iff] at hm
  obtain ⟨⟨s1, tp⟩, h1, hm⟩ := hm
  simp only [h1, Option.bind_eq_bind, Option.bind_some]
  cases tp with
  | none =>
    simp only [Option.pure_def, Option.some.injEq, Prod.mk.injEq] at hm
    obtain ⟨rfl, rfl, rfl⟩ := hm
    exact ⟨d', rfl, h⟩
  | some tp =>
    simp only [Option.bind_eq_some_iff, Option.pure_def, Option.some.injEq, Prod.mk.injEq] at hm
    obtain ⟨⟨d2, s2⟩, h2, x, h3, rfl, rfl, rfl⟩ := hm
    obtain ⟨d2', k1, k2⟩ := searchLoopP_sim inner h h2
    exact ⟨d2', by simp only [k1, Option.bind_some, k2.get, h3, Option.pure_def], k2⟩

theorem compSearchP_sim {P : Potential σ} {inner node pot : Nat} : ∀ (fuel : Nat) {d d1 d' : DData β} {st st1 : σ}, DSim d d' →
    compSearchP inner sk G ops P node pot fuel d st = some (d1, st1) →
    ∃ d1', compSearchP inner sk G ops P node pot fuel d' st = some (d1', st1) ∧ DSim d1 d1' := by
  intro fuel
  induction fuel with
  | zero => intro d d1 d' st st1 _ h; exact (nomatch h)
  | succ fuel ih =>
    intro d d1 d' st st1 h hl
    rw [compSearchP] at hl ⊢
    simp only [Option.bind_eq_bind, Option.bind_eq_some_iff] at hl
    obtain ⟨⟨o, d2, s2⟩, h1, hl⟩ := hl
    obtain ⟨d2', k1, k2⟩ := settleNextP_sim h h1
    simp only [k1, Option.bind_eq_bind, Option.bind_some]
    cases o with
    | none =>
      simp only [Option.pure_def, Option.some.injEq, Prod.mk.injEq] at hl
      obtain ⟨rfl, rfl⟩ := hl
      exact ⟨d2', rfl, k2⟩
    | some x =>
      have hpk : d2'.peekKey = d2.peekKey := by unfold DData.peekKey; rw [← k2.queue]
      simp only [hpk] at hl ⊢
      cases hk : d2.peekKey with
      | none =>
        rw [hk] at hl
        simp only [Option.pure_def, Option.some.injEq, Prod.mk.injEq] at hl
        obtain ⟨rfl, rfl⟩ := hl
        exact ⟨d2', rfl, k2⟩
      | some k =>
        rw [hk] at hl
        simp only [Option.bind_eq_some_iff] at hl
        obtain ⟨y, h2, lim, h3, hl⟩ := hl
        simp only [k2.get, h2, h3, Option.bind_some]
        by_cases hlim : k ≥ lim
        · simp only [hlim, if_true, Option.pure_def, Option.some.injEq, Prod.mk.injEq] at hl
          obtain ⟨rfl, rfl⟩ := hl
          exact ⟨d2', by simp [hlim], k2⟩
        · simp only [hlim, if_false] at hl ⊢
          exact ih k2 hl

end

theorem init_sim {d d1 d' : DData β} {s x : Nat} (h : DSim d d') (hi : d.init s x = some d1) : ∃ d1', d'.init s x = some d1' ∧ DSim d1 d1' := by
  simp only [DData.init, Option.bind_eq_bind, Option.bind_eq_some_iff, Option.pure_def, Option.some.injEq] at hi ⊢
  obtain ⟨q, h1, q1, h2, dist, h3, p, h4, pred, h5, rfl⟩ := hi
  have hr : DSim ({ d with dist := d.dist.reset } : DData β) { d' with dist := d'.dist.reset } := by
    obtain ⟨l, e1, e2⟩ := h.rep
    have k1 := TSVec.rep_reset e1
    have k2 := TSVec.rep_reset e2
    rw [← h.dflt] at k2
    exact ⟨h.pred, h.queue, by simpa [TSVec.reset] using h.dflt, _, k1, k2⟩
  obtain ⟨dist', e1, e2⟩ := hr.modify (d := { d with dist := d.dist.reset }) h3
  exact ⟨_, ⟨q, by rw [← h.queue]; exact h1, q1, h2, dist', e1, p, by rw [← h.pred]; exact h4, pred, by rw [← h.pred]; exact h5, rfl⟩, e2 pred q1⟩

theorem continueQuery_sim {d d1 d' : DData β} {v : Nat} (h : DSim d d') (hi : continueQuery d v = some d1) :
    ∃ d1', continueQuery d' v = some d1' ∧ DSim d1 d1' := by
  simp only [continueQuery, Option.bind_eq_bind, Option.bind_eq_some_iff, Option.pure_def, Option.some.injEq] at hi ⊢
  obtain ⟨q, h1, x, h2, q1, h3, rfl⟩ := hi
  exact ⟨_, ⟨q, by rw [← h.queue]; exact h1, x, by rw [h.get]; exact h2, q1, h3, rfl⟩, ⟨h.pred, rfl, h.dflt, h.rep⟩⟩

theorem Server.distanceCoreP_sim {sv : Server} {sk : Skip} {ops : FOGraph → POps (Link × Nat) Unit} {P : Potential σ} {inner s t : Nat} {d d1 d' : DData Unit} {st st1 : σ}
    {r : Option Nat} (h : DSim d d') (hd : sv.distanceCoreP inner sk ops P d st s t = some (r, d1, st1)) :
    ∃ d1', sv.distanceCoreP inner sk ops P d' st s t = some (r, d1', st1) ∧ DSim d1 d1' := by
  unfold Server.distanceCoreP at hd ⊢
  simp only [Option.bind_eq_bind, Option.bind_eq_some_iff] at hd
  obtain ⟨s1, g1, b1, g2, b2, g3, ⟨s2, p2⟩, g4, ⟨s3, pot⟩, g5, hd⟩ := hd
  simp only [g1, g2, g3, g4, g5, Option.bind_eq_bind, Option.bind_some]
  cases pot with
  | none =>
    simp only [Option.pure_def, Option.some.injEq, Prod.mk.injEq] at hd
    obtain ⟨rfl, rfl, rfl⟩ := hd
    exact ⟨d', rfl, h⟩
  | some pot =>
    simp only [Option.bind_eq_some_iff] at hd
    obtain ⟨d2, e1, ⟨d3, s4⟩, e2, x, e3, hd⟩ := hd
    obtain ⟨d2', k1, k2⟩ := init_sim h e1
    obtain ⟨d3', k3, k4⟩ := compSearchP_sim inner k2 e2
    simp only [k1, k3, k4.get, e3, Option.bind_some]
    by_cases hx : x ≥ INFINITY
    · simp only [hx, if_true, Option.pure_def, Option.some.injEq, Prod.mk.injEq] at hd
      obtain ⟨rfl, rfl, rfl⟩ := hd
      exact ⟨d3', by simp [hx], k4⟩
    · simp only [hx, if_false, Option.bind_eq_some_iff, Option.pure_def, Option.some.injEq, Prod.mk.injEq] at hd
      obtain ⟨d4, e4, ⟨f, d5, s5⟩, e5, d6, e6, ⟨d7, s6⟩, e7, y, e8, e9, rfl, rfl⟩ := hd
      obtain ⟨d4', k5, k6⟩ := continueQuery_sim k4 e4
      obtain ⟨d5', k7, k8⟩ := distanceManuallyP_sim k6 e5
      obtain ⟨d6', k9, k10⟩ := continueQuery_sim k8 e6
      obtain ⟨d7', k11, k12⟩ := compSearchP_sim inner k10 e7
      refine ⟨d7', ?_, k12⟩
      simp only [hx, if_false, k5, k7, k9, k11, k12.get, e8, Option.bind_some, Option.pure_def, e9]

end Verif.Topo

namespace Verif.Traffic
open Spec UBS CCH

theorem illegal_again (pr : List (Nat × Unit)) (v : Nat) {p : List Nat} : ∀ {fs : List (List Nat)}, p ∈ fs →
    Detours.illegal pr v (fs ++ [p]) = Detours.illegal pr v fs := by
  have key : ∀ (fs : List (List Nat)), (Detours.illegal pr v fs = some false → Detours.follows pr p.reverse v = some false) →
      Detours.illegal pr v (fs ++ [p]) = Detours.illegal pr v fs := by
    intro fs
    induction fs with
    | nil =>
      intro h
      have := h rfl
      simp [Detours.illegal, this]
    | cons a fs ih =>
      intro h
      simp only [List.cons_append, Detours.illegal, Option.bind_eq_bind] at h ⊢
      cases ha : Detours.follows pr a.reverse v with
      | none => simp
      | some x =>
        cases x with
        | true => simp
        | false =>
          simp only [ha, Option.bind_some, Bool.false_eq_true, if_false] at h ⊢
          exact ih h
  have mem : ∀ (fs : List (List Nat)), p ∈ fs → Detours.illegal pr v fs = some false → Detours.follows pr p.reverse v = some false := by
    intro fs
    induction fs with
    | nil => intro h; simp at h
    | cons a fs ih =>
      intro hm h
      simp only [Detours.illegal, Option.bind_eq_bind] at h
      cases ha : Detours.follows pr a.reverse v with
      | none => simp [ha] at h
      | some x =>
        cases x with
        | true => simp [ha] at h
        | false =>
          simp only [ha, Option.bind_some, Bool.false_eq_true, if_false] at h
          rcases List.mem_cons.1 hm with rfl | hm
          · exact ha
          · exact ih hm h
  intro fs hm
  exact key fs (mem fs hm)

/-- Forbidding a path again has no effect. -/
theorem Detours.add_again {b b' : Detours} {path : List Nat} {last : Nat} {old : List (List Nat)} (hl : path.getLast? = some last) (ho : b.paths[last]? = some old)
    (hm : path.dropLast ∈ old) (h : b.add path = some b') : b'.ops = b.ops ∧ (∀ old', b'.paths[last]? = some old' → path.dropLast ∈ old') ∧ b'.paths.length = b.paths.length := by
  have hlt : last < b.paths.length := (List.getElem?_eq_some_iff.1 ho).1
  simp only [Detours.add, hl, ho, upd_of_lt _ hlt, Option.bind_eq_bind, Option.bind_some, Option.pure_def, Option.some.injEq] at h
  subst h
  refine ⟨?_, ?_, by simp⟩
  · funext g pr v
    simp only [Detours.ops]
    congr 1
    funext label e
    by_cases he : e.1.node = last
    · rw [he, List.getElem?_set_self hlt, ho]
      simp only [Option.bind_eq_bind, Option.bind_some, illegal_again pr v hm]
    · rw [List.getElem?_set_ne (by omega)]
  · intro old' h'
    simp only at h'
    rw [List.getElem?_set_self hlt] at h'
    injection h' with h'; subst h'
    simp [hm]

end Verif.Traffic
