import Verif.Proof.TrafficAwarePaths
import Verif.Proof.ForbiddenStep
import Verif.Model.TrafficAware
set_option linter.unusedSimpArgs false
set_option linter.unusedVariables false
/- Forbidding the violating parts of a path. -/
namespace Verif.Traffic
open Spec UBS CCH

variable {A : Nat → Nat → Nat → Prop}

theorem loop_shift {X m Y : List Nat} {r : Rng} (h : Loop m r) :
    Loop (X ++ m ++ Y) ⟨X.length + r.start, X.length + r.stop⟩ ∧ subPath (X ++ m ++ Y) ⟨X.length + r.start, X.length + r.stop⟩ = subPath m r := by
  obtain ⟨h1, v, h2, h3, h4⟩ := h
  have hl := (List.getElem?_eq_some_iff.1 h3).1
  have hg : ∀ i, i < m.length → (X ++ m ++ Y)[X.length + i]? = m[i]? := by
    intro i hi
    rw [List.append_assoc, List.getElem?_append_right (by omega), List.getElem?_append_left (by omega)]
    congr 1
    omega
  refine ⟨⟨by simp only; omega, v, by rw [hg _ (by omega)]; exact h2, by rw [hg _ hl]; exact h3, ?_⟩, ?_⟩
  · intro i hi1 hi2 he
    simp only at hi1 hi2
    obtain ⟨k, rfl⟩ : ∃ k, i = X.length + k := ⟨i - X.length, by omega⟩
    rw [hg _ (by omega)] at he
    exact h4 k (by omega) (by omega) he
  · unfold subPath
    simp only
    rw [List.append_assoc, ← List.drop_drop, List.drop_left, List.drop_append_of_le_length (by omega), List.take_append_of_le_length (by simp; omega)]
    congr 1
    omega

theorem split_at {p : List Nat} {r : Rng} (h1 : r.start < r.stop) (h2 : r.stop < p.length) : ∃ X Y, p = X ++ subPath p r ++ Y ∧ X.length = r.start := by
  refine ⟨p.take r.start, (p.drop r.start).drop (r.stop - r.start + 1), ?_, by simp; omega⟩
  unfold subPath
  rw [List.append_assoc, List.take_append_drop, List.take_append_drop]

theorem slice_subPath {p : List Nat} {r : Rng} (h1 : r.start < r.stop) (h2 : r.stop < p.length) : slice p r.start (r.stop + 1) = some (subPath p r) := by
  unfold slice subPath
  rw [if_pos ⟨by omega, by omega⟩, show r.stop + 1 - r.start = r.stop - r.start + 1 from by omega]

theorem linked_infix {g : FOGraph} {p f : List Nat} (h : Linked g p) (hf : f <:+: p) : Linked g f := by
  obtain ⟨X, Y, rfl⟩ := hf
  intro i u v hu hv
  have h1 := (List.getElem?_eq_some_iff.1 hu).1
  have h2 := (List.getElem?_eq_some_iff.1 hv).1
  refine h (X.length + i) u v ?_ ?_
  · rw [List.append_assoc, List.getElem?_append_right (by omega), List.getElem?_append_left (by omega), show X.length + i - X.length = i from by omega]
    exact hu
  · rw [List.append_assoc, List.getElem?_append_right (by omega), List.getElem?_append_left (by omega), show X.length + i + 1 - X.length = i + 1 from by omega]
    exact hv

theorem hist_new (b : Blocked) (loc : Nat → Nat → Nat) (q : List Nat) (v c : Nat) : Hist b loc q v (Active.new c) := fun i hi => absurd hi (Active.has_new _ _)

/-- what is known while the violating parts are forbidden, `seen` being the ones that have been dealt with -/
structure FInv (g : FOGraph) (dbg : Bool) (p : List Nat) (b0 b : Blocked) (seen : List Rng) : Prop where
  ok : ∃ loc, BOK g b loc
  old : ∀ f ∈ b0.nodes, f ∈ b.nodes
  new : ∀ f ∈ b.nodes, f ∈ b0.nodes ∨ ∃ r ∈ seen, f = subPath p r
  cov : ∀ r ∈ seen, ∃ f ∈ b.nodes, f <:+: subPath p r
  simple : dbg = true → ∀ f ∈ b.nodes, f.tail.Nodup

theorem FInv.add {g : FOGraph} {dbg : Bool} {p : List Nat} {b0 b b' : Blocked} {seen : List Rng} (h : FInv g dbg p b0 b seen) {r : Rng}
    (hok : ∃ loc, BOK g b' loc) (hn : b'.nodes = b.nodes ++ [subPath p r]) (hs : dbg = true → (subPath p r).tail.Nodup) : FInv g dbg p b0 b' (seen ++ [r]) where
  ok := hok
  old := fun f hf => by rw [hn]; simp [h.old f hf]
  new := fun f hf => by
    rw [hn] at hf
    rcases List.mem_append.1 hf with hf | hf
    · rcases h.new f hf with h1 | ⟨r', h1, h2⟩
      · exact .inl h1
      · exact .inr ⟨r', by simp [h1], h2⟩
    · exact .inr ⟨r, by simp, List.mem_singleton.1 hf⟩
  cov := fun r' hr' => by
    rcases List.mem_append.1 hr' with hr' | hr'
    · obtain ⟨f, h1, h2⟩ := h.cov r' hr'
      exact ⟨f, by rw [hn]; simp [h1], h2⟩
    · rw [List.mem_singleton.1 hr']
      exact ⟨_, by rw [hn]; simp, List.infix_refl _⟩
  simple := fun hd f hf => by
    rw [hn] at hf
    rcases List.mem_append.1 hf with hf | hf
    · exact h.simple hd f hf
    · rw [List.mem_singleton.1 hf]; exact hs hd

theorem FInv.skip {g : FOGraph} {dbg : Bool} {p : List Nat} {b0 b : Blocked} {seen : List Rng} (h : FInv g dbg p b0 b seen) {r : Rng}
    (hc : ∃ f ∈ b.nodes, f <:+: subPath p r) : FInv g dbg p b0 b (seen ++ [r]) where
  ok := h.ok
  old := h.old
  new := fun f hf => by
    rcases h.new f hf with h1 | ⟨r', h1, h2⟩
    · exact .inl h1
    · exact .inr ⟨r', by simp [h1], h2⟩
  cov := fun r' hr' => by
    rcases List.mem_append.1 hr' with hr' | hr'
    · exact h.cov r' hr'
    · rw [List.mem_singleton.1 hr']; exact hc
  simple := h.simple

/-- Positions of a node in a closed path. -/
theorem closed_end {w v u : Nat} {m X Y f : List Nat} (hm : w ∉ m) (he : w :: (m ++ [w]) = u :: (X ++ v :: Y)) (hv : v = w) : Y = [] := by
  subst hv
  simp only [List.cons.injEq] at he
  obtain ⟨-, he⟩ := he
  rcases List.append_eq_append_iff.1 he with ⟨c, h1, h2⟩ | ⟨c, h1, h2⟩
  · cases c with
    | nil => simpa using h2.symm
    | cons x c =>
      have := congrArg List.length h2
      simp at this
  · cases c with
    | nil => simpa using h2
    | cons x c =>
      simp only [List.cons_append, List.cons.injEq] at h2
      exact absurd (show v ∈ m by rw [h1]; simp [h2.1]) hm

theorem closed_suffix {w : Nat} {m f : List Nat} (hm : w ∉ m) (hf : f <:+ w :: (m ++ [w])) (h2 : 2 ≤ f.length) (hh : f.head? = some w) : f = w :: (m ++ [w]) := by
  obtain ⟨X, hX⟩ := hf
  cases X with
  | nil => simpa using hX
  | cons x X =>
    exfalso
    cases f with
    | nil => simp at h2
    | cons y f =>
      simp at hh
      subst hh
      simp only [List.cons_append, List.cons.injEq] at hX
      have := closed_end (u := y) (X := X) (Y := f) (v := y) (f := []) hm (by rw [hX.2]) rfl
      subst this
      simp at h2

theorem forbid_step {g : FOGraph} (hg : g.WF) {dbg : Bool} {thr : Nat → Nat} {p : List Nat} (hl : Linked g p) (hn : ∀ v ∈ p, v < g.numNodes) {out : List Rng}
    (hans : UbsAnswer A thr p out) {b0 : Blocked} (hno : ∀ f ∈ b0.nodes, ¬ f <:+: p)
    (hrep : dbg = true → ∀ r r', Loop p r → Loop p r' → r'.stop < r.stop → subPath p r' ≠ subPath p r) {seen rs : List Rng} {r : Rng}
    (hout : seen ++ r :: rs = out) {b : Blocked} (hb : FInv g dbg p b0 b seen) :
    ∃ b', b.add dbg g (subPath p r) = some b' ∧ FInv g dbg p b0 b' (seen ++ [r]) := by
  have hr : r ∈ out := by rw [← hout]; simp
  obtain ⟨v1, v2, v3, v4⟩ := violation hans hr
  have hpart : ∀ v ∈ subPath p r, v < g.numNodes := fun v hv => hn v ((subPath_infix p r).subset hv)
  obtain ⟨loc, hbok⟩ := hb.ok
  have h2 := subPath_two v1 v2
  cases dbg with
  | false =>
    obtain ⟨b', loc', h3, h4, h5⟩ := add_spec hg hbok h2 hpart false (fun h => (nomatch h))
    exact ⟨b', h3, hb.add ⟨loc', h4⟩ h5 (fun h => (nomatch h))⟩
  | true =>
    have hsimple := hb.simple rfl
    obtain ⟨u, rest, hu⟩ : ∃ u rest, subPath p r = u :: rest := by
      cases h : subPath p r with
      | nil => rw [h] at h2; simp at h2
      | cons u l => exact ⟨u, l, rfl⟩
    have hlp := linked_infix hl (subPath_infix p r)
    have hun : u < g.numNodes := hpart u (by rw [hu]; simp)
    obtain ⟨c, hc⟩ : ∃ c, b.counter[u]? = some c := ⟨_, List.getElem?_eq_getElem (by rw [hbok.cl]; exact hun)⟩
    obtain ⟨last, hlast⟩ : ∃ last, (subPath p r).getLast? = some last := ⟨_, List.getLast?_eq_some_getLast (by rw [hu]; simp)⟩
    have hsh : Shape b u (Active.new c) := ⟨c, hc, Active.Same.refl _⟩
    rcases testPath_spec hg hbok hsimple last rest [u] u (Active.new c) rfl (by rw [← hu]; exact hlp) hsh (hist_new _ _ _ _ _) with ⟨⟨x, k1⟩, k2⟩ | ⟨v, X, Y, f, k1, k2, k3, k4⟩
    · rw [← hu] at k1 k2
      obtain ⟨b', loc', h3, h4, h5⟩ := add_spec hg hbok h2 hpart true (fun _ => ⟨c, last, u, by rw [hu]; rfl, hlast, hc, k2⟩)
      refine ⟨b', h3, hb.add ⟨loc', h4⟩ h5 (fun _ => ?_)⟩
      have hinf := track_infix hg hbok (subPath p r) (Active.new c) x hlp (fun y hy => by rw [hu] at hy; simp at hy; subst hy; exact hsh) k1
      by_cases hnd : p.Nodup
      · exact (hnd.sublist (subPath_infix p r).sublist).sublist (List.tail_sublist _)
      · have hpw := (hans.2 hnd).2
        have hloop := ((hans.2 hnd).1 r).1 hr
        obtain ⟨w, m, e1, e2⟩ := loop_closed hloop
        rw [e1]
        have hm : m.Nodup := by
          by_contra hm
          obtain ⟨r0, hr0⟩ := exists_loop hm
          obtain ⟨P, Q, e3, e4⟩ := split_at v1 v2
          have e5 : p = (P ++ [w]) ++ m ++ ([w] ++ Q) := by rw [e3, e1]; simp
          obtain ⟨l1, l2⟩ := loop_shift (X := P ++ [w]) (Y := [w] ++ Q) hr0
          rw [← e5] at l1 l2
          have hmem := ((hans.2 hnd).1 _).2 l1
          have hstop : (P ++ [w]).length + r0.stop < r.stop := by
            obtain ⟨_, _, _, h7, _⟩ := hr0
            have h8 := (List.getElem?_eq_some_iff.1 h7).1
            have h9 := congrArg List.length e1
            simp only [subPath, List.length_take, List.length_drop, List.length_cons, List.length_append, List.length_nil] at h9 ⊢
            omega
          rw [← hout] at hmem hpw
          rcases List.mem_append.1 hmem with h7 | h7
          · obtain ⟨f, h8, h9⟩ := hb.cov _ h7
            rw [l2] at h9
            refine hinf f h8 (h9.trans ((subPath_infix m r0).trans ?_))
            rw [e1]
            exact ⟨[w], [w], by simp⟩
          · rcases List.mem_cons.1 h7 with h7 | h7
            · rw [← h7] at hstop; simp at hstop
            · have := (List.pairwise_append.1 hpw).2.1
              have := (List.pairwise_cons.1 this).1 _ h7
              simp only at this
              omega
        simp only [List.tail_cons]
        rw [List.nodup_append]
        exact ⟨hm, by simp, fun a ha b hb he => e2 (by rw [← List.mem_singleton.1 hb, ← he]; exact ha)⟩
    · have hfin : f <:+: subPath p r := by
        rw [hu, k1]
        obtain ⟨Z, hZ⟩ := k3
        exact ⟨Z, Y, by rw [hZ]; simp⟩
      obtain ⟨r', hr', hf⟩ : ∃ r' ∈ seen, f = subPath p r' := by
        rcases hb.new f k2 with h | h
        · exact absurd (hfin.trans (subPath_infix p r)) (hno f h)
        · exact h
      have hr'o : r' ∈ out := by rw [← hout]; simp [hr']
      obtain ⟨w1, w2, w3, w4⟩ := violation hans hr'o
      by_cases hnd : p.Nodup
      · exfalso
        have hpw := (hans.1 hnd).2
        rw [← hout] at hpw
        have hlt := ((List.pairwise_append.1 hpw).2.2 r' hr' r (by simp)).1
        -- the first node of `f`
        have hfirst : p[r'.start]? = some p[r'.start] := List.getElem?_eq_getElem (by omega)
        have hmem : p[r'.start] ∈ subPath p r := by
          refine hfin.subset ?_
          rw [hf, subPath_cons hfirst]
          simp
        obtain ⟨i, hi⟩ := List.mem_iff_getElem?.1 hmem
        unfold subPath at hi
        have hi' := (List.getElem?_eq_some_iff.1 hi).1
        rw [List.length_take] at hi'
        rw [List.getElem?_take_of_lt (by omega), List.getElem?_drop] at hi
        have := nodup_get hnd hfirst hi
        omega
      · have hpw := (hans.2 hnd).2
        rw [← hout] at hpw
        have hlt := (List.pairwise_append.1 hpw).2.2 r' hr' r (by simp)
        have hloop := ((hans.2 hnd).1 r).1 hr
        have hloop' := ((hans.2 hnd).1 r').1 hr'o
        obtain ⟨w, m, e1, e2⟩ := loop_closed hloop
        obtain ⟨w', m', e3, e4⟩ := loop_closed hloop'
        have hlw : last = w := by
          rw [e1, ← List.cons_append, List.getLast?_append_of_ne_nil _ (by simp)] at hlast
          simpa using hlast.symm
        subst hlw
        by_cases hv : v = last
        · exfalso
          have hY : Y = [] := closed_end (f := []) e2 (by rw [← e1, hu, k1]) hv
          subst hY
          have h5 : f <:+ subPath p r := by rw [hu, k1]; simpa using k3
          have h6 : w' = last := by
            have h7 : f.getLast? = some w' := by rw [hf, e3, ← List.cons_append, List.getLast?_append_of_ne_nil _ (by simp)]; rfl
            obtain ⟨Z, hZ⟩ := h5
            rw [← hZ, List.getLast?_append_of_ne_nil _ (by intro h; rw [h] at h7; simp at h7), h7] at hlast
            simpa using hlast
          subst h6
          have h8 := closed_suffix e2 (by rw [← e1]; exact h5) (by rw [hf, e3]; simp) (by rw [hf, e3]; rfl)
          exact hrep rfl r r' hloop hloop' hlt (by rw [e1, ← h8, hf])
        · rw [if_neg hv, ← hu] at k4
          refine ⟨b, ?_, hb.skip ⟨f, k2, hfin⟩⟩
          unfold Blocked.add
          simp only [show (subPath p r)[0]? = some u by rw [hu]; rfl, hlast, hc, k4, Option.bind_eq_bind, Option.bind_some, if_true]
          rfl

theorem forbid_spec {g : FOGraph} (hg : g.WF) {dbg : Bool} {thr : Nat → Nat} {p : List Nat} (hl : Linked g p) (hn : ∀ v ∈ p, v < g.numNodes) {out : List Rng}
    (hans : UbsAnswer A thr p out) {b0 : Blocked} (hno : ∀ f ∈ b0.nodes, ¬ f <:+: p)
    (hrep : dbg = true → ∀ r r', Loop p r → Loop p r' → r'.stop < r.stop → subPath p r' ≠ subPath p r) (rs : List Rng) : ∀ (seen : List Rng) (b : Blocked),
    seen ++ rs = out → FInv g dbg p b0 b seen → ∃ b', forbid dbg g p rs b = some b' ∧ FInv g dbg p b0 b' out := by
  induction rs with
  | nil => intro seen b h hb; exact ⟨b, rfl, by simpa [← h] using hb⟩
  | cons r rs ih =>
    intro seen b hout hb
    obtain ⟨v1, v2, -, -⟩ := violation hans (r := r) (by rw [← hout]; simp)
    obtain ⟨b1, h1, h2⟩ := forbid_step hg hl hn hans hno hrep hout hb
    obtain ⟨b2, h3, h4⟩ := ih (seen ++ [r]) b1 (by simpa using hout) h2
    refine ⟨b2, ?_, h4⟩
    rw [forbid]
    simp only [slice_subPath v1 v2, h1, h3, Option.bind_eq_bind, Option.bind_some]

end Verif.Traffic
