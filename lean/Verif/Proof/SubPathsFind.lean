import Verif.Proof.SubPathsRound
set_option linter.unusedSimpArgs false
set_option linter.unusedVariables false
/- The rounds of `tree_find_minimal_nonshortest`. -/
namespace Verif.UBS
open Spec

section
variable {n : Nat} {A : Nat → Nat → Nat → Prop} {ranks : List (Option Nat)} {full dists : List Nat} {p D : Nat → Nat} {dd : Nat → Nat → Nat}
variable {σ τ κ : Type} {T : Oracle σ} {S : Oracle τ} {RT : σ → Prop} {OT : Nat → List Nat → σ → Prop} {GT : Nat → σ → Nat → Prop}
  {RS : τ → Prop} {OS : Nat → List Nat → τ → Prop} {GS : Nat → τ → Nat → Prop} {cb : κ → Rng → Nat → Nat → Option (κ × Bool)}

theorem checkBase_spec {σ : Type} {O : Oracle σ} {n : Nat} {A : Nat → Nat → Nat → Prop} {Ready : σ → Prop} {On : Nat → List Nat → σ → Prop}
    {Good : Nat → σ → Nat → Prop} (hO : OracleOK O n A Ready On Good) {root : Nat} {path : List Nat} {t : σ} (ht : On root path t) {v d : Nat}
    (hv : v ∈ path) (hd : IsDist A v root d) (dbg : Bool) : ∃ t', checkBase dbg O d v t = some t' ∧ On root path t' := by
  cases dbg with
  | false => exact ⟨t, rfl, ht⟩
  | true =>
    obtain ⟨t1, e1, e2, _⟩ := hO.dist ht hv hd
    exact ⟨t1, by simp [checkBase, e1, check], e2⟩

/-- what stays the same from round to round -/
structure FOK (n : Nat) (RT : σ → Prop) (RS : τ → Prop) (st : Find σ τ κ) : Prop where
  tgt : RT st.tgt
  src : RS st.src
  cache : st.cache = List.replicate n none

theorem round_spec (hT : OracleOK T n A RT OT GT) (hS : OracleOK S n (Rev A) RS OS GS) (h : Whole n A ranks full dists p D dd) (dbg : Bool)
    (hcb : ∀ i j, i < j → j < full.length → ∀ k, ∃ k' b, cb k ⟨i, j⟩ (D j - D i) (dd i j) = some (k', b)) {a c : Nat} (hc : a + c < full.length)
    {st : Find σ τ κ} (hst : FOK n RT RS st) :
    ∃ st' next, round dbg T S ranks full dists cb ((List.range' a (c + 1)).map p) (p a) (p (a + c)) st = some (st', next) ∧ FOK n RT RS st' ∧
      ((next = none ∧ st'.cb = st.cb ∧ dd a (a + c) = D (a + c) - D a) ∨
        ∃ s t l, next = some (s + 1, t) ∧ a ≤ s ∧ s < t ∧ t ≤ a + c ∧ Calls cb st.cb l st'.cb ∧ (∀ x ∈ l, Legit D dd a (a + c + 1) x) ∧
          Complete D dd a (a + c + 1) (fun i j => i ≤ s ∨ t ≤ j) l) := by
  obtain ⟨tgt, src, cache, k⟩ := st
  obtain ⟨hR1, hR2, hR3⟩ := hst
  simp only at hR1 hR2 hR3
  subst hR3
  have ra := h.rank a (by omega)
  have rb := h.rank (a + c) (by omega)
  have da := h.getD a (by omega)
  have db := h.getD (a + c) (by omega)
  have hend : ∀ i, a ≤ i → i ≤ a + c → (do let r ← rankOf ranks (p i); let x ← dists[r]?; minus (D (a + c)) x) = some (D (a + c) - D i) := by
    intro i h1 h2
    have := (h.mono (i := i) (j := a + c) h2 hc).1
    simp [h.rank i (by omega), h.getD i (by omega), minus, this]
  have hfrom : ∀ i, a ≤ i → i ≤ a + c → (do let r ← rankOf ranks (p i); let x ← dists[r]?; minus x (D a)) = some (D i - D a) := by
    intro i h1 h2
    have := (h.mono (i := a) (j := i) h1 (by omega)).1
    simp [h.rank i (by omega), h.getD i (by omega), minus, this]
  obtain ⟨q1, q2⟩ := h.request hc
  have w1 : windows ((List.range' a (c + 1)).map p) = (List.range' 0 c).map (fun i => (p (a + i), p (a + (i + 1)))) := by
    rw [windows_map]
    apply List.ext_getElem?
    intro i
    by_cases hi : i < c
    · simp [List.getElem?_range' hi, Nat.add_assoc]
    · rw [List.getElem?_eq_none (by simp; omega), List.getElem?_eq_none (by simp; omega)]
  obtain ⟨t1, e1, e2, e3, e4⟩ := side_spec (sub0 := a) hT (h.target hc (pd := fun node => do let r ← rankOf ranks node; let x ← dists[r]?; minus (D (a + c)) x) hend)
    q1 hR1 dbg
  rw [← w1] at e1
  simp only [Option.bind_eq_bind] at e1
  unfold round
  simp only [ra, rb, da, db, e1, Option.bind_eq_bind, Option.bind_some]
  rcases e4 with ⟨e4, e5⟩ | ⟨Kt, Jt, e4⟩
  · simp only [e5]
    refine ⟨_, none, rfl, ⟨hT.ready e2, hR2, e3⟩, .inl ⟨rfl, rfl, ?_⟩⟩
    simpa using e4.symm
  · have q2' : Request n (Rev A) ranks (p (a + c - c)) ((List.range' a (c + 1)).map p) := by rw [Nat.add_sub_cancel]; exact q2
    obtain ⟨s1, f1, f2, f3, f4⟩ := side_spec (sub0 := a + c) hS
      (h.source hc (pd := fun node => do let r ← rankOf ranks node; let x ← dists[r]?; minus x (D a)) hfrom) q2' hR2 dbg
    rw [← windows_rev] at f1
    simp only [Nat.add_sub_cancel, Option.bind_eq_bind] at f1 f2
    rw [e4.dev]
    simp only [e3, f1, Option.bind_some]
    have hne : ¬ (D (a + c - 0) - D a = dd a (a + c - 0)) := by
      have := e4.subopt 0 e4.pos
      simpa using this
    rcases f4 with ⟨f4, _⟩ | ⟨Ks, Js, f4⟩
    · exact absurd f4 hne
    · have hb := both_of h hc e4 f4
      rw [f4.dev]
      generalize hs' : a + c - Js = s at hb ⊢
      generalize ht' : a + Jt = t at hb ⊢
      generalize t1.sub = ts at hb ⊢
      generalize s1.sub = ss at hb ⊢
      have b1 := hb.lo_s; have b2 := hb.s_t; have b3 := hb.t_e; have b4 := hb.s_ssub; have b5 := hb.ssub_t; have b6 := hb.tsub_t; have b7 := hb.s_tsub
      have hDt := (h.mono (i := t) (j := a + c) b3 hc).1
      have hDs := (h.mono (i := a) (j := s) b1 (by omega)).1
      have m1 : minus (D (a + c)) (D t) = some (D (a + c) - D t) := by simp [minus, hDt]
      have m2 : minus (D s) (D a) = some (D s - D a) := by simp [minus, hDs]
      simp only [Option.bind_some, h.get t (by omega), h.get s (by omega), h.getD t (by omega), h.getD s (by omega), m1, m2]
      have dt : IsDist A (p t) (p (a + c)) (D (a + c) - D t) := by
        have := h.dist t (a + c) b3 hc
        rw [hb.tgtOpt t b6 b3] at this; exact this
      have ds : IsDist (Rev A) (p s) (p a) (D s - D a) := by
        have := h.dist a s b1 (by omega)
        rw [hb.srcOpt s b1 b4] at this; exact isDist_rev.2 this
      obtain ⟨t2, g1, g2⟩ := checkBase_spec hT e2 (v := p t) (mem_range_map.2 ⟨t, by omega, by omega, rfl⟩) dt dbg
      obtain ⟨s2, g3, g4⟩ := checkBase_spec hS f2 (v := p s) (mem_range_map.2 ⟨s, by omega, by omega, rfl⟩) ds dbg
      simp only [g1, g3, Option.bind_some, slice_eq h.get (a := ss) (b := t + 1) (by omega) (by omega),
        slice_eq h.get (a := s) (b := ts + 1) (by omega) (by omega), ← List.map_reverse]
      obtain ⟨s3, k1, l1, i1, i2, i3, i4, i5⟩ := tryNodes_spec (p := p) hS (cb := cb) (root := p a) (path := (List.range' a (c + 1)).map p)
        (rng := fun node => (rankOf ranks node).map (fun r => (⟨s, r⟩ : Rng)))
        (pd := fun node => do let r ← rankOf ranks node; let x ← dists[r]?; minus x (D a)) (base := D s - D a)
        (R := fun i => ⟨s, i⟩) (X := fun i => D i - D s) (Y := fun i => dd s i) (rel := (· < ·))
        (List.range' ss (t + 1 - ss)) List.pairwise_lt_range'
        (by
          intro i hi
          rw [List.mem_range'_1] at hi
          refine ⟨mem_range_map.2 ⟨i, by omega, by omega, rfl⟩, ?_, ?_, ?_⟩
          · have := (h.mono (i := s) (j := i) (by omega) (by omega)).1
            rw [hfrom i (by omega) (by omega)]; congr 1; omega
          · have := h.dist a i (by omega) (by omega)
            rw [hb.src i (by omega) (by omega)] at this
            exact isDist_rev.2 this
          · simp [h.rank i (by omega)])
        (by intro i hi k; rw [List.mem_range'_1] at hi; exact hcb s i (by omega) (by omega) k) s2 k g4
      simp only [Option.bind_eq_bind] at i1
      simp only [i1, Option.bind_some]
      obtain ⟨t3, k2, l2, j1, j2, j3, j4, j5⟩ := tryNodes_spec (p := p) hT (cb := cb) (root := p (a + c)) (path := (List.range' a (c + 1)).map p)
        (rng := fun node => (rankOf ranks node).map (fun r => (⟨r, t⟩ : Rng)))
        (pd := fun node => do let r ← rankOf ranks node; let x ← dists[r]?; minus (D (a + c)) x) (base := D (a + c) - D t)
        (R := fun i => ⟨i, t⟩) (X := fun i => D t - D i) (Y := fun i => dd i t) (rel := (· > ·))
        (List.range' s (ts + 1 - s)).reverse (by rw [List.pairwise_reverse]; exact List.pairwise_lt_range')
        (by
          intro i hi
          rw [List.mem_reverse, List.mem_range'_1] at hi
          refine ⟨mem_range_map.2 ⟨i, by omega, by omega, rfl⟩, ?_, ?_, ?_⟩
          · have := (h.mono (i := i) (j := t) (by omega) (by omega)).1
            rw [hend i (by omega) (by omega)]; congr 1; omega
          · have := h.dist i (a + c) (by omega) (by omega)
            rw [hb.tgt i (by omega) (by omega)] at this
            exact this
          · simp [h.rank i (by omega)])
        (by intro i hi k; rw [List.mem_reverse, List.mem_range'_1] at hi; exact hcb i t (by omega) (by omega) k) t2 k1 g2
      simp only [Option.bind_eq_bind] at j1
      simp only [j1, Option.bind_some]
      refine ⟨_, _, rfl, ⟨hT.ready j2, hS.ready i2, f3⟩, .inr ⟨s, t, l1 ++ l2, rfl, b1, b2, b3, i3.append j3, ?_, ?_⟩⟩
      · intro x hx
        rw [List.mem_append] at hx
        rcases hx with hx | hx
        · obtain ⟨i, hi, x1, x2, x3⟩ := i4 x hx
          rw [List.mem_range'_1] at hi
          unfold Legit
          rw [x1, x2, x3]
          exact ⟨b1, by show s < i; omega, by show i < a + c + 1; omega, rfl, rfl⟩
        · obtain ⟨i, hi, x1, x2, x3⟩ := j4 x hx
          rw [List.mem_reverse, List.mem_range'_1] at hi
          unfold Legit
          rw [x1, x2, x3]
          exact ⟨by show a ≤ i; omega, by show i < t; omega, by show t < a + c + 1; omega, rfl, rfl⟩
      · apply hb.complete h (by omega)
        · intro j h1 h2
          rcases i5 j (by rw [List.mem_range'_1]; omega) with ⟨b, hm⟩ | ⟨j', hj', hlt, hm⟩
          · exact .inl ⟨b, by rw [List.mem_append]; exact .inl hm⟩
          · exact .inr ⟨j', hlt, by rw [List.mem_append]; exact .inl hm⟩
        · intro i h1 h2
          rcases j5 i (by rw [List.mem_reverse, List.mem_range'_1]; omega) with ⟨b, hm⟩ | ⟨j', hj', hlt, hm⟩
          · exact .inl ⟨b, by rw [List.mem_append]; exact .inr hm⟩
          · exact .inr ⟨j', hlt, by rw [List.mem_append]; exact .inr hm⟩

theorem treeFind_spec (hT : OracleOK T n A RT OT GT) (hS : OracleOK S n (Rev A) RS OS GS) (h : Whole n A ranks full dists p D dd) (dbg : Bool)
    (hcb : ∀ i j, i < j → j < full.length → ∀ k, ∃ k' b, cb k ⟨i, j⟩ (D j - D i) (dd i j) = some (k', b)) :
    ∀ (fuel lo hi : Nat), lo ≤ hi → hi ≤ full.length → hi - lo < fuel → ∀ st : Find σ τ κ, FOK n RT RS st →
      ∃ st' l, treeFind dbg T S ranks full dists cb fuel lo hi st = some st' ∧ FOK n RT RS st' ∧ Calls cb st.cb l st'.cb ∧
        (∀ x ∈ l, Legit D dd lo hi x) ∧ Complete D dd lo hi (fun _ _ => True) l := by
  intro fuel
  induction fuel with
  | zero => intro lo hi _ _ hf; omega
  | succ fuel ih =>
    intro lo hi hlh hhl hf st hst
    unfold treeFind
    rw [slice_eq h.get hlh hhl]
    simp only [Option.bind_eq_bind, Option.bind_some]
    by_cases hlt : lo < hi
    · obtain ⟨c, rfl⟩ : ∃ c, hi = lo + c + 1 := ⟨hi - lo - 1, by omega⟩
      have e0 : lo + c + 1 - lo = c + 1 := by omega
      rw [e0]
      have hh : ((List.range' lo (c + 1)).map p).head? = some (p lo) := by simp [List.head?_range']
      have hl : ((List.range' lo (c + 1)).map p).getLast? = some (p (lo + c)) := by simp [List.getLast?_range']
      rw [hh, hl]
      simp only
      obtain ⟨st1, next, e1, e2, e3⟩ := round_spec hT hS h dbg hcb (a := lo) (c := c) (by omega) hst
      simp only [e1, Option.bind_some]
      rcases e3 with ⟨e3, e4, e5⟩ | ⟨s, t, l, e3, e4, e5, e6, e7, e8, e9⟩
      · subst e3
        refine ⟨st1, [], rfl, e2, by rw [e4]; exact .nil _, by simp, ?_⟩
        intro V hV _ i j hi hij hj _ hv
        obtain ⟨hlt', _⟩ := hV _ _ hv
        exfalso
        have a1 := h.tri (i := lo) (j := i) (k := lo + c) hi (by omega) (by omega)
        have a2 := h.tri (i := i) (j := j) (k := lo + c) (by omega) (by omega) (by omega)
        have a3 := h.le (i := lo) (j := i) hi (by omega)
        have a4 := h.le (i := j) (j := lo + c) (by omega) (by omega)
        have a5 := (h.mono (i := lo) (j := i) hi (by omega)).1
        have a6 := (h.mono (i := j) (j := lo + c) (by omega) (by omega)).1
        have a7 := (h.mono (i := i) (j := j) (by omega) (by omega)).1
        omega
      · subst e3
        simp only
        obtain ⟨st2, l2, f1, f2, f3, f4, f5⟩ := ih (s + 1) t (by omega) (by omega) (by omega) st1 e2
        refine ⟨st2, l ++ l2, f1, f2, e7.append f3, ?_, ?_⟩
        · intro x hx
          rw [List.mem_append] at hx
          rcases hx with hx | hx
          · exact e8 x hx
          · obtain ⟨g1, g2, g3, g4, g5⟩ := f4 x hx
            exact ⟨by omega, g2, by omega, g4, g5⟩
        · intro V hV htrue i j hi hij hj _ hv
          by_cases hq : i ≤ s ∨ t ≤ j
          · obtain ⟨c, c1, c2⟩ := e9 V hV (fun c hc => htrue c (by simp [hc])) i j hi hij hj hq hv
            exact ⟨c, by simp [c1], c2⟩
          · obtain ⟨c, c1, c2⟩ := f5 V hV (fun c hc => htrue c (by simp [hc])) i j (by omega) hij (by omega) trivial hv
            exact ⟨c, by simp [c1], c2⟩
    · have e0 : hi - lo = 0 := by omega
      rw [e0]
      refine ⟨st, [], rfl, hst, .nil _, by simp, ?_⟩
      intro V hV _ i j hi hij hj
      omega

end
end Verif.UBS
