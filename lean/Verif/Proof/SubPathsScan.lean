import Verif.Proof.SubPaths
set_option linter.unusedSimpArgs false
set_option linter.unusedVariables false
/- One tree of `tree_find_minimal_nonshortest`. -/
namespace Verif.UBS
open Spec

section
variable {σ : Type} {O : Oracle σ} {n : Nat} {A : Nat → Nat → Nat → Prop} {Ready : σ → Prop} {On : Nat → List Nat → σ → Prop}
  {Good : Nat → σ → Nat → Prop}

theorem PP.keep (hO : OracleOK O n A Ready On Good) {root : Nat} {path : List Nat} {on : Nat → Prop} (hr : on root) {t t' : σ} (ht : On root path t)
    (hk : Keeps O Good root t t') {v pp : Nat} (h : PP (O.parent t) on v pp) : Good root t v → v ≠ root → PP (O.parent t') on v pp := by
  induction h with
  | here h1 h2 => intro hv hvr; exact .here (by rw [(hk _ hv).2 hvr]; exact h1) h2
  | up h1 h2 h3 ih =>
    intro hv hvr
    exact .up (by rw [(hk _ hv).2 hvr]; exact h1) h2 (ih (hO.anc ht hv hvr h1) (fun h => h2 (h ▸ hr)))

theorem Chain.keep {root : Nat} {on : Nat → Prop} {t t' : σ} {cache : List (Option Nat)}
    (hk : Keeps O Good root t t') (hc : Entries O n Good root on t cache) {y v : Nat} (h : Chain (O.parent t) cache y v) : Chain (O.parent t') cache y v := by
  induction h with
  | refl h => exact .refl h
  | cons h1 h2 _ ih =>
    obtain ⟨q, hq⟩ := h1
    obtain ⟨e1, e2, _⟩ := hc.entry _ _ hq
    exact .cons ⟨q, hq⟩ (by rw [(hk _ e1).2 e2]; exact h2) ih

theorem Entries.keep (hO : OracleOK O n A Ready On Good) {root : Nat} {path : List Nat} {on : Nat → Prop} (hr : on root) {t t' : σ} (ht : On root path t)
    (hk : Keeps O Good root t t') {cache : List (Option Nat)} (hc : Entries O n Good root on t cache) : Entries O n Good root on t' cache := by
  refine ⟨hc.len, fun v pp h => ?_⟩
  obtain ⟨e1, e2, e3⟩ := hc.entry _ _ h
  exact ⟨(hk _ e1).1, e2, e3.keep hO hr ht hk e1 e2⟩

/-- the setting of one loop over the path, towards the root -/
structure Setting (n : Nat) (A : Nat → Nat → Nat → Prop) (ranks : List (Option Nat)) (path : List Nat) (a b : Nat) (pd : Nat → Option Nat)
    (comb : Nat → Nat → Nat) (x P r δ : Nat → Nat) (m : Nat) : Prop where
  line : Line A x P m
  isDist : ∀ i, i ≤ m → IsDist A (x i) (x m) (δ i)
  mem : ∀ v, v ∈ path ↔ ∃ i, i ≤ m ∧ v = x i
  pathDist : ∀ i, i ≤ m → pd (x i) = some (P i)
  rank : ∀ i, i ≤ m → rankOf ranks (x i) = some (r i)
  combine : ∀ i j, i ≤ m → j ≤ m → comb (r i) (r j) = r (max i j)
  on : ∀ v, v < n → onPath ranks a b v = some (decide (v ∈ path))

/-- node `x j` leaves the line in the tree -/
def Leaves (par : Nat → Option Nat) (x : Nat → Nat) (j : Nat) : Prop := par (x j) ≠ some (x (j + 1))

/-- state of the loop before index `i` -/
structure SInv (O : Oracle σ) (n : Nat) (On : Nat → List Nat → σ → Prop) (Good : Nat → σ → Nat → Prop) (path : List Nat) (x P r δ : Nat → Nat) (m sub0 : Nat)
    (i : Nat) (st : Scan σ) : Prop where
  on : On (x m) path st.tree
  entries : Entries O n Good (x m) (· ∈ path) st.tree st.cache
  linked : ∀ u, Cached st.cache u → ∃ y ∈ path, Chain (O.parent st.tree) st.cache y u
  sub : ∀ j, j < i → P j ≠ δ j
  good : ∀ j, j < i → Good (x m) st.tree (x j)
  dev : (st.dev = none ∧ ∀ j, j < i → ¬ Leaves (O.parent st.tree) x j) ∨ ∃ J, J ≤ m ∧ st.dev = some (r J) ∧ 0 < i ∧
    ∀ j j', j < i → Leaves (O.parent st.tree) x j → j' ≤ m → PP (O.parent st.tree) (· ∈ path) (x j) (x j') → j' ≤ J
  subVal : st.sub = if i = 0 then sub0 else r (i - 1)

variable {ranks : List (Option Nat)} {path : List Nat} {a b : Nat} {pd : Nat → Option Nat} {comb : Nat → Nat → Nat} {x P r δ : Nat → Nat} {m sub0 : Nat}

/-- another tree state -/
theorem SInv.keep (hO : OracleOK O n A Ready On Good) (hs : Setting n A ranks path a b pd comb x P r δ m) {i : Nat} (hi : i ≤ m) {st : Scan σ}
    (h : SInv O n On Good path x P r δ m sub0 i st) {t' : σ} (ht : On (x m) path t') (hk : Keeps O Good (x m) st.tree t') :
    SInv O n On Good path x P r δ m sub0 i { st with tree := t' } := by
  have hr : x m ∈ path := (hs.mem _).2 ⟨m, Nat.le_refl m, rfl⟩
  have hne : ∀ j, j < i → x j ≠ x m := fun j hj he => by have := hs.line.inj j m (by omega) (Nat.le_refl m) he; omega
  have hpar : ∀ j, j < i → O.parent t' (x j) = O.parent st.tree (x j) := fun j hj => (hk _ (h.good j hj)).2 (hne j hj)
  have hpp : ∀ j q, j < i → PP (O.parent t') (· ∈ path) (x j) q → PP (O.parent st.tree) (· ∈ path) (x j) q := by
    intro j q hj hq
    obtain ⟨_, d, k, _, hu, _⟩ := hO.up h.on (h.good j hj)
    obtain ⟨q', hq'⟩ := PP.exists (on := (· ∈ path)) hu hr (hne j hj)
    have := (hq'.keep hO hr h.on hk (h.good j hj) (hne j hj)).unique hq
    subst this; exact hq'
  refine ⟨ht, h.entries.keep hO hr h.on hk, ?_, h.sub, fun j hj => (hk _ (h.good j hj)).1, ?_, h.subVal⟩
  · intro u hu
    obtain ⟨y, hy, hc⟩ := h.linked u hu
    exact ⟨y, hy, hc.keep hk h.entries⟩
  · rcases h.dev with ⟨h1, h2⟩ | ⟨J, h1, h2, h0, h3⟩
    · refine .inl ⟨h1, fun j hj hl => h2 j hj ?_⟩
      unfold Leaves at hl ⊢; rw [hpar j hj] at hl; exact hl
    · refine .inr ⟨J, h1, h2, h0, fun j j' hj hl hj' hp => h3 j j' hj ?_ hj' (hpp j _ hj hp)⟩
      unfold Leaves at hl ⊢; rw [hpar j hj] at hl; exact hl

theorem scan_spec (hO : OracleOK O n A Ready On Good) (hs : Setting n A ranks path a b pd comb x P r δ m) :
    ∀ (c i : Nat) (st : Scan σ), i + c = m → SInv O n On Good path x P r δ m sub0 i st →
      ∃ st' K, scan O ranks a b pd comb ((List.range' i c).map (fun i => (x i, x (i + 1)))) st = some st' ∧ K ≤ m ∧
        SInv O n On Good path x P r δ m sub0 K st' ∧ P K = δ K := by
  intro c
  induction c with
  | zero =>
    intro i st hi h
    have : i = m := by omega
    subst this
    refine ⟨st, i, rfl, Nat.le_refl _, h, ?_⟩
    have h1 := hs.line.ge hs.isDist (Nat.le_refl i)
    have := hs.line.last
    omega
  | succ c ih =>
    intro i st hi h
    have hr : x m ∈ path := (hs.mem _).2 ⟨m, Nat.le_refl m, rfl⟩
    have hxi : x i ∈ path := (hs.mem _).2 ⟨i, by omega, rfl⟩
    have hne : x i ≠ x m := fun he => by have := hs.line.inj i m (by omega) (Nat.le_refl m) he; omega
    obtain ⟨t1, e1, e2, e3⟩ := hO.dist h.on hxi (hs.isDist i (by omega))
    have hi1 := h.keep hO hs (by omega) e2 e3
    rw [List.range'_succ, List.map_cons, scan]
    simp only [hs.pathDist i (by omega), e1, Option.bind_eq_bind, Option.bind_some]
    by_cases hP : P i = δ i
    · simp only [hP, if_true]
      exact ⟨_, i, rfl, by omega, hi1, hP⟩
    · obtain ⟨t2, f1, f2, f3, f4⟩ := hO.unpack e2 hxi
      have hi2 := hi1.keep hO hs (by omega) f2 f3
      obtain ⟨hvn, d, k, hk, hu, hd⟩ := hO.up f2 f4
      obtain ⟨p, w, d2, k2, _, _, g1, g2, g3⟩ := hu.inv hne
      simp only [hP, if_false, hs.rank i (by omega), f1, g1, Option.bind_some]
      have hsub : ∀ j, j < i + 1 → P j ≠ δ j := by
        intro j hj
        by_cases hji : j = i
        · subst hji; exact hP
        · exact h.sub j (by omega)
      have hgood : ∀ j, j < i + 1 → Good (x m) t2 (x j) := by
        intro j hj
        by_cases hji : j = i
        · subst hji; exact f4
        · exact hi2.good j (by omega)
      by_cases hl : p = x (i + 1)
      · have hnl : ¬ (p ≠ x (i + 1) ∧ δ i ≠ P i) := fun h => h.1 hl
        simp only [hnl, if_false]
        apply ih (i + 1) _ (by omega)
        have hnot : ¬ Leaves (O.parent t2) x i := by unfold Leaves; rw [g1, hl]; simp
        refine ⟨f2, hi2.entries, hi2.linked, hsub, hgood, ?_, by simp⟩
        rcases hi2.dev with ⟨h1, h2⟩ | ⟨J, h1, h2, h0, h3⟩
        · refine .inl ⟨h1, fun j hj => ?_⟩
          by_cases hji : j = i
          · subst hji; exact hnot
          · exact h2 j (by omega)
        · refine .inr ⟨J, h1, h2, by omega, fun j j' hj hl hj' hp => ?_⟩
          by_cases hji : j = i
          · subst hji; exact absurd hl hnot
          · exact h3 j j' (by omega) hl hj' hp
      · have hnl : p ≠ x (i + 1) ∧ δ i ≠ P i := ⟨hl, fun h => hP h.symm⟩
        have hent : Entries O n Good (x m) (· ∈ path) t2 st.cache := hi2.entries
        have hlen : st.cache.length = n := hent.len
        obtain ⟨cache, pp, c1, c2, c3, c4, c5, c6⟩ := pathParent_spec hO hr f2 (f := onPath ranks a b)
          (fun v hv => ⟨_, hs.on v hv, by simp⟩) (n + 1) hent f4 hne hu (by omega)
        obtain ⟨J0, hJ0, rfl⟩ := (hs.mem pp).1 c4.on
        rw [if_pos hnl]
        simp only [hlen, c1, c3, hs.rank J0 hJ0, Option.bind_some]
        have hlink : ∀ u, Cached cache u → ∃ y ∈ path, Chain (O.parent t2) cache y u := by
          intro u hu
          rcases c6 u hu with hu | hu
          · obtain ⟨y, hy, hc⟩ := hi2.linked u hu
            exact ⟨y, hy, hc.mono c5⟩
          · exact ⟨x i, hxi, hu⟩
        have huniq : ∀ j', j' ≤ m → PP (O.parent t2) (· ∈ path) (x i) (x j') → j' = J0 := by
          intro j' hj' hp
          exact hs.line.inj _ _ hj' hJ0 (hp.unique c4)
        have hfin : ∀ dev, ((∃ J, J ≤ m ∧ some dev = some (r J) ∧ 0 < i + 1 ∧
            ∀ j j', j < i + 1 → Leaves (O.parent t2) x j → j' ≤ m → PP (O.parent t2) (· ∈ path) (x j) (x j') → j' ≤ J)) →
            SInv O n On Good path x P r δ m sub0 (i + 1) ⟨t2, cache, some dev, r i⟩ := by
          intro dev hdev
          exact ⟨f2, c2, hlink, hsub, hgood, .inr hdev, by simp⟩
        rcases hi2.dev with ⟨h1, h2⟩ | ⟨J, h1, h2, h0, h3⟩
        · simp only at h1
          simp only [h1]
          apply ih (i + 1) _ (by omega)
          apply hfin
          refine ⟨J0, hJ0, rfl, by omega, fun j j' hj hl hj' hp => ?_⟩
          by_cases hji : j = i
          · subst hji; exact Nat.le_of_eq (huniq j' hj' hp)
          · exact absurd hl (h2 j (by omega))
        · simp only at h2
          simp only [h2]
          apply ih (i + 1) _ (by omega)
          apply hfin
          refine ⟨max J J0, by omega, by rw [hs.combine J J0 h1 hJ0], by omega, fun j j' hj hl hj' hp => ?_⟩
          by_cases hji : j = i
          · subst hji; have := huniq j' hj' hp; omega
          · have := h3 j j' (by omega) hl hj' hp; omega

/-- what one tree shows about the path -/
structure Shown (A : Nat → Nat → Nat → Prop) (x P r δ : Nat → Nat) (m : Nat) (dev : Option Nat) (sub K J : Nat) : Prop where
  pos : 0 < K
  le : K ≤ J
  lt : J ≤ m
  dev : dev = some (r J)
  sub : sub = r (K - 1)
  subopt : ∀ i, i < K → P i ≠ δ i
  opt : ∀ i, K ≤ i → i ≤ m → P i = δ i
  walk : ∀ i, i < K → P J ≤ δ i ∧ Walk A (x i) (x J) (δ i - P J)

theorem side_spec (hO : OracleOK O n A Ready On Good) (hs : Setting n A ranks path a b pd comb x P r δ m) (hreq : Request n A ranks (x m) path) {t : σ}
    (ht : Ready t) (dbg : Bool) :
    ∃ st, side dbg O ranks a b pd comb path (x m) sub0 ((List.range' 0 m).map (fun i => (x i, x (i + 1)))) t (List.replicate n none) = some st ∧
      On (x m) path st.tree ∧ st.cache = List.replicate n none ∧
      ((P 0 = δ 0 ∧ st.dev = none) ∨ ∃ K J, Shown A x P r δ m st.dev st.sub K J) := by
  obtain ⟨t1, e1, e2⟩ := hO.init ht hreq
  have hnc : ∀ u, ¬ Cached (List.replicate n none) u := by
    rintro u ⟨q, hq⟩
    rw [List.getElem?_replicate] at hq
    split at hq <;> simp at hq
  have h0 : SInv O n On Good path x P r δ m sub0 0 ⟨t1, List.replicate n none, none, sub0⟩ :=
    ⟨e2, ⟨by simp, fun v pp h => absurd ⟨pp, h⟩ (hnc v)⟩, fun u hu => absurd hu (hnc u), fun j hj => by omega, fun j hj => by omega,
      .inl ⟨rfl, fun j hj => by omega⟩, by simp⟩
  obtain ⟨st, K, f1, f2, f3, f4⟩ := scan_spec hO hs m 0 _ (by omega) h0
  have hreset := resetAll_spec hO f3.on path (fun v hv => hreq.lt v hv) f3.entries f3.linked
  refine ⟨{ st with cache := List.replicate n none }, ?_, f3.on, rfl, ?_⟩
  · simp only [side, e1, f1, Option.bind_eq_bind, Option.bind_some, f3.entries.len, hreset, Option.pure_def]
    have : check dbg ((List.replicate n (none : Option Nat)).all (· = none)) = some () := by
      have : (List.replicate n (none : Option Nat)).all (· = none) = true := by
        rw [List.all_eq_true]; intro y hy; simp [(List.mem_replicate.1 hy).2]
      rw [this]; simp [check]
    simp only [this, Option.bind_some]
  · have hup : ∀ j, j < K → ∃ k, Up (O.parent st.tree) A (x m) (x j) (δ j) k := by
      intro j hj
      obtain ⟨_, d, k, _, hu, hd⟩ := hO.up f3.on (f3.good j hj)
      have := hd.unique (hs.isDist j (by omega))
      subst this; exact ⟨k, hu⟩
    have hmem : ∀ v, v ∈ path ↔ ∃ i, i ≤ m ∧ v = x i := hs.mem
    by_cases hK : K = 0
    · subst hK
      refine .inl ⟨f4, ?_⟩
      rcases f3.dev with h | ⟨J, h1, h2, h0, h3⟩
      · exact h.1
      · omega
    · rcases f3.dev with ⟨h1, h2⟩ | ⟨J, h1, h2, h0, h3⟩
      · exfalso
        obtain ⟨k, hk⟩ := hup (K - 1) (by omega)
        have hK1 : K - 1 + 1 = K := by omega
        have := hs.line.leaves hs.isDist (K := K - 1) (by omega) (f3.sub _ (by omega)) (by rw [hK1]; exact f4) hk
        exact h2 (K - 1) (by omega) this
      · have hdev := fun {i : Nat} (hi : i < K) => hs.line.dev hs.isDist hmem f2 f3.sub f4 hup (J := J)
          (fun i j hi hl hj hp => h3 i j hi hl hj hp) hi
        have hopt : ∀ i, K ≤ i → i ≤ m → P i = δ i := fun i h1 h2 => hs.line.tail hs.isDist h1 h2 f4
        refine .inr ⟨K, J, by omega, ?_, h1, h2, by rw [f3.subVal]; simp [hK], f3.sub, hopt, ?_⟩
        · obtain ⟨e, g1, g2, _⟩ := hdev (i := 0) (by omega)
          omega
        · intro i hi
          obtain ⟨e, g1, g2, g3, g4, g5⟩ := hdev hi
          have h5 := hopt e g1 g3
          obtain ⟨h6, h7⟩ := hs.line.walk g2 h1
          refine ⟨by omega, ?_⟩
          have := g5.append h7
          have ee : δ i - δ e + (P e - P J) = δ i - P J := by omega
          rw [ee] at this; exact this

end
end Verif.UBS
