import Verif.Proof.SubPathsDij
import Verif.Proof.Sequences
import Verif.Proof.CCHBuild
import Verif.Spec.SubPaths
import Mathlib.Data.List.Nodup
set_option linter.unusedSimpArgs false
set_option linter.unusedVariables false
/- `find_ubs_violating_subpaths`. -/
namespace Verif.UBS
open Spec

/-! ### `path_ranks` -/

/-- after the first `k` nodes -/
structure Marked (n : Nat) (nodes : List Nat) (k : Nat) (st : List (Option Nat) × List Rng) : Prop where
  len : st.1.length = n
  ranks : ∀ v, v < n → (st.1[v]? = some none ∧ ∀ i, i < k → nodes[i]? ≠ some v) ∨
    ∃ i, i < k ∧ st.1[v]? = some (some i) ∧ nodes[i]? = some v ∧ ∀ j, i < j → j < k → nodes[j]? ≠ some v
  viol : ∀ r, r ∈ st.2 ↔ Loop nodes r ∧ r.stop < k
  sorted : st.2.Pairwise (fun a b => a.stop < b.stop)

theorem markStep_spec {n : Nat} {nodes : List Nat} {k v : Nat} {st : List (Option Nat) × List Rng} (h : Marked n nodes k st) (hk : nodes[k]? = some v) (hv : v < n) :
    ∃ st', markStep st (v, k) = some st' ∧ Marked n nodes (k + 1) st' := by
  have hvl : v < st.1.length := by rw [h.len]; exact hv
  have hranks : ∀ u, u < n → ((st.1.set v (some k))[u]? = some none ∧ ∀ i, i < k + 1 → nodes[i]? ≠ some u) ∨
      ∃ i, i < k + 1 ∧ (st.1.set v (some k))[u]? = some (some i) ∧ nodes[i]? = some u ∧ ∀ j, i < j → j < k + 1 → nodes[j]? ≠ some u := by
    intro u hu
    by_cases huv : u = v
    · subst huv
      refine .inr ⟨k, by omega, by simp [hvl], hk, fun j h1 h2 => by omega⟩
    · rw [List.getElem?_set_ne (by omega)]
      have hne : nodes[k]? ≠ some u := by rw [hk]; simp; omega
      rcases h.ranks u hu with ⟨h1, h2⟩ | ⟨i, h1, h2, h3, h4⟩
      · refine .inl ⟨h1, fun i hi => ?_⟩
        by_cases hik : i = k
        · subst hik; exact hne
        · exact h2 i (by omega)
      · refine .inr ⟨i, by omega, h2, h3, fun j h5 h6 => ?_⟩
        by_cases hjk : j = k
        · subst hjk; exact hne
        · exact h4 j h5 (by omega)
  unfold markStep
  rcases h.ranks v hv with ⟨h1, h2⟩ | ⟨i, h1, h2, h3, h4⟩
  · refine ⟨(st.1.set v (some k), st.2), by simp [h1, upd_of_lt _ hvl], by simp [h.len], hranks, ?_, h.sorted⟩
    intro r
    rw [h.viol]
    constructor
    · rintro ⟨e1, e2⟩; exact ⟨e1, by omega⟩
    · rintro ⟨e1, e2⟩
      refine ⟨e1, ?_⟩
      apply Classical.byContradiction
      intro hn
      have hrk : r.stop = k := by omega
      obtain ⟨e3, w, e4, e5, _⟩ := e1
      rw [hrk, hk] at e5; simp at e5; subst e5
      exact h2 r.start (by omega) e4
  · refine ⟨(st.1.set v (some k), st.2 ++ [⟨i, k⟩]), by simp [h2, upd_of_lt _ hvl], by simp [h.len], hranks, ?_, ?_⟩
    · intro r
      rw [List.mem_append, h.viol]
      constructor
      · rintro (⟨e1, e2⟩ | e1)
        · exact ⟨e1, by omega⟩
        · simp at e1; subst e1
          exact ⟨⟨h1, v, h3, hk, fun j e2 e3 => h4 j e2 e3⟩, by show k < k + 1; omega⟩
      · rintro ⟨e1, e2⟩
        by_cases hrk : r.stop = k
        · right
          obtain ⟨rs, re⟩ := r
          simp only at hrk; subst hrk
          obtain ⟨e3, w, e4, e5, e6⟩ := e1
          simp only at e3 e4 e5 e6
          rw [hk] at e5; simp at e5; subst e5
          have : rs = i := by
            apply Classical.byContradiction; intro hne
            by_cases hlt : rs < i
            · exact e6 i hlt h1 h3
            · exact h4 rs (by omega) e3 e4
          simp [this]
        · left; exact ⟨e1, by omega⟩
    · rw [List.pairwise_append]
      refine ⟨h.sorted, by simp, ?_⟩
      intro x hx y hy
      simp at hy; subst hy
      exact ((h.viol x).1 hx).2

theorem markPath_spec {n : Nat} {nodes : List Nat} (hlt : ∀ v ∈ nodes, v < n) :
    ∃ st, markPath (List.replicate n none) nodes = some st ∧ Marked n nodes nodes.length st := by
  have h0 : Marked n nodes 0 (List.replicate n none, []) := by
    refine ⟨by simp, fun v hv => .inl ⟨by simp [List.getElem?_replicate, hv], fun i hi => by omega⟩, by simp, by simp⟩
  have : ∀ (suf pre : List Nat) (st : List (Option Nat) × List Rng), nodes = pre ++ suf → Marked n nodes pre.length st →
      ∃ st', (suf.zipIdx pre.length).foldlM markStep st = some st' ∧ Marked n nodes nodes.length st' := by
    intro suf
    induction suf with
    | nil => intro pre st he h; simp at he; subst he; exact ⟨st, by simp, h⟩
    | cons v suf ih =>
      intro pre st he h
      have hk : nodes[pre.length]? = some v := by rw [he]; simp
      obtain ⟨st1, e1, e2⟩ := markStep_spec h hk (hlt v (by rw [he]; simp))
      obtain ⟨st2, e3, e4⟩ := ih (pre ++ [v]) st1 (by simp [he]) (by simpa using e2)
      refine ⟨st2, ?_, e4⟩
      simp only [List.length_append, List.length_cons, List.length_nil, Nat.zero_add] at e3
      simp [List.zipIdx_cons, e1, e3]
  exact this nodes [] _ (by simp) (by simpa using h0)

theorem Marked.nodup {n : Nat} {nodes : List Nat} {st : List (Option Nat) × List Rng} (h : Marked n nodes nodes.length st) : st.2 = [] ↔ nodes.Nodup := by
  constructor
  · intro he
    rw [List.nodup_iff_getElem?_ne_getElem?]
    intro i j hij hj heq
    -- the last occurrence before `j`
    have key : ∀ (m i : Nat), i < j → j - i ≤ m → nodes[i]? = nodes[j]? → False := by
      intro m
      induction m with
      | zero => intro i h1 h2; omega
      | succ m ih =>
        intro i h1 h2 h3
        by_cases hex : ∃ k, i < k ∧ k < j ∧ nodes[k]? = nodes[j]?
        · obtain ⟨k, h4, h5, h6⟩ := hex
          exact ih k h5 (by omega) h6
        · have hv : nodes[j]? = some nodes[j] := List.getElem?_eq_getElem hj
          have hl : (⟨i, j⟩ : Rng) ∈ st.2 := (h.viol _).2 ⟨⟨h1, nodes[j], by rw [← hv]; exact h3, hv, fun k h4 h5 h6 =>
            hex ⟨k, h4, h5, by rw [h6, hv]⟩⟩, hj⟩
          rw [he] at hl; simp at hl
    exact key (j - i) i hij (Nat.le_refl _) heq
  · intro hn
    rw [List.eq_nil_iff_forall_not_mem]
    intro r hr
    obtain ⟨⟨h1, v, h2, h3, _⟩, h4⟩ := (h.viol r).1 hr
    exact (List.nodup_iff_getElem?_ne_getElem?.1 hn) r.start r.stop h1 h4 (by rw [h2, h3])

theorem unmark_get {n : Nat} : ∀ (nodes : List Nat) (ranks : List (Option Nat)), ranks.length = n → (∀ v ∈ nodes, v < n) →
    ∃ r', unmark ranks nodes = some r' ∧ r'.length = n ∧ ∀ v, r'[v]? = if v ∈ nodes then some none else ranks[v]? := by
  intro nodes
  induction nodes with
  | nil => intro ranks h _; exact ⟨ranks, rfl, h, by simp⟩
  | cons v nodes ih =>
    intro ranks h hlt
    have hv : v < ranks.length := by rw [h]; exact hlt v (by simp)
    obtain ⟨r', e1, e2, e3⟩ := ih (ranks.set v none) (by simp [h]) (fun u hu => hlt u (by simp [hu]))
    refine ⟨r', by unfold unmark at *; simp [upd_of_lt _ hv, e1], e2, fun u => ?_⟩
    rw [e3]
    by_cases hu : u ∈ nodes
    · simp [hu]
    · by_cases huv : u = v
      · subst huv; simp [hu, hv]
      · simp [hu, huv, List.getElem?_set_ne (Ne.symm huv)]

theorem unmark_spec {n : Nat} {nodes : List Nat} (hlt : ∀ v ∈ nodes, v < n) {st : List (Option Nat) × List Rng} (h : Marked n nodes nodes.length st) :
    unmark st.1 nodes = some (List.replicate n none) := by
  obtain ⟨r', e1, e2, e3⟩ := unmark_get nodes st.1 h.len hlt
  rw [e1]
  congr 1
  apply List.ext_getElem?
  intro v
  rw [e3, List.getElem?_replicate]
  by_cases hv : v < n
  · rw [if_pos hv]
    by_cases hm : v ∈ nodes
    · rw [if_pos hm]
    · rw [if_neg hm]
      rcases h.ranks v hv with ⟨h1, _⟩ | ⟨i, _, _, h3, _⟩
      · exact h1
      · exact absurd (List.mem_of_getElem? h3) hm
  · rw [if_neg hv, if_neg (fun hm => hv (hlt v hm)), List.getElem?_eq_none (by rw [h.len]; omega)]

/-! ### Lengths -/

/-- `dists` are the lengths of the path up to each node. -/
structure Steps (A : Nat → Nat → Nat → Prop) (nodes dists : List Nat) : Prop where
  len : nodes.length ≤ dists.length
  step : ∀ i u v x y, nodes[i]? = some u → nodes[i + 1]? = some v → dists[i]? = some x → dists[i + 1]? = some y → x ≤ y ∧ A u v (y - x) ∧ ∀ w, A u v w → y ≤ w + x
  fin : ∀ i x, i < nodes.length → dists[i]? = some x → x < INFINITY

section
variable {n : Nat} {A : Nat → Nat → Nat → Prop} {ranks : List (Option Nat)} {nodes dists : List Nat} {st : List (Option Nat) × List Rng}

theorem steps_walk (h : Steps A nodes dists) {i : Nat} : ∀ {j : Nat}, i ≤ j → j < nodes.length → ∃ d, Walk A (nodes.getD i 0) (nodes.getD j 0) d := by
  intro j hij
  induction j, hij using Nat.le_induction with
  | base => intro _; exact ⟨0, .nil _⟩
  | succ j hj ih =>
    intro hm
    obtain ⟨d, hd⟩ := ih (by omega)
    have hl := h.len
    have e1 : nodes[j]? = some (nodes.getD j 0) := by rw [List.getD_eq_getElem?_getD, List.getElem?_eq_getElem (by omega)]; rfl
    have e2 : nodes[j + 1]? = some (nodes.getD (j + 1) 0) := by rw [List.getD_eq_getElem?_getD, List.getElem?_eq_getElem (by omega)]; rfl
    exact ⟨_, hd.snoc (h.step j _ _ _ _ e1 e2 (List.getElem?_eq_getElem (by omega)) (List.getElem?_eq_getElem (by omega))).2.1⟩

theorem whole_of (hn : nodes.Nodup) (hlt : ∀ v ∈ nodes, v < n) (hm : Marked n nodes nodes.length st) (h : Steps A nodes dists) :
    ∃ dd, Whole n A st.1 nodes dists (fun i => nodes.getD i 0) (fun i => dists.getD i 0) dd := by
  have hl := h.len
  have hget : ∀ i, i < nodes.length → nodes[i]? = some (nodes.getD i 0) := by
    intro i hi; rw [List.getD_eq_getElem?_getD, List.getElem?_eq_getElem hi]; rfl
  have hgetD : ∀ i, i < nodes.length → dists[i]? = some (dists.getD i 0) := by
    intro i hi; rw [List.getD_eq_getElem?_getD, List.getElem?_eq_getElem (by omega)]; rfl
  have hinj : ∀ i j, i < nodes.length → j < nodes.length → nodes[i]? = nodes[j]? → i = j := by
    intro i j hi hj he
    have := List.nodup_iff_getElem?_ne_getElem?.1 hn
    apply Classical.byContradiction
    intro hne
    rcases Nat.lt_or_gt_of_ne hne with h1 | h1
    · exact this i j h1 hj he
    · exact this j i h1 hi he.symm
  have hdist : ∀ i j, ∃ d, i ≤ j → j < nodes.length → IsDist A (nodes.getD i 0) (nodes.getD j 0) d := by
    intro i j
    by_cases hij : i ≤ j ∧ j < nodes.length
    · obtain ⟨d, hd⟩ := steps_walk h hij.1 hij.2
      obtain ⟨d', _, hd'⟩ := exists_isDist hd
      exact ⟨d', fun _ _ => hd'⟩
    · exact ⟨0, fun h1 h2 => absurd ⟨h1, h2⟩ hij⟩
  refine ⟨fun i j => Classical.choose (hdist i j), hget, hgetD, fun i hi => hlt _ (List.mem_of_getElem? (hget i hi)), ?_, ?_, ?_, ?_,
    fun i j => Classical.choose_spec (hdist i j), fun i hi => h.fin i _ hi (hgetD i hi)⟩
  · intro i hi
    rcases hm.ranks _ (hlt _ (List.mem_of_getElem? (hget i hi))) with ⟨_, h2⟩ | ⟨k, h1, h2, h3, _⟩
    · exact absurd (hget i hi) (h2 i hi)
    · have := hinj i k hi h1 (by rw [hget i hi, h3])
      subst this
      unfold rankOf
      rw [h2]; rfl
  · intro v hv
    rcases hm.ranks v hv with ⟨h1, _⟩ | ⟨k, h1, h2, h3, _⟩
    · exact .inl h1
    · refine .inr ⟨k, h1, h2, ?_⟩
      have := hget k h1
      rw [h3] at this; simpa using this
  · intro i hi
    obtain ⟨e1, e2, _⟩ := h.step i _ _ _ _ (hget i (by omega)) (hget (i + 1) hi) (hgetD i (by omega)) (hgetD (i + 1) hi)
    exact ⟨e1, e2⟩
  · intro i w hi hw
    exact (h.step i _ _ _ _ (hget i (by omega)) (hget (i + 1) hi) (hgetD i (by omega)) (hgetD (i + 1) hi)).2.2 w hw

end

/-! ### Lengths of subpaths -/

section
variable {n : Nat} {A : Nat → Nat → Nat → Prop} {ranks : List (Option Nat)} {full dists : List Nat} {p D : Nat → Nat} {dd : Nat → Nat → Nat}

theorem PathOf.unique_head {u v : Nat} {l : List Nat} {d : Nat} (h : PathOf A (u :: v :: l) d) : ∃ w d', A u v w ∧ PathOf A (v :: l) d' ∧ d = w + d' := by
  cases h with
  | cons h1 h2 => exact ⟨_, _, h1, h2, rfl⟩

theorem Whole.cheapest (h : Whole n A ranks full dists p D dd) : ∀ (c a : Nat), a + c < full.length →
    CheapestLen A ((List.range' a (c + 1)).map p) (D (a + c) - D a) := by
  intro c
  induction c with
  | zero =>
    intro a ha
    refine ⟨?_, fun d hd => by simp⟩
    simp only [Nat.add_zero, Nat.sub_self]
    exact .single _
  | succ c ih =>
    intro a ha
    obtain ⟨h1, h2⟩ := ih (a + 1) (by omega)
    obtain ⟨s1, s2⟩ := h.step a (by omega)
    have hle := (h.mono (i := a + 1) (j := a + 1 + c) (by omega) (by omega)).1
    have e : a + 1 + c = a + (c + 1) := by omega
    rw [e] at h1 h2 hle
    have hr : (List.range' a (c + 1 + 1)).map p = p a :: p (a + 1) :: (List.range' (a + 2) c).map p := by
      simp [List.range'_succ]
    have hr' : (List.range' (a + 1) (c + 1)).map p = p (a + 1) :: (List.range' (a + 2) c).map p := by
      simp [List.range'_succ]
    rw [hr'] at h1 h2
    rw [hr]
    constructor
    · have := PathOf.cons s2 h1
      have e2 : D (a + 1) - D a + (D (a + (c + 1)) - D (a + 1)) = D (a + (c + 1)) - D a := by omega
      rw [e2] at this; exact this
    · intro len hlen
      obtain ⟨w, d', g1, g2, rfl⟩ := PathOf.unique_head hlen
      have := h.least a w (by omega) g1
      have := h2 d' g2
      omega

theorem subPath_eq (h : Whole n A ranks full dists p D dd) {i j : Nat} (hij : i ≤ j) (hj : j < full.length) :
    subPath full ⟨i, j⟩ = (List.range' i (j - i + 1)).map p := by
  unfold subPath
  apply List.ext_getElem?
  intro k
  simp only
  by_cases hk : k < j - i + 1
  · rw [List.getElem?_take_of_lt hk, List.getElem?_drop, h.get _ (by omega), List.getElem?_map, List.getElem?_range' hk]; simp
  · rw [List.getElem?_eq_none (by simp; omega), List.getElem?_eq_none (by simp; omega)]

/-- too long, in terms of positions -/
theorem Whole.tooLong (h : Whole n A ranks full dists p D dd) {thr : Nat → Nat} {r : Rng} :
    TooLong A thr full r ↔ r.start < r.stop ∧ r.stop < full.length ∧ dd r.start r.stop + thr (dd r.start r.stop) < D r.stop - D r.start := by
  obtain ⟨i, j⟩ := r
  simp only [TooLong]
  constructor
  · rintro ⟨h1, s, t, len, d, h2, h3, h4, h5, h6⟩
    have hj : j < full.length := (List.getElem?_eq_some_iff.1 h3).1
    rw [h.get i (by omega)] at h2; simp at h2; subst h2
    rw [h.get j (by omega)] at h3; simp at h3; subst h3
    rw [subPath_eq h (by omega) hj] at h4
    have hc := h.cheapest (j - i) i (by omega)
    rw [show i + (j - i) = j by omega] at hc
    have e1 := h4.2 _ hc.1
    have e2 := hc.2 _ h4.1
    have e3 := h5.unique (h.dist i j (by omega) hj)
    subst e3
    exact ⟨h1, hj, by omega⟩
  · rintro ⟨h1, hj, h6⟩
    have hc := h.cheapest (j - i) i (by omega)
    rw [show i + (j - i) = j by omega, ← subPath_eq h (by omega) hj] at hc
    exact ⟨h1, p i, p j, _, _, h.get i (by omega), h.get j hj, hc, h.dist i j (by omega) hj, h6⟩

end

/-! ### The callback -/

theorem violating_calls {dbg : Bool} {thr : Nat → Nat} {k k' : List Rng} {l : List (Rng × Nat × Nat × Bool)} (h : Calls (violating dbg thr) k l k') :
    k' = k ++ (l.filter (fun c => c.2.2.2)).map Prod.fst ∧ ∀ c ∈ l, c.2.2.2 = decide (c.2.2.1 + thr c.2.2.1 < c.2.1) := by
  induction h with
  | nil => simp
  | @cons k k1 k2 r pd sd b l h1 h2 ih =>
    have hb : b = decide (sd + thr sd < pd) ∧ k1 = if b then k ++ [r] else k := by
      unfold violating at h1
      by_cases hle : sd ≤ pd
      · cases hc1 : check dbg (decide (sd ≤ pd)) with
        | none => simp [hc1] at h1
        | some _ =>
          cases hc2 : check dbg (decide (0 < sd)) with
          | none => simp [hc1, hc2] at h1
          | some _ =>
            simp only [hc1, hc2, minus, if_pos hle, Option.bind_eq_bind, Option.bind_some] at h1
            by_cases hgt : pd - sd > thr sd
            · rw [if_pos hgt] at h1
              simp at h1
              obtain ⟨rfl, rfl⟩ := h1
              simp; omega
            · rw [if_neg hgt] at h1
              simp at h1
              obtain ⟨rfl, rfl⟩ := h1
              simp; omega
      · simp [minus, hle] at h1
    obtain ⟨hb1, hb2⟩ := hb
    constructor
    · rw [ih.1, hb2]
      cases b <;> simp
    · intro c hc
      simp at hc
      rcases hc with rfl | hc
      · exact hb1
      · exact ih.2 c hc

theorem monotone_of {thr : Nat → Nat} (hthr : ∀ a b, a ≤ b → thr a ≤ thr b) : Monotone (fun pd sd => sd + thr sd < pd) := by
  intro pd sd h
  refine ⟨by omega, fun x hx => ?_⟩
  have := hthr (sd - x) sd (by omega)
  show sd - x + thr (sd - x) < pd - x
  omega

/-! ### The function -/

section
variable {n : Nat} {A : Nat → Nat → Nat → Prop}
variable {σ τ : Type} {T : Oracle σ} {S : Oracle τ} {RT : σ → Prop} {OT : Nat → List Nat → σ → Prop} {GT : Nat → σ → Nat → Prop}
  {RS : τ → Prop} {OS : Nat → List Nat → τ → Prop} {GS : Nat → τ → Nat → Prop}

/-- between two calls -/
structure SOK (n : Nat) (RT : σ → Prop) (RS : τ → Prop) (st : State σ τ) : Prop where
  tgt : RT st.tgt
  src : RS st.src
  cache : st.cache = List.replicate n none
  ranks : st.ranks = List.replicate n none

theorem findUbs_spec (hT : OracleOK T n A RT OT GT) (hS : OracleOK S n (Rev A) RS OS GS) {dbg : Bool} {srt : List Rng → List Rng}
    (hsrt : ∀ l, (srt l).Perm l ∧ (srt l).Pairwise (fun a b => a.start < b.start ∨ a.start = b.start ∧ b.stop ≤ a.stop))
    {g : FOGraph} {thr : Nat → Nat} (hthr : ∀ a b, a ≤ b → thr a ≤ thr b) (hpos : dbg = true → ∀ u v d, u ≠ v → Walk A u v d → 0 < d)
    {st : State σ τ} (hst : SOK n RT RS st) {path nodes : List Nat} (hlt : ∀ v ∈ nodes, v < n)
    (hdists : nodes.Nodup → ∃ dists, pathDists dbg g path = some dists ∧ Steps A nodes dists) :
    ∃ out st', findUbs dbg T S g srt thr st path nodes = some (out, st') ∧ SOK n RT RS st' ∧ UbsAnswer A thr nodes out := by
  obtain ⟨tgt, src, cache, ranks⟩ := st
  obtain ⟨hR1, hR2, hR3, hR4⟩ := hst
  simp only at hR1 hR2 hR3 hR4
  subst hR3 hR4
  obtain ⟨mk, e1, e2⟩ := markPath_spec hlt
  have hun := unmark_spec hlt e2
  have hchk : check dbg ((List.replicate n (none : Option Nat)).all (· = none)) = some () := by
    have : (List.replicate n (none : Option Nat)).all (· = none) = true := by
      rw [List.all_eq_true]; intro y hy; simp [(List.mem_replicate.1 hy).2]
    rw [this]; simp [check]
  obtain ⟨mr, mv⟩ := mk
  unfold findUbs UbsAnswer
  simp only [hchk, e1, Option.bind_eq_bind, Option.bind_some]
  by_cases hnd : nodes.Nodup
  · have hmv := e2.nodup.2 hnd
    simp only at hmv hun
    subst hmv
    rw [if_neg (by simp)]
    obtain ⟨dists, d1, d2⟩ := hdists hnd
    obtain ⟨dd, hw⟩ := whole_of hnd hlt e2 d2
    have hcb : ∀ i j, i < j → j < nodes.length → ∀ k, ∃ k' b, violating dbg thr k ⟨i, j⟩ (dists.getD j 0 - dists.getD i 0) (dd i j) = some (k', b) := by
      intro i j hij hj k
      have hle := hw.le (i := i) (j := j) (by omega) hj
      have c1 : check dbg (decide (dd i j ≤ dists.getD j 0 - dists.getD i 0)) = some () := by simp only [check, decide_eq_true hle]; simp
      have c2 : check dbg (decide (0 < dd i j)) = some () := by
        cases dbg with
        | false => simp [check]
        | true =>
          have : 0 < dd i j := hpos rfl _ _ _ (fun he => by have := hw.inj (by omega) hj he; omega) (hw.dist i j (by omega) hj).1
          simp [check, this]
      unfold violating
      simp only [c1, c2, minus, if_pos hle, Option.bind_eq_bind, Option.bind_some]
      split
      · exact ⟨_, _, rfl⟩
      · exact ⟨_, _, rfl⟩
    obtain ⟨f, l, f1, f2, f3, f4, f5⟩ := treeFind_spec hT hS hw dbg hcb (nodes.length + 1) 0 nodes.length (by omega) (by omega) (by omega)
      ⟨tgt, src, List.replicate n none, []⟩ ⟨hR1, hR2, rfl⟩
    obtain ⟨g1, g2⟩ := violating_calls f3
    simp only [List.nil_append] at g1
    have hin : ∀ r, r ∈ f.cb ↔ ∃ c ∈ l, c.1 = r ∧ c.2.2.1 + thr c.2.2.1 < c.2.1 := by
      intro r
      rw [g1, List.mem_map]
      constructor
      · rintro ⟨c, hc, rfl⟩
        obtain ⟨h1, h2⟩ := List.mem_filter.1 hc
        rw [g2 c h1] at h2
        exact ⟨c, h1, rfl, by simpa using h2⟩
      · rintro ⟨c, hc, rfl, h2⟩
        exact ⟨c, List.mem_filter.2 ⟨hc, by rw [g2 c hc]; simpa using h2⟩, rfl⟩
    have hsound : ∀ r ∈ f.cb, TooLong A thr nodes r := by
      intro r hr
      obtain ⟨c, h1, rfl, h2⟩ := (hin r).1 hr
      obtain ⟨k1, k2, k3, k4, k5⟩ := f4 c h1
      rw [hw.tooLong]
      rw [k4, k5] at h2
      exact ⟨k2, k3, h2⟩
    have hcomp : ∀ r, TooLong A thr nodes r → ∃ r' ∈ f.cb, r.Contains r' := by
      intro r hr
      obtain ⟨k1, k2, k3⟩ := hw.tooLong.1 hr
      obtain ⟨c, m1, m2, m3, m4⟩ := f5 _ (monotone_of hthr) (fun c hc h => by rw [g2 c hc] at h; simpa using h) r.start r.stop (by omega) k1 k2 trivial k3
      exact ⟨c.1, (hin _).2 ⟨c, m1, rfl, m4⟩, m2, m3⟩
    obtain ⟨out, o1, o2, o3⟩ := Seq.filterCovered_spec (hsrt f.cb).1 (hsrt f.cb).2 (fun r hr => Nat.le_of_lt (hsound r hr).1)
    simp only [d1, f1, hun, o1, Option.bind_some]
    refine ⟨out, _, rfl, ⟨f2.tgt, f2.src, f2.cache, rfl⟩, fun _ => ⟨fun r => ?_, o3⟩, fun h => absurd hnd h⟩
    rw [o2]
    constructor
    · rintro ⟨h1, h2⟩
      refine ⟨hsound r h1, fun r' h3 h4 => ?_⟩
      obtain ⟨r2, h5, h6⟩ := hcomp r' h3
      have := h2 r2 h5 ⟨Nat.le_trans h4.1 h6.1, Nat.le_trans h6.2 h4.2⟩
      subst this
      obtain ⟨a1, a2⟩ := r'; obtain ⟨b1, b2⟩ := r2
      simp only [Rng.Contains] at h4 h6
      simp only [Rng.mk.injEq]; omega
    · rintro ⟨h1, h2⟩
      obtain ⟨r2, h5, h6⟩ := hcomp r h1
      have := h2 r2 (hsound r2 h5) h6
      subst this
      exact ⟨h5, fun r' h3 h4 => h2 r' (hsound r' h3) h4⟩
  · have hmv : mv ≠ [] := fun he => hnd (e2.nodup.1 he)
    simp only at hun
    rw [if_pos hmv]
    simp only [hun, Option.bind_some]
    refine ⟨mv, _, rfl, ⟨hR1, hR2, rfl, rfl⟩, fun h => absurd h hnd, fun _ => ⟨fun r => ?_, e2.sorted⟩⟩
    rw [e2.viol]
    constructor
    · exact fun h => h.1
    · intro h
      refine ⟨h, ?_⟩
      obtain ⟨_, v, _, h3, _⟩ := h
      exact (List.getElem?_eq_some_iff.1 h3).1

end
end Verif.UBS
