import Verif.Model.SubPaths
import Verif.Proof.DijkstraVisit
import Verif.Spec.Hierarchy
set_option linter.unusedSimpArgs false
set_option linter.unusedVariables false
/- Finding the subpaths of a path that are not shortest, by two shortest path trees per round. -/
namespace Verif.UBS
open Spec

/-- The tree path from a node to the root: its length and its number of arcs. -/
inductive Up (par : Nat → Option Nat) (A : Nat → Nat → Nat → Prop) (root : Nat) : Nat → Nat → Nat → Prop
  | nil : Up par A root root 0 0
  | cons {v p w d k : Nat} : v ≠ root → par v = some p → A v p w → Up par A root p d k → Up par A root v (w + d) (k + 1)

theorem Up.walk {par : Nat → Option Nat} {A : Nat → Nat → Nat → Prop} {root v d k : Nat} (h : Up par A root v d k) : Walk A v root d := by
  induction h with
  | nil => exact .nil _
  | cons _ _ ha _ ih => exact .cons ha ih

theorem Up.inv {par : Nat → Option Nat} {A : Nat → Nat → Nat → Prop} {root v d k : Nat} (h : Up par A root v d k) (hv : v ≠ root) :
    ∃ p w d' k', d = w + d' ∧ k = k' + 1 ∧ par v = some p ∧ A v p w ∧ Up par A root p d' k' := by
  cases h with
  | nil => exact absurd rfl hv
  | cons _ h1 h2 h3 => exact ⟨_, _, _, _, rfl, rfl, h1, h2, h3⟩

/-- `pp` is the first proper ancestor on the path. -/
inductive PP (par : Nat → Option Nat) (on : Nat → Prop) : Nat → Nat → Prop
  | here {v p : Nat} : par v = some p → on p → PP par on v p
  | up {v p pp : Nat} : par v = some p → ¬ on p → PP par on p pp → PP par on v pp

theorem PP.on {par : Nat → Option Nat} {on : Nat → Prop} {v pp : Nat} (h : PP par on v pp) : on pp := by
  induction h with
  | here _ h => exact h
  | up _ _ _ ih => exact ih

theorem PP.unique {par : Nat → Option Nat} {on : Nat → Prop} {v pp qq : Nat} (h : PP par on v pp) (h' : PP par on v qq) : pp = qq := by
  induction h with
  | here h1 h2 =>
    cases h' with
    | here h3 h4 => rw [h1] at h3; simpa using h3
    | up h3 h4 _ => rw [h1] at h3; simp at h3; subst h3; exact absurd h2 h4
  | up h1 h2 _ ih =>
    cases h' with
    | here h3 h4 => rw [h1] at h3; simp at h3; subst h3; exact absurd h4 h2
    | up h3 h4 h5 => rw [h1] at h3; simp at h3; subst h3; exact ih h5

/-- the tree path goes through the ancestor -/
theorem PP.up_walk {par : Nat → Option Nat} {on : Nat → Prop} {A : Nat → Nat → Nat → Prop} {root v pp d k : Nat} (h : PP par on v pp)
    (hu : Up par A root v d k) (hr : on root) (hv : v ≠ root) : ∃ d' k', Up par A root pp d' k' ∧ k' < k ∧ d' ≤ d ∧ Walk A v pp (d - d') := by
  induction h generalizing d k with
  | here h1 h2 =>
    cases hu with
    | nil => exact absurd rfl hv
    | cons _ h3 h4 h5 =>
      rw [h1] at h3; simp at h3; subst h3
      exact ⟨_, _, h5, by omega, by omega, by
        have := Walk.cons h4 (.nil _)
        rw [Nat.add_sub_cancel]; simpa using this⟩
  | up h1 h2 h3 ih =>
    cases hu with
    | nil => exact absurd rfl hv
    | cons _ h4 h5 h6 =>
      rw [h1] at h4; simp at h4; subst h4
      obtain ⟨d', k', e1, e2, e3, e4⟩ := ih h6 (fun h => h2 (h ▸ hr))
      refine ⟨d', k', e1, by omega, by omega, ?_⟩
      have := Walk.cons h5 e4
      rw [← Nat.add_sub_assoc e3] at this; exact this

/-- every node below the root has such an ancestor -/
theorem PP.exists {par : Nat → Option Nat} {on : Nat → Prop} {A : Nat → Nat → Nat → Prop} {root v d k : Nat} (hu : Up par A root v d k)
    (hr : on root) (hv : v ≠ root) : ∃ pp, PP par on v pp := by
  induction hu with
  | nil => exact absurd rfl hv
  | @cons v p w d k h1 h2 h3 h4 ih =>
    by_cases hp : on p
    · exact ⟨p, .here h2 hp⟩
    · obtain ⟨pp, h⟩ := ih (fun h => hp (h ▸ hr))
      exact ⟨pp, .up h2 hp h⟩

theorem dist_tail {A : Nat → Nat → Nat → Prop} {v pp root d d' : Nat} (h : IsDist A v root d) (hle : d' ≤ d) (h1 : Walk A v pp (d - d'))
    (h2 : Walk A pp root d') : IsDist A pp root d' := by
  refine ⟨h2, fun e he => ?_⟩
  have := h.2 _ (h1.append he)
  omega

/-! ### A path towards the root -/

/-- `x 0, …, x m` is a path; `P i` is its length from `x i` on. -/
structure Line (A : Nat → Nat → Nat → Prop) (x P : Nat → Nat) (m : Nat) : Prop where
  inj : ∀ i j, i ≤ m → j ≤ m → x i = x j → i = j
  step : ∀ i, i < m → P (i + 1) ≤ P i ∧ A (x i) (x (i + 1)) (P i - P (i + 1))
  least : ∀ i w, i < m → A (x i) (x (i + 1)) w → P i ≤ w + P (i + 1)
  last : P m = 0

section
variable {A : Nat → Nat → Nat → Prop} {x P : Nat → Nat} {m : Nat}

theorem Line.walk (h : Line A x P m) {i : Nat} : ∀ {j : Nat}, i ≤ j → j ≤ m → P j ≤ P i ∧ Walk A (x i) (x j) (P i - P j) := by
  intro j hij
  induction j, hij using Nat.le_induction with
  | base => intro _; exact ⟨Nat.le_refl _, by rw [Nat.sub_self]; exact .nil _⟩
  | succ j hj ih =>
    intro hm
    obtain ⟨h1, h2⟩ := ih (by omega)
    obtain ⟨h3, h4⟩ := h.step j (by omega)
    refine ⟨by omega, ?_⟩
    have := h2.snoc h4
    have e : P i - P j + (P j - P (j + 1)) = P i - P (j + 1) := by omega
    rw [e] at this; exact this

variable {δ : Nat → Nat}

theorem Line.ge (h : Line A x P m) (hδ : ∀ i, i ≤ m → IsDist A (x i) (x m) (δ i)) {i : Nat} (hi : i ≤ m) : δ i ≤ P i := by
  have := (h.walk hi (Nat.le_refl m)).2
  rw [h.last, Nat.sub_zero] at this
  exact (hδ i hi).2 _ this

/-- the rest of a shortest path is a shortest path -/
theorem Line.tail (h : Line A x P m) (hδ : ∀ i, i ≤ m → IsDist A (x i) (x m) (δ i)) {i j : Nat} (hij : i ≤ j) (hj : j ≤ m) (hi : P i = δ i) :
    P j = δ j := by
  have h1 := h.ge hδ hj
  obtain ⟨h2, h3⟩ := h.walk hij hj
  have := (hδ i (by omega)).2 _ (h3.append (hδ j hj).1)
  omega

/-- What one tree shows. The nodes before index `K` have no shortest path along the line; `J` is the largest index of a first ancestor on the
line of a node among them that leaves the line. -/
theorem Line.dev (h : Line A x P m) (hδ : ∀ i, i ≤ m → IsDist A (x i) (x m) (δ i)) {par : Nat → Option Nat} {on : Nat → Prop}
    (hon : ∀ v, on v ↔ ∃ i, i ≤ m ∧ v = x i) {K J : Nat} (hK : K ≤ m) (hsub : ∀ i, i < K → P i ≠ δ i) (hopt : P K = δ K)
    (hup : ∀ i, i < K → ∃ k, Up par A (x m) (x i) (δ i) k)
    (hJ : ∀ i j, i < K → par (x i) ≠ some (x (i + 1)) → j ≤ m → PP par on (x i) (x j) → j ≤ J) {i : Nat} (hi : i < K) :
    ∃ e, K ≤ e ∧ e ≤ J ∧ e ≤ m ∧ δ e ≤ δ i ∧ Walk A (x i) (x e) (δ i - δ e) := by
  obtain ⟨k, hk⟩ := hup i hi
  induction k using Nat.strongRecOn generalizing i with
  | _ k ih =>
    have hne : x i ≠ x m := fun he => by have := h.inj i m (by omega) (Nat.le_refl m) he; omega
    have hdi := hδ i (by omega)
    by_cases hp : par (x i) = some (x (i + 1))
    · obtain ⟨p, w, d, k, hd, rfl, h2, h3, h4⟩ := hk.inv hne
      · rw [hp] at h2; simp at h2; subst h2
        have hd1 : IsDist A (x (i + 1)) (x m) d := dist_tail (d := w + d) (by rw [← hd]; exact hdi) (by omega) (by
          rw [Nat.add_sub_cancel]; simpa using Walk.cons h3 (.nil _)) h4.walk
        have hd2 : δ (i + 1) = d := (hδ (i + 1) (by omega)).unique hd1
        by_cases hK1 : i + 1 < K
        · obtain ⟨e, e1, e2, e2', e3, e4⟩ := ih k (by omega) hK1 (by rw [hd2]; exact h4)
          refine ⟨e, e1, e2, e2', by omega, ?_⟩
          have := Walk.cons h3 e4
          have ee : w + (δ (i + 1) - δ e) = δ i - δ e := by omega
          rw [ee] at this; exact this
        · exfalso
          have hK2 : i + 1 = K := by omega
          have h5 := h.least i w (by omega) h3
          have h6 := hsub i hi
          have h7 := h.ge hδ (show i ≤ m by omega)
          rw [hK2] at h5 hd2
          omega
    · obtain ⟨pp, hpp⟩ := PP.exists (on := on) hk ((hon _).2 ⟨m, Nat.le_refl m, rfl⟩) hne
      obtain ⟨j, hj, rfl⟩ := (hon pp).1 hpp.on
      obtain ⟨d', k', e1, e2, e3, e4⟩ := hpp.up_walk hk ((hon _).2 ⟨m, Nat.le_refl m, rfl⟩) hne
      have hd' : δ j = d' := (hδ j hj).unique (dist_tail hdi e3 e4 e1.walk)
      by_cases hjK : j < K
      · obtain ⟨e, f1, f2, f2', f3, f4⟩ := ih k' e2 hjK (by rw [hd']; exact e1)
        refine ⟨e, f1, f2, f2', by omega, ?_⟩
        have := e4.append f4
        have ee : δ i - d' + (δ j - δ e) = δ i - δ e := by omega
        rw [ee] at this; exact this
      · exact ⟨j, by omega, hJ i j hi hp hj hpp, hj, by omega, by rw [hd']; exact e4⟩

/-- The last node without shortest path along the line leaves the line. -/
theorem Line.leaves (h : Line A x P m) (hδ : ∀ i, i ≤ m → IsDist A (x i) (x m) (δ i)) {par : Nat → Option Nat} {K : Nat} (hK : K < m)
    (hsub : P K ≠ δ K) (hopt : P (K + 1) = δ (K + 1)) {k : Nat} (hup : Up par A (x m) (x K) (δ K) k) : par (x K) ≠ some (x (K + 1)) := by
  intro hp
  have hne : x K ≠ x m := fun he => by have := h.inj K m (by omega) (Nat.le_refl m) he; omega
  have hdi := hδ K (by omega)
  obtain ⟨p, w, d, k, hd, rfl, h2, h3, h4⟩ := hup.inv hne
  · rw [hp] at h2; simp at h2; subst h2
    have hd1 : IsDist A (x (K + 1)) (x m) d := dist_tail (d := w + d) (by rw [← hd]; exact hdi) (by omega) (by
      rw [Nat.add_sub_cancel]; simpa using Walk.cons h3 (.nil _)) h4.walk
    have hd2 : δ (K + 1) = d := (hδ (K + 1) (by omega)).unique hd1
    have h5 := h.least K w hK h3
    have h7 := h.ge hδ (show K ≤ m by omega)
    omega

end

/-! ### The trees -/

/-- what `init` is called with -/
structure Request (n : Nat) (A : Nat → Nat → Nat → Prop) (ranks : List (Option Nat)) (root : Nat) (path : List Nat) : Prop where
  nodup : path.Nodup
  lt : ∀ v ∈ path, v < n
  rmem : root ∈ path
  fin : ∀ v ∈ path, ∃ d, d < INFINITY ∧ IsDist A v root d
  ends : ∃ a b, path.head?.bind (rankOf ranks) = some a ∧ path.getLast?.bind (rankOf ranks) = some b ∧
    ∀ v, v < n → onPath ranks a b v = some (decide (v ∈ path))

/-- The nodes whose tree path is final keep it. -/
def Keeps {σ : Type} (O : Oracle σ) (Good : Nat → σ → Nat → Prop) (root : Nat) (t t' : σ) : Prop :=
  ∀ v, Good root t v → Good root t' v ∧ (v ≠ root → O.parent t' v = O.parent t v)

/-- A source of shortest path trees. `A` are the arcs towards the root. -/
structure OracleOK {σ : Type} (O : Oracle σ) (n : Nat) (A : Nat → Nat → Nat → Prop) (Ready : σ → Prop) (On : Nat → List Nat → σ → Prop)
    (Good : Nat → σ → Nat → Prop) : Prop where
  init : ∀ {t ranks root path}, Ready t → Request n A ranks root path → ∃ t', O.init t ranks root path = some t' ∧ On root path t'
  ready : ∀ {t root path}, On root path t → Ready t
  dist : ∀ {t root path v d}, On root path t → v ∈ path → IsDist A v root d → ∃ t', O.dist t v = some (t', d) ∧ On root path t' ∧ Keeps O Good root t t'
  unpack : ∀ {t root path v}, On root path t → v ∈ path → ∃ t', O.unpack t v = some t' ∧ On root path t' ∧ Keeps O Good root t t' ∧ Good root t' v
  up : ∀ {t root path v}, On root path t → Good root t v → v < n ∧ ∃ d k, k < n ∧ Up (O.parent t) A root v d k ∧ IsDist A v root d
  anc : ∀ {t root path v p}, On root path t → Good root t v → v ≠ root → O.parent t v = some p → Good root t p

theorem Keeps.refl {σ : Type} {O : Oracle σ} {Good : Nat → σ → Nat → Prop} {root : Nat} {t : σ} : Keeps O Good root t t :=
  fun v h => ⟨h, fun _ => rfl⟩

theorem Keeps.trans {σ : Type} {O : Oracle σ} {Good : Nat → σ → Nat → Prop} {root : Nat} {t t' t'' : σ} (h : Keeps O Good root t t')
    (h' : Keeps O Good root t' t'') : Keeps O Good root t t'' := by
  intro v hv
  obtain ⟨h1, h2⟩ := h v hv
  obtain ⟨h3, h4⟩ := h' v h1
  exact ⟨h3, fun hr => by rw [h4 hr, h2 hr]⟩

theorem Up.depth {par : Nat → Option Nat} {A : Nat → Nat → Nat → Prop} {root v d k d' k' : Nat} (h : Up par A root v d k)
    (h' : Up par A root v d' k') : k = k' := by
  induction h generalizing d' k' with
  | nil =>
    cases h' with
    | nil => rfl
    | cons h1 _ _ _ => exact absurd rfl h1
  | cons h1 h2 h3 h4 ih =>
    obtain ⟨p, w, d2, k2, _, rfl, e1, e2, e3⟩ := h'.inv h1
    rw [h2] at e1; simp at e1; subst e1
    rw [ih e3]

/-! ### The cache -/

def Cached (cache : List (Option Nat)) (v : Nat) : Prop := ∃ pp, cache[v]? = some (some pp)

/-- all nodes on the way from `y` up to `v` are cached -/
inductive Chain (par : Nat → Option Nat) (cache : List (Option Nat)) : Nat → Nat → Prop
  | refl {y : Nat} : Cached cache y → Chain par cache y y
  | cons {y z v : Nat} : Cached cache y → par y = some z → Chain par cache z v → Chain par cache y v

section
variable {par : Nat → Option Nat} {cache cache' : List (Option Nat)}

theorem Chain.fst {y v : Nat} (h : Chain par cache y v) : Cached cache y := by cases h <;> assumption

theorem Chain.snd {y v : Nat} (h : Chain par cache y v) : Cached cache v := by
  induction h with
  | refl h => exact h
  | cons _ _ _ ih => exact ih

theorem Chain.append {y z v : Nat} (h : Chain par cache y z) (h' : Chain par cache z v) : Chain par cache y v := by
  induction h with
  | refl _ => exact h'
  | cons h1 h2 _ ih => exact .cons h1 h2 (ih h')

theorem Chain.mono {y v : Nat} (h : Chain par cache y v) (hc : ∀ u, Cached cache u → Cached cache' u) : Chain par cache' y v := by
  induction h with
  | refl h => exact .refl (hc _ h)
  | cons h1 h2 _ ih => exact .cons (hc _ h1) h2 ih

/-- nodes on a chain are not deeper than its start -/
theorem Chain.avoid {A : Nat → Nat → Nat → Prop} {root y v d k u d' k' : Nat} (h : Chain par cache y v) (hu : Up par A root y d k)
    (hv : Up par A root u d' k') (hlt : k < k') (hr : ¬ Cached cache root) (hc : ∀ z, z ≠ u → Cached cache z → Cached cache' z) : Chain par cache' y v := by
  induction h generalizing d k with
  | @refl y h => exact .refl (hc _ (fun he => by subst he; have := hu.depth hv; omega) h)
  | @cons y z v h1 h2 h3 ih =>
    have hy : y ≠ u := fun he => by subst he; have := hu.depth hv; omega
    obtain ⟨p, w, d2, k2, _, rfl, e1, e2, e3⟩ := hu.inv (fun he => hr (he ▸ h1))
    rw [h2] at e1; simp at e1; subst e1
    exact .cons (hc _ hy h1) h2 (ih e3 (by omega))

end

section
variable {σ : Type} {O : Oracle σ} {n : Nat} {A : Nat → Nat → Nat → Prop} {Ready : σ → Prop} {On : Nat → List Nat → σ → Prop}
  {Good : Nat → σ → Nat → Prop}

/-- what the cache contains -/
structure Entries (O : Oracle σ) (n : Nat) (Good : Nat → σ → Nat → Prop) (root : Nat) (on : Nat → Prop) (t : σ) (cache : List (Option Nat)) : Prop where
  len : cache.length = n
  entry : ∀ v pp, cache[v]? = some (some pp) → Good root t v ∧ v ≠ root ∧ PP (O.parent t) on v pp

theorem Entries.root {root : Nat} {on : Nat → Prop} {t : σ} {cache : List (Option Nat)} (h : Entries O n Good root on t cache) : ¬ Cached cache root := by
  rintro ⟨pp, hp⟩; exact (h.entry _ _ hp).2.1 rfl

theorem pathParent_spec (hO : OracleOK O n A Ready On Good) {root : Nat} {path : List Nat} {on : Nat → Prop} (hr : on root) {t : σ} (ht : On root path t)
    {f : Nat → Option Bool} (hf : ∀ v, v < n → ∃ b, f v = some b ∧ (b = true ↔ on v)) (fuel : Nat) {cache : List (Option Nat)} {v d k : Nat}
    (hc : Entries O n Good root on t cache) (hv : Good root t v) (hvr : v ≠ root) (hu : Up (O.parent t) A root v d k) (hk : k ≤ fuel) :
    ∃ cache' pp, pathParent (O.parent t) f fuel cache v = some (cache', pp) ∧ Entries O n Good root on t cache' ∧ cache'[v]? = some (some pp) ∧
      PP (O.parent t) on v pp ∧ (∀ u, Cached cache u → Cached cache' u) ∧ (∀ u, Cached cache' u → Cached cache u ∨ Chain (O.parent t) cache' v u) := by
  induction fuel generalizing cache v d k with
  | zero =>
    obtain ⟨p, w, d2, k2, _, rfl, e1, e2, e3⟩ := hu.inv hvr
    omega
  | succ fuel ih =>
    have hvn := (hO.up ht hv).1
    have hvl : v < cache.length := by rw [hc.len]; exact hvn
    obtain ⟨p, w, d2, k2, _, rfl, e1, e2, e3⟩ := hu.inv hvr
    have hp := hO.anc ht hv hvr e1
    cases hcv : cache[v]? with
    | none => rw [List.getElem?_eq_none_iff] at hcv; omega
    | some o =>
      cases o with
      | some pp =>
        refine ⟨cache, pp, ?_, hc, hcv, (hc.entry _ _ hcv).2.2, fun u h => h, fun u h => .inl h⟩
        rw [pathParent]; simp [hcv]
      | none =>
        have hset : ∀ {c : List (Option Nat)} {pp : Nat}, Entries O n Good root on t c → PP (O.parent t) on v pp →
            Entries O n Good root on t (c.set v (some pp)) := by
          intro c pp hc hpp
          refine ⟨by simp [hc.len], ?_⟩
          intro u q hq
          by_cases huv : u = v
          · subst huv
            rw [List.getElem?_set_self (by rw [hc.len]; exact hvn)] at hq
            simp at hq; subst hq
            exact ⟨hv, hvr, hpp⟩
          · rw [List.getElem?_set_ne (by omega)] at hq
            exact hc.entry _ _ hq
        have hcached : ∀ {c : List (Option Nat)} {pp u : Nat}, Cached c u → Cached (c.set v (some pp)) u := by
          rintro c pp u ⟨q, hq⟩
          by_cases huv : u = v
          · subst huv
            have := (List.getElem?_eq_some_iff.1 hq).1
            exact ⟨pp, by rw [List.getElem?_set_self this]⟩
          · exact ⟨q, by rw [List.getElem?_set_ne (by omega)]; exact hq⟩
        obtain ⟨b, hb, hbo⟩ := hf p (hO.up ht hp).1
        cases b with
        | true =>
          have hpp : PP (O.parent t) on v p := .here e1 (hbo.1 rfl)
          refine ⟨cache.set v (some p), p, ?_, hset hc hpp, by rw [List.getElem?_set_self hvl], hpp, fun u h => hcached h, ?_⟩
          · rw [pathParent]; simp [hcv, e1, hb, upd_of_lt _ hvl]
          · rintro u ⟨q, hq⟩
            by_cases huv : u = v
            · subst huv; exact .inr (.refl ⟨q, hq⟩)
            · rw [List.getElem?_set_ne (by omega)] at hq
              exact .inl ⟨q, hq⟩
        | false =>
          have hnon : ¬ on p := fun h => by have := hbo.2 h; simp at this
          have hpr : p ≠ root := fun h => hnon (h ▸ hr)
          obtain ⟨c', pp, g1, g2, g3, g4, g5, g6⟩ := ih hc hp hpr e3 (by omega)
          have hvl' : v < c'.length := by rw [g2.len]; exact hvn
          have hpp : PP (O.parent t) on v pp := .up e1 hnon g4
          refine ⟨c'.set v (some pp), pp, ?_, hset g2 hpp, by rw [List.getElem?_set_self hvl'], hpp, fun u h => hcached (g5 u h), ?_⟩
          · rw [pathParent]; simp [hcv, e1, hb, g1, upd_of_lt _ hvl']
          · rintro u ⟨q, hq⟩
            have hself : Cached (c'.set v (some pp)) v := ⟨pp, by rw [List.getElem?_set_self hvl']⟩
            by_cases huv : u = v
            · subst huv; exact .inr (.refl hself)
            · rw [List.getElem?_set_ne (by omega)] at hq
              rcases g6 u ⟨q, hq⟩ with h | h
              · exact .inl h
              · exact .inr (.cons hself e1 (h.mono fun u h => hcached h))

/-- one call of `reset_path_parent_cache` -/
theorem resetCache_spec (hO : OracleOK O n A Ready On Good) {root : Nat} {path : List Nat} {on : Nat → Prop} {t : σ} (ht : On root path t)
    (fuel : Nat) {cache : List (Option Nat)} {v d k : Nat} (hc : Entries O n Good root on t cache)
    (hu : Up (O.parent t) A root v d k) (hvn : v < n) (hk : k < fuel) :
    ∃ cache', resetCache (O.parent t) fuel cache v = some cache' ∧ cache'.length = n ∧
      ∀ u, (Chain (O.parent t) cache v u → cache'[u]? = some none) ∧ (¬ Chain (O.parent t) cache v u → cache'[u]? = cache[u]?) := by
  induction fuel generalizing cache v d k with
  | zero => omega
  | succ fuel ih =>
    have hvl : v < cache.length := by rw [hc.len]; exact hvn
    cases hcv : cache[v]? with
    | none => rw [List.getElem?_eq_none_iff] at hcv; omega
    | some o =>
      cases o with
      | none =>
        refine ⟨cache, by rw [resetCache]; simp [hcv], hc.len, fun u => ⟨fun h => ?_, fun _ => rfl⟩⟩
        obtain ⟨q, hq⟩ := h.fst
        rw [hcv] at hq; simp at hq
      | some pp =>
        obtain ⟨h1, h2, _⟩ := hc.entry _ _ hcv
        obtain ⟨p, w, d2, k2, _, rfl, e1, e2, e3⟩ := hu.inv h2
        have hp := hO.anc ht h1 h2 e1
        have hc1 : Entries O n Good root on t (cache.set v none) := by
          refine ⟨by simp [hc.len], ?_⟩
          intro u q hq
          by_cases huv : u = v
          · subst huv; rw [List.getElem?_set_self hvl] at hq; simp at hq
          · rw [List.getElem?_set_ne (by omega)] at hq; exact hc.entry _ _ hq
        obtain ⟨c', g1, g2, g3⟩ := ih hc1 e3 (hO.up ht hp).1 (by omega)
        refine ⟨c', by rw [resetCache]; simp [hcv, upd_of_lt _ hvl, e1, g1], g2, fun u => ?_⟩
        have hback : ∀ z, Cached (cache.set v none) z → Cached cache z := by
          rintro z ⟨q, hq⟩
          by_cases hzv : z = v
          · subst hzv; rw [List.getElem?_set_self hvl] at hq; simp at hq
          · rw [List.getElem?_set_ne (by omega)] at hq; exact ⟨q, hq⟩
        have hforth : ∀ z, z ≠ v → Cached cache z → Cached (cache.set v none) z := by
          rintro z hz ⟨q, hq⟩
          exact ⟨q, by rw [List.getElem?_set_ne (by omega)]; exact hq⟩
        constructor
        · intro h
          by_cases huv : u = v
          · subst huv
            rw [(g3 u).2 (fun hch => by
              obtain ⟨q, hq⟩ := hch.snd
              rw [List.getElem?_set_self hvl] at hq; simp at hq)]
            rw [List.getElem?_set_self hvl]
          · cases h with
            | refl _ => exact absurd rfl huv
            | cons f1 f2 f3 =>
              rw [e1] at f2; simp at f2; subst f2
              exact (g3 u).1 (f3.avoid e3 hu (by omega) hc.root hforth)
        · intro h
          have huv : u ≠ v := fun he => h (by rw [he]; exact .refl ⟨pp, hcv⟩)
          rw [(g3 u).2 (fun hch => h (.cons ⟨pp, hcv⟩ e1 (hch.mono hback))), List.getElem?_set_ne (by omega)]

/-- `reset_path_parent_cache` for all nodes of the path -/
theorem resetAll_spec (hO : OracleOK O n A Ready On Good) {root : Nat} {path : List Nat} {on : Nat → Prop} {t : σ} (ht : On root path t) :
    ∀ (l : List Nat) {cache : List (Option Nat)}, (∀ v ∈ l, v < n) → Entries O n Good root on t cache →
      (∀ u, Cached cache u → ∃ y ∈ l, Chain (O.parent t) cache y u) →
      l.foldlM (resetCache (O.parent t) (n + 1)) cache = some (List.replicate n none) := by
  intro l
  induction l with
  | nil =>
    intro cache _ hc hl
    simp only [List.foldlM_nil, Option.pure_def, Option.some.injEq]
    apply List.ext_getElem?
    intro i
    by_cases hi : i < n
    · rw [List.getElem?_replicate, if_pos hi]
      rw [List.getElem?_eq_getElem (by rw [hc.len]; exact hi)]
      cases hci : cache[i]'(by rw [hc.len]; exact hi) with
      | none => rfl
      | some q =>
        obtain ⟨y, hy, _⟩ := hl i ⟨q, by rw [List.getElem?_eq_getElem (by rw [hc.len]; exact hi), hci]⟩
        simp at hy
    · rw [List.getElem?_eq_none (by rw [hc.len]; omega), List.getElem?_eq_none (by simp; omega)]
  | cons v l ih =>
    intro cache hlt hc hl
    have hvn := hlt v (by simp)
    have hvl : v < cache.length := by rw [hc.len]; exact hvn
    have hstep : ∃ cache', resetCache (O.parent t) (n + 1) cache v = some cache' ∧ cache'.length = n ∧
        ∀ u, (Chain (O.parent t) cache v u → cache'[u]? = some none) ∧ (¬ Chain (O.parent t) cache v u → cache'[u]? = cache[u]?) := by
      cases hcv : cache[v]? with
      | none => rw [List.getElem?_eq_none_iff] at hcv; omega
      | some o =>
        cases o with
        | none =>
          refine ⟨cache, by rw [resetCache]; simp [hcv], hc.len, fun u => ⟨fun h => ?_, fun _ => rfl⟩⟩
          obtain ⟨q, hq⟩ := h.fst
          rw [hcv] at hq; simp at hq
        | some pp =>
          obtain ⟨h1, h2, _⟩ := hc.entry _ _ hcv
          obtain ⟨_, d, k, h3, h4, _⟩ := hO.up ht h1
          exact resetCache_spec hO ht (n + 1) hc h4 hvn (by omega)
    obtain ⟨c', g1, g2, g3⟩ := hstep
    have hsub : ∀ u, Cached c' u → Cached cache u ∧ ¬ Chain (O.parent t) cache v u := by
      rintro u ⟨q, hq⟩
      by_cases hch : Chain (O.parent t) cache v u
      · rw [(g3 u).1 hch] at hq; simp at hq
      · rw [(g3 u).2 hch] at hq; exact ⟨⟨q, hq⟩, hch⟩
    have hkeep : ∀ y u, Chain (O.parent t) cache y u → ¬ Chain (O.parent t) cache v u → Chain (O.parent t) c' y u := by
      intro y u h
      induction h with
      | @refl y h =>
        intro hn
        obtain ⟨q, hq⟩ := h
        exact .refl ⟨q, by rw [(g3 y).2 hn]; exact hq⟩
      | @cons y z u h1 h2 h3 ih' =>
        intro hn
        obtain ⟨q, hq⟩ := h1
        refine .cons ⟨q, ?_⟩ h2 (ih' hn)
        rw [(g3 y).2 (fun hv => hn (hv.append (.cons ⟨q, hq⟩ h2 h3)))]; exact hq
    rw [List.foldlM_cons, g1]
    simp only [Option.bind_eq_bind, Option.bind_some]
    apply ih (fun w hw => hlt w (by simp [hw]))
    · refine ⟨g2, fun u q hq => ?_⟩
      obtain ⟨⟨q', hq'⟩, hn⟩ := hsub u ⟨q, hq⟩
      rw [(g3 u).2 hn] at hq
      exact hc.entry _ _ hq
    · intro u hu
      obtain ⟨h1, hn⟩ := hsub u hu
      obtain ⟨y, hy, hch⟩ := hl u h1
      simp at hy
      rcases hy with rfl | hy
      · exact absurd hch hn
      · exact ⟨y, hy, hkeep y u hch hn⟩

end
end Verif.UBS
