import Verif.Proof.SubPathsScan
set_option linter.unusedSimpArgs false
set_option linter.unusedVariables false
/- The loop of `tree_find_minimal_nonshortest`. -/
namespace Verif.UBS
open Spec

/-- the calls of the callback: range, length, distance, result -/
inductive Calls {κ : Type} (cb : κ → Rng → Nat → Nat → Option (κ × Bool)) : κ → List (Rng × Nat × Nat × Bool) → κ → Prop
  | nil (k : κ) : Calls cb k [] k
  | cons {k k' k'' : κ} {r : Rng} {pd sd : Nat} {b : Bool} {l : List (Rng × Nat × Nat × Bool)} :
      cb k r pd sd = some (k', b) → Calls cb k' l k'' → Calls cb k ((r, pd, sd, b) :: l) k''

theorem Calls.append {κ : Type} {cb : κ → Rng → Nat → Nat → Option (κ × Bool)} {k k' k'' : κ} {l l' : List (Rng × Nat × Nat × Bool)}
    (h : Calls cb k l k') (h' : Calls cb k' l' k'') : Calls cb k (l ++ l') k'' := by
  induction h with
  | nil => exact h'
  | cons h1 _ ih => exact .cons h1 (ih h')

/-- A path `p 0, p 1, …` with lengths `D` from its start and distances `dd` between its nodes. -/
structure Whole (n : Nat) (A : Nat → Nat → Nat → Prop) (ranks : List (Option Nat)) (full dists : List Nat) (p D : Nat → Nat) (dd : Nat → Nat → Nat) : Prop where
  get : ∀ i, i < full.length → full[i]? = some (p i)
  getD : ∀ i, i < full.length → dists[i]? = some (D i)
  lt : ∀ i, i < full.length → p i < n
  rank : ∀ i, i < full.length → rankOf ranks (p i) = some i
  other : ∀ v, v < n → ranks[v]? = some none ∨ ∃ i, i < full.length ∧ ranks[v]? = some (some i) ∧ v = p i
  step : ∀ i, i + 1 < full.length → D i ≤ D (i + 1) ∧ A (p i) (p (i + 1)) (D (i + 1) - D i)
  least : ∀ i w, i + 1 < full.length → A (p i) (p (i + 1)) w → D (i + 1) ≤ w + D i
  dist : ∀ i j, i ≤ j → j < full.length → IsDist A (p i) (p j) (dd i j)
  fin : ∀ i, i < full.length → D i < INFINITY

section
variable {n : Nat} {A : Nat → Nat → Nat → Prop} {ranks : List (Option Nat)} {full dists : List Nat} {p D : Nat → Nat} {dd : Nat → Nat → Nat}

theorem Whole.inj (h : Whole n A ranks full dists p D dd) {i j : Nat} (hi : i < full.length) (hj : j < full.length) (he : p i = p j) : i = j := by
  have h1 := h.rank i hi
  have h2 := h.rank j hj
  rw [he, h2] at h1
  simpa using h1.symm

theorem Whole.mono (h : Whole n A ranks full dists p D dd) {i : Nat} : ∀ {j : Nat}, i ≤ j → j < full.length → D i ≤ D j ∧ Walk A (p i) (p j) (D j - D i) := by
  intro j hij
  induction j, hij using Nat.le_induction with
  | base => intro _; exact ⟨Nat.le_refl _, by rw [Nat.sub_self]; exact .nil _⟩
  | succ j hj ih =>
    intro hm
    obtain ⟨h1, h2⟩ := ih (by omega)
    obtain ⟨h3, h4⟩ := h.step j (by omega)
    refine ⟨by omega, ?_⟩
    have := h2.snoc h4
    have e : D j - D i + (D (j + 1) - D j) = D (j + 1) - D i := by omega
    rw [e] at this; exact this

theorem Whole.le (h : Whole n A ranks full dists p D dd) {i j : Nat} (hij : i ≤ j) (hj : j < full.length) : dd i j ≤ D j - D i :=
  (h.dist i j hij hj).2 _ (h.mono hij hj).2

theorem Whole.tri (h : Whole n A ranks full dists p D dd) {i j k : Nat} (hij : i ≤ j) (hjk : j ≤ k) (hk : k < full.length) : dd i k ≤ dd i j + dd j k :=
  (h.dist i k (by omega) hk).2 _ ((h.dist i j hij (by omega)).1.append (h.dist j k hjk hk).1)

theorem slice_eq {l : List Nat} {p : Nat → Nat} (h : ∀ i, i < l.length → l[i]? = some (p i)) {a b : Nat} (hab : a ≤ b) (hb : b ≤ l.length) :
    slice l a b = some ((List.range' a (b - a)).map p) := by
  unfold slice
  rw [if_pos ⟨hab, hb⟩]
  congr 1
  apply List.ext_getElem?
  intro i
  by_cases hi : i < b - a
  · rw [List.getElem?_take_of_lt hi, List.getElem?_drop, h _ (by omega), List.getElem?_map, List.getElem?_range' hi]; simp
  · rw [List.getElem?_eq_none (by simp; omega), List.getElem?_eq_none (by simp; omega)]

theorem windows_map (p : Nat → Nat) : ∀ (a c : Nat), windows ((List.range' a (c + 1)).map p) = (List.range' a c).map (fun i => (p i, p (i + 1))) := by
  intro a c
  unfold windows
  apply List.ext_getElem?
  intro i
  by_cases hi : i < c
  · rw [List.getElem?_eq_getElem (by simp; omega), List.getElem?_map, List.getElem?_range' hi]
    simp [List.getElem_zip, Nat.add_assoc]
  · rw [List.getElem?_eq_none (by simp; omega), List.getElem?_eq_none (by simp; omega)]

theorem windows_rev (p : Nat → Nat) (a c : Nat) : (windows ((List.range' a (c + 1)).map p)).reverse.map Prod.swap =
    (List.range' 0 c).map (fun i => (p (a + c - i), p (a + c - (i + 1)))) := by
  rw [windows_map]
  apply List.ext_getElem?
  intro i
  by_cases hi : i < c
  · rw [List.getElem?_map, List.getElem?_reverse (by simp; omega), List.getElem?_map, List.getElem?_map, List.getElem?_range' hi]
    simp only [List.length_map, List.length_range']
    rw [List.getElem?_range' (by omega)]
    simp only [Option.map_some, Prod.swap]
    rw [show a + 1 * (c - 1 - i) + 1 = a + c - (0 + 1 * i) by omega, show a + 1 * (c - 1 - i) = a + c - (0 + 1 * i + 1) by omega]
  · rw [List.getElem?_eq_none (by simp; omega), List.getElem?_eq_none (by simp; omega)]

theorem mem_range_map {p : Nat → Nat} {a c v : Nat} : v ∈ (List.range' a c).map p ↔ ∃ i, a ≤ i ∧ i < a + c ∧ v = p i := by
  simp only [List.mem_map, List.mem_range'_1]
  constructor
  · rintro ⟨i, ⟨h1, h2⟩, rfl⟩; exact ⟨i, h1, h2, rfl⟩
  · rintro ⟨i, h1, h2, rfl⟩; exact ⟨i, ⟨h1, h2⟩, rfl⟩

theorem Whole.on (h : Whole n A ranks full dists p D dd) {a c : Nat} (hc : a + c < full.length) {v : Nat} (hv : v < n) :
    onPath ranks a (a + c) v = some (decide (v ∈ (List.range' a (c + 1)).map p)) := by
  unfold onPath
  rcases h.other v hv with h1 | ⟨i, h1, h2, h3⟩
  · have : ¬ v ∈ (List.range' a (c + 1)).map p := by
      rw [mem_range_map]
      rintro ⟨i, e1, e2, rfl⟩
      have := h.rank i (by omega)
      simp [rankOf, h1] at this
    simp [h1, this]
  · have : v ∈ (List.range' a (c + 1)).map p ↔ a ≤ i ∧ i ≤ a + c := by
      rw [mem_range_map]
      constructor
      · rintro ⟨j, e1, e2, e3⟩
        rw [h3] at e3
        have := h.inj h1 (by omega) e3
        omega
      · rintro ⟨e1, e2⟩; exact ⟨i, e1, by omega, h3⟩
    simp [h2, this]

theorem Whole.nodup (h : Whole n A ranks full dists p D dd) {a c : Nat} (hc : a + c ≤ full.length) : ((List.range' a c).map p).Nodup := by
  have h1 : (List.range' a c).Nodup := List.nodup_range'
  unfold List.Nodup at *
  rw [List.pairwise_map]
  apply h1.imp_of_mem
  intro i j hi hj hne he
  rw [List.mem_range'_1] at hi hj
  exact hne (h.inj (by omega) (by omega) he)

theorem isDist_rev {A : Nat → Nat → Nat → Prop} {s t d : Nat} : IsDist (Rev A) s t d ↔ IsDist A t s d := by
  have key : ∀ {A : Nat → Nat → Nat → Prop} {s t d : Nat}, Walk A s t d → Walk (Rev A) t s d := by
    intro A s t d h
    induction h with
    | nil => exact .nil _
    | cons ha _ ih => rw [Nat.add_comm]; exact ih.snoc ha
  constructor
  · rintro ⟨h1, h2⟩; exact ⟨key h1, fun d' hd' => h2 d' (key hd')⟩
  · rintro ⟨h1, h2⟩; exact ⟨key h1, fun d' hd' => h2 d' (key hd')⟩

theorem walk_rev {A : Nat → Nat → Nat → Prop} {s t d : Nat} (h : Walk (Rev A) s t d) : Walk A t s d := by
  induction h with
  | nil => exact .nil _
  | cons ha _ ih => rw [Nat.add_comm]; exact ih.snoc ha

/-- both loops get what they ask for -/
theorem Whole.request (h : Whole n A ranks full dists p D dd) {a c : Nat} (hc : a + c < full.length) :
    Request n A ranks (p (a + c)) ((List.range' a (c + 1)).map p) ∧ Request n (Rev A) ranks (p a) ((List.range' a (c + 1)).map p) := by
  have hends : ∃ a' b, ((List.range' a (c + 1)).map p).head?.bind (rankOf ranks) = some a' ∧ ((List.range' a (c + 1)).map p).getLast?.bind (rankOf ranks) = some b ∧
      ∀ v, v < n → onPath ranks a' b v = some (decide (v ∈ (List.range' a (c + 1)).map p)) := by
    refine ⟨a, a + c, ?_, ?_, fun v hv => h.on hc hv⟩
    · simp [List.head?_range', h.rank a (by omega)]
    · simp [List.getLast?_range', h.rank (a + c) (by omega)]
  have hlt : ∀ v ∈ (List.range' a (c + 1)).map p, v < n := by
    intro v hv
    obtain ⟨i, h1, h2, rfl⟩ := mem_range_map.1 hv
    exact h.lt i (by omega)
  constructor
  · refine ⟨h.nodup (by omega), hlt, mem_range_map.2 ⟨a + c, by omega, by omega, rfl⟩, ?_, hends⟩
    intro v hv
    obtain ⟨i, h1, h2, rfl⟩ := mem_range_map.1 hv
    have h3 := h.le (i := i) (j := a + c) (by omega) hc
    have h4 := h.fin (a + c) hc
    exact ⟨_, by omega, h.dist i (a + c) (by omega) hc⟩
  · refine ⟨h.nodup (by omega), hlt, mem_range_map.2 ⟨a, by omega, by omega, rfl⟩, ?_, hends⟩
    intro v hv
    obtain ⟨i, h1, h2, rfl⟩ := mem_range_map.1 hv
    have h3 := h.le (i := a) (j := i) (by omega) (by omega)
    have h4 := h.fin i (by omega)
    exact ⟨_, by omega, isDist_rev.2 (h.dist a i (by omega) (by omega))⟩

/-- the loop over the tree towards the last node -/
theorem Whole.target (h : Whole n A ranks full dists p D dd) {a c : Nat} (hc : a + c < full.length) {pd : Nat → Option Nat}
    (hpd : ∀ i, a ≤ i → i ≤ a + c → pd (p i) = some (D (a + c) - D i)) :
    Setting n A ranks ((List.range' a (c + 1)).map p) a (a + c) pd max (fun i => p (a + i)) (fun i => D (a + c) - D (a + i)) (fun i => a + i)
      (fun i => dd (a + i) (a + c)) c where
  line := by
    refine ⟨fun i j hi hj he => ?_, fun i hi => ?_, fun i w hi hw => ?_, by simp⟩
    · have := h.inj (i := a + i) (j := a + j) (by omega) (by omega) he; omega
    · obtain ⟨h1, h2⟩ := h.step (a + i) (by omega)
      have h3 := (h.mono (i := a + i + 1) (j := a + c) (by omega) hc).1
      refine ⟨by show D (a + c) - D (a + (i + 1)) ≤ D (a + c) - D (a + i); rw [← Nat.add_assoc]; omega, ?_⟩
      show A (p (a + i)) (p (a + (i + 1))) (D (a + c) - D (a + i) - (D (a + c) - D (a + (i + 1))))
      rw [← Nat.add_assoc]
      have : D (a + c) - D (a + i) - (D (a + c) - D (a + i + 1)) = D (a + i + 1) - D (a + i) := by omega
      rw [this]; exact h2
    · have h1 := h.least (a + i) w (by omega) hw
      show D (a + c) - D (a + i) ≤ w + (D (a + c) - D (a + (i + 1)))
      rw [← Nat.add_assoc]; omega
  isDist := fun i hi => h.dist _ _ (by omega) hc
  mem := by
    intro v
    rw [mem_range_map]
    constructor
    · rintro ⟨i, h1, h2, rfl⟩; exact ⟨i - a, by omega, by show p i = p (a + (i - a)); congr 1; omega⟩
    · rintro ⟨i, h1, rfl⟩; exact ⟨a + i, by omega, by omega, rfl⟩
  pathDist := fun i hi => hpd (a + i) (by omega) (by omega)
  rank := fun i hi => h.rank (a + i) (by omega)
  combine := by intro i j hi hj; show max (a + i) (a + j) = a + max i j; omega
  on := fun v hv => h.on hc hv

/-- the loop over the tree from the first node -/
theorem Whole.source (h : Whole n A ranks full dists p D dd) {a c : Nat} (hc : a + c < full.length) {pd : Nat → Option Nat}
    (hpd : ∀ i, a ≤ i → i ≤ a + c → pd (p i) = some (D i - D a)) :
    Setting n (Rev A) ranks ((List.range' a (c + 1)).map p) a (a + c) pd min (fun i => p (a + c - i)) (fun i => D (a + c - i) - D a) (fun i => a + c - i)
      (fun i => dd a (a + c - i)) c where
  line := by
    refine ⟨fun i j hi hj he => ?_, fun i hi => ?_, fun i w hi hw => ?_, by simp⟩
    · have := h.inj (i := a + c - i) (j := a + c - j) (by omega) (by omega) he; omega
    · obtain ⟨h1, h2⟩ := h.step (a + c - (i + 1)) (by omega)
      have h3 := (h.mono (i := a) (j := a + c - (i + 1)) (by omega) (by omega)).1
      have he : a + c - (i + 1) + 1 = a + c - i := by omega
      rw [he] at h1 h2
      refine ⟨by show D (a + c - (i + 1)) - D a ≤ D (a + c - i) - D a; omega, ?_⟩
      show A (p (a + c - (i + 1))) (p (a + c - i)) (D (a + c - i) - D a - (D (a + c - (i + 1)) - D a))
      have : D (a + c - i) - D a - (D (a + c - (i + 1)) - D a) = D (a + c - i) - D (a + c - (i + 1)) := by omega
      rw [this]; exact h2
    · have he : a + c - (i + 1) + 1 = a + c - i := by omega
      have h1 := h.least (a + c - (i + 1)) w (by omega) (by rw [he]; exact hw)
      rw [he] at h1
      show D (a + c - i) - D a ≤ w + (D (a + c - (i + 1)) - D a)
      omega
  isDist := by
    intro i hi
    have he : a + c - c = a := by omega
    show IsDist (Rev A) (p (a + c - i)) (p (a + c - c)) _
    rw [he, isDist_rev]
    exact h.dist _ _ (by omega) (by omega)
  mem := by
    intro v
    rw [mem_range_map]
    constructor
    · rintro ⟨i, h1, h2, rfl⟩; exact ⟨a + c - i, by omega, by show p i = p (a + c - (a + c - i)); congr 1; omega⟩
    · rintro ⟨i, h1, rfl⟩; exact ⟨a + c - i, by omega, by omega, rfl⟩
  pathDist := fun i hi => hpd (a + c - i) (by omega) (by omega)
  rank := fun i hi => h.rank (a + c - i) (by omega)
  combine := by intro i j hi hj; show min (a + c - i) (a + c - j) = a + c - max i j; omega
  on := fun v hv => h.on hc hv

/-- the arguments of a call are a proper subpath, its length and the distance between its ends -/
def Legit (D : Nat → Nat) (dd : Nat → Nat → Nat) (lo hi : Nat) (c : Rng × Nat × Nat × Bool) : Prop :=
  lo ≤ c.1.start ∧ c.1.start < c.1.stop ∧ c.1.stop < hi ∧ c.2.1 = D c.1.stop - D c.1.start ∧ c.2.2.1 = dd c.1.start c.1.stop

theorem tryNodes_spec {σ κ : Type} {O : Oracle σ} {Ready : σ → Prop} {On : Nat → List Nat → σ → Prop} {Good : Nat → σ → Nat → Prop}
    (hO : OracleOK O n A Ready On Good) {cb : κ → Rng → Nat → Nat → Option (κ × Bool)} {root : Nat} {path : List Nat} {rng : Nat → Option Rng}
    {pd : Nat → Option Nat} {base : Nat} {R : Nat → Rng} {X Y : Nat → Nat} {rel : Nat → Nat → Prop} :
    ∀ (is : List Nat), is.Pairwise rel → (∀ i ∈ is, p i ∈ path ∧ pd (p i) = some (base + X i) ∧ IsDist A (p i) root (base + Y i) ∧ rng (p i) = some (R i)) →
      (∀ i ∈ is, ∀ k, ∃ k' b, cb k (R i) (X i) (Y i) = some (k', b)) → ∀ (t : σ) (k : κ), On root path t →
      ∃ t' k' l, tryNodes O cb rng pd base (is.map p) t k = some (t', k') ∧ On root path t' ∧ Calls cb k l k' ∧
        (∀ c ∈ l, ∃ i ∈ is, c.1 = R i ∧ c.2.1 = X i ∧ c.2.2.1 = Y i) ∧
        ∀ i ∈ is, (∃ b, (R i, X i, Y i, b) ∈ l) ∨ ∃ i' ∈ is, rel i' i ∧ (R i', X i', Y i', true) ∈ l := by
  intro is
  induction is with
  | nil => intro _ _ _ t k ht; exact ⟨t, k, [], rfl, ht, .nil k, by simp, by simp⟩
  | cons i is ih =>
    intro hrel hall hcb t k ht
    rw [List.pairwise_cons] at hrel
    obtain ⟨h1, h2, h3, h4⟩ := hall i (by simp)
    obtain ⟨t1, e1, e2, _⟩ := hO.dist ht h1 h3
    obtain ⟨k1, b, e3⟩ := hcb i (by simp) k
    have m1 : minus (base + X i) base = some (X i) := by simp [minus]
    have m2 : minus (base + Y i) base = some (Y i) := by simp [minus]
    rw [List.map_cons, tryNodes]
    simp only [h2, e1, h4, m1, m2, e3, Option.bind_eq_bind, Option.bind_some]
    cases b with
    | true =>
      refine ⟨t1, k1, [(R i, X i, Y i, true)], by simp, e2, .cons e3 (.nil _), ?_, ?_⟩
      · intro c hc; simp at hc; subst hc; exact ⟨i, by simp, rfl, rfl, rfl⟩
      · intro j hj
        simp at hj
        rcases hj with rfl | hj
        · exact .inl ⟨true, by simp⟩
        · exact .inr ⟨i, by simp, hrel.1 j hj, by simp⟩
    | false =>
      obtain ⟨t', k', l, f1, f2, f3, f4, f5⟩ := ih hrel.2 (fun j hj => hall j (by simp [hj])) (fun j hj => hcb j (by simp [hj])) t1 k1 e2
      refine ⟨t', k', (R i, X i, Y i, false) :: l, by simpa using f1, f2, .cons e3 f3, ?_, ?_⟩
      · intro c hc
        simp at hc
        rcases hc with rfl | hc
        · exact ⟨i, by simp, rfl, rfl, rfl⟩
        · obtain ⟨j, hj, h⟩ := f4 c hc; exact ⟨j, by simp [hj], h⟩
      · intro j hj
        simp at hj
        rcases hj with rfl | hj
        · exact .inl ⟨false, by simp⟩
        · rcases f5 j hj with ⟨b, h⟩ | ⟨j', h1, h2, h3⟩
          · exact .inl ⟨b, by simp [h]⟩
          · exact .inr ⟨j', by simp [h1], h2, by simp [h3]⟩

/-- Properties of length and distance that a subpath keeps if a shortest part is cut off. -/
def Monotone (V : Nat → Nat → Prop) : Prop := ∀ pd sd, V pd sd → sd < pd ∧ ∀ x, x ≤ sd → V (pd - x) (sd - x)

/-- what the calls tell about the subpaths within `lo..hi` of which `Q` holds -/
def Complete (D : Nat → Nat) (dd : Nat → Nat → Nat) (lo hi : Nat) (Q : Nat → Nat → Prop) (l : List (Rng × Nat × Nat × Bool)) : Prop :=
  ∀ V, Monotone V → (∀ c ∈ l, c.2.2.2 = true → V c.2.1 c.2.2.1) → ∀ i j, lo ≤ i → i < j → j < hi → Q i j → V (D j - D i) (dd i j) →
    ∃ c ∈ l, i ≤ c.1.start ∧ c.1.stop ≤ j ∧ V c.2.1 c.2.2.1

/-- what both trees together show: `s..t` is the largest part that can contain further subpaths -/
structure Both (D : Nat → Nat) (dd : Nat → Nat → Nat) (lo e s t ssub tsub : Nat) : Prop where
  lo_s : lo ≤ s
  s_t : s < t
  t_e : t ≤ e
  s_ssub : s < ssub
  ssub_t : ssub ≤ t
  tsub_t : tsub < t
  s_tsub : s ≤ tsub
  tgt : ∀ i, lo ≤ i → i ≤ tsub → dd i e = (D e - D t) + dd i t
  tgtOpt : ∀ i, tsub < i → i ≤ e → dd i e = D e - D i
  src : ∀ j, ssub ≤ j → j ≤ e → dd lo j = (D s - D lo) + dd s j
  srcOpt : ∀ j, lo ≤ j → j < ssub → dd lo j = D j - D lo

theorem both_of (h : Whole n A ranks full dists p D dd) {a c : Nat} (hc : a + c < full.length) {Kt Jt Ks Js ts ss : Nat} {td sd : Option Nat}
    (ht : Shown A (fun i => p (a + i)) (fun i => D (a + c) - D (a + i)) (fun i => a + i) (fun i => dd (a + i) (a + c)) c td ts Kt Jt)
    (hs : Shown (Rev A) (fun i => p (a + c - i)) (fun i => D (a + c - i) - D a) (fun i => a + c - i) (fun i => dd a (a + c - i)) c sd ss Ks Js) :
    Both D dd a (a + c) (a + c - Js) (a + Jt) ss ts := by
  have t1 := ht.pos; have t2 := ht.le; have t3 := ht.lt; have t4 := ht.sub
  have s1 := hs.pos; have s2 := hs.le; have s3 := hs.lt; have s4 := hs.sub
  have tsubo : dd a (a + c) ≠ D (a + c) - D a := by have := ht.subopt 0 t1; simp only [Nat.add_zero] at this; omega
  have topt : ∀ i, ts < i → i ≤ a + c → dd i (a + c) = D (a + c) - D i := by
    intro i h1 h2
    have := ht.opt (i - a) (by omega) (by omega)
    rw [show a + (i - a) = i by omega] at this; omega
  have sopt : ∀ j, a ≤ j → j < ss → dd a j = D j - D a := by
    intro j h1 h2
    have := hs.opt (a + c - j) (by omega) (by omega)
    rw [show a + c - (a + c - j) = j by omega] at this; omega
  have twalk : ∀ i, a ≤ i → i ≤ ts → D (a + c) - D (a + Jt) ≤ dd i (a + c) ∧ dd i (a + Jt) ≤ dd i (a + c) - (D (a + c) - D (a + Jt)) := by
    intro i h1 h2
    obtain ⟨e1, e2⟩ := ht.walk (i - a) (by omega)
    rw [show a + (i - a) = i by omega] at e1 e2
    exact ⟨e1, (h.dist i (a + Jt) (by omega) (by omega)).2 _ e2⟩
  have swalk : ∀ j, ss ≤ j → j ≤ a + c → D (a + c - Js) - D a ≤ dd a j ∧ dd (a + c - Js) j ≤ dd a j - (D (a + c - Js) - D a) := by
    intro j h1 h2
    obtain ⟨e1, e2⟩ := hs.walk (a + c - j) (by omega)
    rw [show a + c - (a + c - j) = j by omega] at e1 e2
    exact ⟨e1, (h.dist (a + c - Js) j (by omega) (by omega)).2 _ (walk_rev e2)⟩
  generalize hs' : a + c - Js = s at *
  generalize ht' : a + Jt = t at *
  have hDs := (h.mono (i := a) (j := s) (by omega) (by omega)).1
  have hDs' := (h.mono (i := s) (j := a + c) (by omega) (by omega)).1
  have hDt := (h.mono (i := a) (j := t) (by omega) (by omega)).1
  have hDt' := (h.mono (i := t) (j := a + c) (by omega) (by omega)).1
  have hle := h.le (i := a) (j := a + c) (by omega) hc
  have hs1 := swalk (a + c) (by omega) (by omega)
  have ht1 := twalk a (by omega) (by omega)
  have hsts : s ≤ ts := by
    apply Classical.byContradiction; intro hn
    have := topt s (by omega) (by omega)
    omega
  have hsst : ss ≤ t := by
    apply Classical.byContradiction; intro hn
    have := sopt t (by omega) (by omega)
    omega
  refine ⟨by omega, by omega, by omega, by omega, hsst, by omega, hsts, ?_, topt, ?_, sopt⟩
  · intro i h1 h2
    obtain ⟨e1, e2⟩ := twalk i h1 h2
    have e3 := h.tri (i := i) (j := t) (k := a + c) (by omega) (by omega) hc
    have e4 := h.le (i := t) (j := a + c) (by omega) hc
    omega
  · intro j h1 h2
    obtain ⟨e1, e2⟩ := swalk j h1 h2
    have e3 := h.tri (i := a) (j := s) (k := j) (by omega) (by omega) (by omega)
    have e4 := h.le (i := a) (j := s) (by omega) (by omega)
    omega

/-- all subpaths that are not within the next `path` are covered -/
theorem Both.complete (h : Whole n A ranks full dists p D dd) {lo e s t ssub tsub : Nat} (he : e < full.length) (hb : Both D dd lo e s t ssub tsub)
    {l : List (Rng × Nat × Nat × Bool)}
    (h1 : ∀ j, ssub ≤ j → j ≤ t → (∃ b, (⟨s, j⟩, D j - D s, dd s j, b) ∈ l) ∨ ∃ j', j' < j ∧ (⟨s, j'⟩, D j' - D s, dd s j', true) ∈ l)
    (h2 : ∀ i, s ≤ i → i ≤ tsub → (∃ b, (⟨i, t⟩, D t - D i, dd i t, b) ∈ l) ∨ ∃ i', i < i' ∧ (⟨i', t⟩, D t - D i', dd i' t, true) ∈ l) :
    Complete D dd lo (e + 1) (fun i j => i ≤ s ∨ t ≤ j) l := by
  intro V hV htrue i j hi hij hj hq hv
  obtain ⟨b1, b2, b3, b4, b5, b6, b7, b8, b9, b10, b11⟩ := hb
  have F1 : ∀ i j, lo ≤ i → i < j → j ≤ e → i ≤ s → V (D j - D i) (dd i j) → ssub ≤ j ∧ V (D j - D s) (dd s j) := by
    intro i j hi hij hj his hv
    obtain ⟨hlt, hcut⟩ := hV _ _ hv
    have hDi := (h.mono (i := lo) (j := i) hi (by omega)).1
    have hDis := (h.mono (i := i) (j := s) his (by omega)).1
    have htri := h.tri (i := lo) (j := i) (k := j) hi (by omega) (by omega)
    have hle := h.le (i := lo) (j := i) hi (by omega)
    have hDij := (h.mono (i := i) (j := j) (by omega) (by omega)).1
    have hsj : ssub ≤ j := by
      apply Classical.byContradiction; intro hn
      have := b11 j (by omega) (by omega)
      omega
    have e1 := b10 j hsj hj
    have e2 := h.tri (i := i) (j := s) (k := j) his (by omega) (by omega)
    have e3 := h.le (i := i) (j := s) his (by omega)
    have := hcut (D s - D i) (by omega)
    rw [show D j - D i - (D s - D i) = D j - D s by omega, show dd i j - (D s - D i) = dd s j by omega] at this
    exact ⟨hsj, this⟩
  have F2 : ∀ i j, lo ≤ i → i < j → j ≤ e → t ≤ j → V (D j - D i) (dd i j) → i ≤ tsub ∧ V (D t - D i) (dd i t) := by
    intro i j hi hij hj htj hv
    obtain ⟨hlt, hcut⟩ := hV _ _ hv
    have hDj := (h.mono (i := j) (j := e) hj (by omega)).1
    have hDtj := (h.mono (i := t) (j := j) htj (by omega)).1
    have htri := h.tri (i := i) (j := j) (k := e) (by omega) hj (by omega)
    have hle := h.le (i := j) (j := e) hj (by omega)
    have hDij := (h.mono (i := i) (j := j) (by omega) (by omega)).1
    have hit : i ≤ tsub := by
      apply Classical.byContradiction; intro hn
      have := b9 i (by omega) (by omega)
      omega
    have hDit := (h.mono (i := i) (j := t) (by omega) (by omega)).1
    have e1 := b8 i hi hit
    have e2 := h.tri (i := i) (j := t) (k := j) (by omega) htj (by omega)
    have e3 := h.le (i := t) (j := j) htj (by omega)
    have := hcut (D j - D t) (by omega)
    rw [show D j - D i - (D j - D t) = D t - D i by omega, show dd i j - (D j - D t) = dd i t by omega] at this
    exact ⟨hit, this⟩
  have G1 : ∀ j, ssub ≤ j → j ≤ t → V (D j - D s) (dd s j) → ∃ c ∈ l, s ≤ c.1.start ∧ c.1.stop ≤ j ∧ V c.2.1 c.2.2.1 := by
    intro j hsj hjt hv
    rcases h1 j hsj hjt with ⟨b, hm⟩ | ⟨j', hlt, hm⟩
    · exact ⟨_, hm, Nat.le_refl _, Nat.le_refl _, hv⟩
    · exact ⟨_, hm, Nat.le_refl _, Nat.le_of_lt hlt, htrue _ hm rfl⟩
  by_cases his : i ≤ s
  · obtain ⟨f1, f2⟩ := F1 i j hi hij (by omega) his hv
    by_cases hjt : j ≤ t
    · obtain ⟨c, hc, g1, g2, g3⟩ := G1 j f1 hjt f2
      exact ⟨c, hc, by omega, g2, g3⟩
    · obtain ⟨f3, f4⟩ := F2 s j b1 (by omega) (by omega) (by omega) f2
      obtain ⟨c, hc, g1, g2, g3⟩ := G1 t b5 (Nat.le_refl _) f4
      exact ⟨c, hc, by omega, by omega, g3⟩
  · have htj : t ≤ j := by rcases hq with h | h <;> omega
    obtain ⟨f3, f4⟩ := F2 i j hi hij (by omega) htj hv
    rcases h2 i (by omega) f3 with ⟨b, hm⟩ | ⟨i', hlt, hm⟩
    · exact ⟨_, hm, Nat.le_refl _, htj, f4⟩
    · exact ⟨_, hm, Nat.le_of_lt hlt, htj, htrue _ hm rfl⟩

end
end Verif.UBS
