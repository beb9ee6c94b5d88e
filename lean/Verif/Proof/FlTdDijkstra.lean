import Verif.Spec.FlTdDijkstra
import Verif.Proof.CatchupSearch
set_option linter.unusedSimpArgs false
set_option linter.unusedVariables false
/- Dijkstra on time-dependent graphs over the rationals. -/
namespace Verif.FlTd
open Spec
open Catchup (INF least qset qdel least_spec mem_qset mem_qdel)

theorem fne {α : Type} {f : Nat → α} {i j : Nat} {x : α} (h : j ≠ i) : fupd f i x j = f j := fupd_of_ne f x h

theorem Drive.snoc {R : Network} {u v w : Nat} {a b y : Rat} {l : List (Nat × Rat)} (h : Drive R u a l v b) (h' : R v w b y) :
    Drive R u a (l ++ [(w, y)]) w y := by
  induction h with
  | last u a => exact .step h' (.last _ _)
  | step g _ ih => exact .step g (ih h')

/-- What the search needs of the graph. -/
structure Env (n : Nat) (links : Nat → Option (List (Nat × Nat))) (ev : Nat → Rat → Option Rat) (R : Network) : Prop where
  total : ∀ u, u < n → ∃ ls, links u = some ls
  good : ∀ u ls, links u = some ls → ∀ w e, (w, e) ∈ ls → w < n ∧ ∀ τ, ∃ tt, ev e τ = some tt ∧ 0 ≤ tt ∧ R u w τ (τ + tt)
  net : ∀ u w τ y, R u w τ y → ∃ ls e tt, links u = some ls ∧ (w, e) ∈ ls ∧ ev e τ = some tt ∧ y = τ + tt
  fifo : NoOvertaking R

/-- `D`: the settled nodes, the last one first -/
structure Inv (R : Network) (n src : Nat) (dep : Rat) (s : State) (D : List Nat) : Prop where
  top : ∀ x, s.dist x ≤ INF
  lt : ∀ x, s.dist x < INF → x < n
  sound : ∀ x, s.dist x < INF → Trip R src dep x (s.dist x)
  start : s.dist src ≤ dep
  queue : ∀ x k, (x, k) ∈ s.q ↔ x ∉ D ∧ s.dist x < INF ∧ k = s.dist x
  fin : ∀ v ∈ D, s.dist v < INF
  order : ∀ v ∈ D, ∀ x k, (x, k) ∈ s.q → s.dist v ≤ k
  nodup : D.Nodup
  sorted : D.Pairwise (fun a b => s.dist b ≤ s.dist a)
  par : ∀ x, s.dist x < INF → x ≠ src → s.par x ∈ D ∧ R (s.par x) x (s.dist (s.par x)) (s.dist x)
  back : ∀ A x B, D = A ++ x :: B → x ≠ src → s.par x ∈ B

/-- the roads from these nodes are relaxed -/
def Closed (R : Network) (s : State) (D : List Nat) : Prop := ∀ v ∈ D, ∀ w y, R v w (s.dist v) y → s.dist w ≤ y

theorem trip_le {R : Network} (hR : NoOvertaking R) {u w : Nat} {τ z : Rat} (h : Trip R u τ w z) : τ ≤ z := by
  induction h with
  | here => exact le_refl _
  | there g _ ih => exact le_trans (hR.forward _ _ _ _ g) ih

theorem trip_snoc {R : Network} {u v w : Nat} {a b y : Rat} (h : Trip R u a v b) (h' : R v w b y) : Trip R u a w y := by
  induction h with
  | here => exact .there h' (.here _ _)
  | there g _ ih => exact .there g (ih h')

section
variable {n src : Nat} {dep : Rat} {links : Nat → Option (List (Nat × Nat))} {ev : Nat → Rat → Option Rat} {R : Network}

theorem relaxAll_ok (hE : Env n links ev R) (hsrc : dep < INF) {v : Nat} {D : List Nat} : ∀ (ls : List (Nat × Nat)) (s : State),
    (∀ w e, (w, e) ∈ ls → w < n ∧ ∀ τ, ∃ tt, ev e τ = some tt ∧ 0 ≤ tt ∧ R v w τ (τ + tt)) → Inv R n src dep s (v :: D) →
    ∃ s', relaxAll n ev v ls s = some s' ∧ Inv R n src dep s' (v :: D) ∧ (∀ u ∈ v :: D, s'.dist u = s.dist u) ∧ (∀ x, s'.dist x ≤ s.dist x) ∧
      ∀ w e tt, (w, e) ∈ ls → ev e (s.dist v) = some tt → s'.dist w ≤ s.dist v + tt := by
  intro ls
  induction ls with
  | nil => intro s _ hI; exact ⟨s, rfl, hI, fun _ _ => rfl, fun _ => le_refl _, fun w e tt h => absurd h (by simp)⟩
  | cons p ls ih =>
    obtain ⟨w, e⟩ := p
    intro s hl hI
    obtain ⟨hw, ht⟩ := hl w e (by simp)
    obtain ⟨tt, h1, h2, h3⟩ := ht (s.dist v)
    have hl' : ∀ w e, (w, e) ∈ ls → w < n ∧ ∀ τ, ∃ tt, ev e τ = some tt ∧ 0 ≤ tt ∧ R v w τ (τ + tt) := fun w e h => hl w e (by simp [h])
    simp only [relaxAll, h1, Option.bind_eq_bind, Option.bind_some, if_pos hw]
    by_cases hlt : s.dist v + tt < s.dist w
    · rw [if_pos hlt]
      have hvI : s.dist v < INF := hI.fin v (by simp)
      have hlI : s.dist v + tt < INF := lt_of_lt_of_le hlt (hI.top w)
      have hmax : ∀ u ∈ v :: D, s.dist u ≤ s.dist v := by
        intro u hu
        rcases List.mem_cons.1 hu with rfl | hu
        · exact le_refl _
        · exact (List.pairwise_cons.1 hI.sorted).1 u hu
      have hwD : w ∉ v :: D := fun hu => by
        have := hmax w hu
        exact absurd (lt_of_lt_of_le hlt this) (not_lt.2 (by linarith))
      have hsame : ∀ u ∈ v :: D, fupd s.dist w (s.dist v + tt) u = s.dist u := fun u hu => fne (by rintro rfl; exact hwD hu)
      have hv' := hsame v (by simp)
      have hws : w ≠ src := by
        rintro rfl
        have h4 := trip_le hE.fifo (hI.sound v hvI)
        have := hI.start
        exact absurd (lt_of_lt_of_le hlt this) (not_lt.2 (by linarith))
      have hI' : Inv R n src dep ⟨fupd s.dist w (s.dist v + tt), fupd s.par w v, qset s.q w (s.dist v + tt)⟩ (v :: D) := by
        refine ⟨?_, ?_, ?_, ?_, ?_, ?_, ?_, hI.nodup, ?_, ?_, ?_⟩
        · intro x
          by_cases hx : x = w
          · subst hx; simp only [fupd_same]; exact le_of_lt hlI
          · simp only [fne hx]; exact hI.top x
        · intro x hx
          by_cases hxw : x = w
          · subst hxw; exact hw
          · simp only [fne hxw] at hx; exact hI.lt x hx
        · intro x hx
          by_cases hxw : x = w
          · subst hxw; simp only [fupd_same]; exact trip_snoc (hI.sound v hvI) h3
          · simp only [fne hxw] at hx ⊢; exact hI.sound x hx
        · simp only [fne (Ne.symm hws)]; exact hI.start
        · intro x k
          rw [mem_qset]
          by_cases hxw : x = w
          · subst hxw
            simp only [fupd_same, ne_eq, not_true, and_false, or_false, true_and]
            exact ⟨fun h => ⟨hwD, hlI, h⟩, fun h => h.2.2⟩
          · simp only [fne hxw, hxw, false_and, false_or, ne_eq, not_false_eq_true, and_true]
            exact hI.queue x k
        · intro u hu; simp only [hsame u hu]; exact hI.fin u hu
        · intro u hu x k hx
          simp only [hsame u hu]
          rcases mem_qset.1 hx with ⟨_, rfl⟩ | ⟨hx, _⟩
          · have := hmax u hu; linarith
          · exact hI.order u hu x k hx
        · refine hI.sorted.imp_of_mem ?_
          intro a b ha hb hab
          simp only [hsame a ha, hsame b hb]; exact hab
        · intro x hx hxs
          by_cases hxw : x = w
          · subst hxw
            simp only [fupd_same, hv']
            exact ⟨by simp, h3⟩
          · simp only [fne hxw] at hx ⊢
            obtain ⟨g1, g2⟩ := hI.par x hx hxs
            refine ⟨g1, ?_⟩
            rw [hsame _ g1]; exact g2
        · intro A x B hD hxs
          have hxw : x ≠ w := by rintro rfl; exact hwD (by rw [hD]; simp)
          simp only [fne hxw]
          exact hI.back A x B hD hxs
      obtain ⟨s', g1, g2, g3, g4, g5⟩ := ih _ hl' hI'
      refine ⟨s', g1, g2, fun u hu => (g3 u hu).trans (hsame u hu), fun x => le_trans (g4 x) ?_, ?_⟩
      · by_cases hx : x = w
        · subst hx; simp only [fupd_same]; exact le_of_lt hlt
        · simp only [fne hx]; exact le_refl _
      · intro w' e' tt' hm he
        rcases List.mem_cons.1 hm with heq | hm
        · injection heq with a b; subst a; subst b
          rw [h1] at he; injection he with he; subst he
          have := g4 w'; simp only [fupd_same] at this; exact this
        · have := g5 w' e' tt' hm (by simp only [hv']; exact he)
          simp only [hv'] at this; exact this
    · rw [if_neg hlt]
      obtain ⟨s', g1, g2, g3, g4, g5⟩ := ih _ hl' hI
      refine ⟨s', g1, g2, g3, g4, ?_⟩
      intro w' e' tt' hm he
      rcases List.mem_cons.1 hm with heq | hm
      · injection heq with a b; subst a; subst b
        rw [h1] at he; injection he with he; subst he
        exact le_trans (g4 w') (not_lt.1 hlt)
      · exact g5 w' e' tt' hm he

theorem settle_ok (hE : Env n links ev R) (hsrc : dep < INF) {s : State} {D : List Nat} (hI : Inv R n src dep s D) (hC : Closed R s D) :
    (settle n links ev s = some none ∧ s.q = []) ∨
    ∃ v s', settle n links ev s = some (some (v, s')) ∧ v ∉ D ∧ v < n ∧ Inv R n src dep s' (v :: D) ∧ Closed R s' (v :: D) ∧
      ∀ u ∈ D, s'.dist u = s.dist u := by
  obtain ⟨hn, hs⟩ := least_spec s.q
  unfold settle
  cases hl : least s.q with
  | none => exact .inl ⟨rfl, hn hl⟩
  | some p =>
    obtain ⟨v, k⟩ := p
    obtain ⟨h1, h2⟩ := hs _ hl
    obtain ⟨h3, h4, h5⟩ := (hI.queue v k).1 h1
    simp only at h2
    have hv := hI.lt v h4
    obtain ⟨ls, h6⟩ := hE.total v hv
    have hI' : Inv R n src dep { s with q := qdel s.q v } (v :: D) := by
      refine ⟨hI.top, hI.lt, hI.sound, hI.start, ?_, ?_, ?_, List.nodup_cons.2 ⟨h3, hI.nodup⟩, ?_, ?_, ?_⟩
      · intro x k
        rw [mem_qdel, hI.queue, List.mem_cons, not_or]
        constructor
        · rintro ⟨⟨a, b, c⟩, d⟩; exact ⟨⟨d, a⟩, b, c⟩
        · rintro ⟨⟨d, a⟩, b, c⟩; exact ⟨⟨a, b, c⟩, d⟩
      · intro u hu
        rcases List.mem_cons.1 hu with rfl | hu
        · exact h4
        · exact hI.fin u hu
      · intro u hu x k' hx
        have hx' := (mem_qdel.1 hx).1
        rcases List.mem_cons.1 hu with rfl | hu
        · have := h2 _ hx'; rw [← h5]; exact this
        · exact hI.order u hu x k' hx'
      · refine List.pairwise_cons.2 ⟨fun u hu => ?_, hI.sorted⟩
        have := hI.order u hu v k h1
        rw [← h5]; exact this
      · intro x hx hxs
        obtain ⟨g1, g2⟩ := hI.par x hx hxs
        exact ⟨List.mem_cons_of_mem _ g1, g2⟩
      · intro A x B hD hxs
        cases A with
        | nil => injection hD with a b; subst a; subst b; exact (hI.par v h4 hxs).1
        | cons a A => injection hD with _ b; exact hI.back A x B b hxs
    obtain ⟨s', g1, g2, g3, g4, g5⟩ := relaxAll_ok hE hsrc ls _ (hE.good v ls h6) hI'
    refine .inr ⟨v, s', ?_, h3, hv, g2, ?_, fun u hu => g3 u (List.mem_cons_of_mem _ hu)⟩
    · simp only [h6, Option.bind_eq_bind, Option.bind_some, g1, Option.pure_def]
    · intro u hu w y hr
      rw [g3 u hu] at hr
      rcases List.mem_cons.1 hu with rfl | hu
      · obtain ⟨ls', e, tt, a, b, c, rfl⟩ := hE.net _ _ _ _ hr
        rw [h6] at a; injection a with a; subst a
        exact g5 w e tt b c
      · exact le_trans (g4 w) (hC u hu w y hr)

theorem begin_ok (hs : src < n) (hsrc : dep < INF) (S : State) : ∃ s, begin n S src dep = some s ∧ Inv R n src dep s [] ∧ Closed R s [] := by
  refine ⟨_, if_pos hs, ?_, fun v h => absurd h (by simp)⟩
  have hne : ∀ x, fupd (fun _ => INF) src dep x < INF → x = src := by
    intro x hx
    by_contra h
    rw [fne h] at hx; exact absurd hx (lt_irrefl _)
  refine ⟨?_, ?_, ?_, ?_, ?_, ?_, ?_, List.nodup_nil, List.Pairwise.nil, ?_, ?_⟩
  · intro x
    by_cases h : x = src
    · subst h; simp only [fupd_same]; exact le_of_lt hsrc
    · simp only [fne h]; exact le_refl _
  · intro x hx; rw [hne x hx]; exact hs
  · intro x hx; obtain rfl := hne x hx; simp only [fupd_same]; exact .here _ _
  · simp only [fupd_same]; exact le_refl _
  · intro x k
    simp only [List.mem_singleton, Prod.mk.injEq, List.not_mem_nil, not_false_eq_true, true_and]
    constructor
    · rintro ⟨rfl, rfl⟩; simp only [fupd_same]; exact ⟨hsrc, trivial⟩
    · rintro ⟨a, b⟩; obtain rfl := hne x a; rw [fupd_same] at b; exact ⟨rfl, b⟩
  · intro v h; exact absurd h (by simp)
  · intro v h; exact absurd h (by simp)
  · intro x hx hxs; exact absurd (hne x hx) hxs
  · intro A x B h; exact absurd h (by simp)

/-- No trip beats the distances, except after passing a node of the queue. -/
theorem lower (hE : Env n links ev R) {s : State} {D : List Nat} (hI : Inv R n src dep s D) (hC : Closed R s D) {u w : Nat} {τ z : Rat}
    (h : Trip R u τ w z) : s.dist u ≤ τ → s.dist w ≤ z ∨ ∃ x k, (x, k) ∈ s.q ∧ k ≤ z := by
  induction h with
  | here => exact fun h => .inl h
  | @there u v w τ y z hr h ih =>
    intro hu
    have hz : τ ≤ z := trip_le hE.fifo (.there hr h)
    by_cases hf : s.dist u < INF
    · by_cases hD : u ∈ D
      · obtain ⟨y', h1, h2⟩ := hE.fifo.fifo _ _ _ _ _ hr hu
        exact ih (le_trans (hC u hD v y' h2) h1)
      · exact .inr ⟨u, _, (hI.queue u _).2 ⟨hD, hf, rfl⟩, le_trans hu hz⟩
    · exact .inl (le_trans (hI.top w) (le_trans (not_lt.1 hf) (le_trans hu hz)))

theorem settled_earliest (hE : Env n links ev R) {s : State} {D : List Nat} (hI : Inv R n src dep s D) (hC : Closed R s D) {t : Nat}
    (ht : t ∈ D) : EarliestTrip R src dep t (s.dist t) := by
  refine ⟨hI.sound t (hI.fin t ht), fun y h => ?_⟩
  rcases lower hE hI hC h hI.start with h | ⟨x, k, h1, h2⟩
  · exact h
  · exact le_trans (hI.order t ht x k h1) h2

theorem empty_unreachable (hE : Env n links ev R) {s : State} {D : List Nat} (hI : Inv R n src dep s D) (hC : Closed R s D) (hq : s.q = []) {t : Nat}
    {y : Rat} (h : Trip R src dep t y) (hy : y < INF) : t ∈ D := by
  rcases lower hE hI hC h hI.start with h' | ⟨x, k, h1, h2⟩
  · by_contra hD
    have := (hI.queue t (s.dist t)).2 ⟨hD, lt_of_le_of_lt h' hy, rfl⟩
    rw [hq] at this; exact absurd this (by simp)
  · rw [hq] at h1; exact absurd h1 (by simp)

theorem Inv.len {s : State} {D : List Nat} (hI : Inv R n src dep s D) : D.length ≤ n := by
  have h : D ⊆ List.range n := fun x hx => List.mem_range.2 (hI.lt x (hI.fin x hx))
  have := (List.subperm_of_subset hI.nodup h).length_le
  simpa using this

theorem loop_ok (hE : Env n links ev R) (hsrc : dep < INF) {t : Nat} : ∀ (fuel : Nat) (s : State) (D : List Nat), Inv R n src dep s D → Closed R s D →
    t ∉ D → n + 1 ≤ fuel + D.length → ∃ d s', loop n links ev t fuel s = some (d, s') ∧
      ((d = none ∧ ∀ y, Trip R src dep t y → INF ≤ y) ∨
        ∃ D', d = some (s'.dist t) ∧ Inv R n src dep s' D' ∧ t ∈ D' ∧ EarliestTrip R src dep t (s'.dist t)) := by
  intro fuel
  induction fuel with
  | zero => intro s D hI _ _ hf; have := hI.len; omega
  | succ fuel ih =>
    intro s D hI hC ht hf
    rw [loop]
    rcases settle_ok hE hsrc hI hC with ⟨h1, h2⟩ | ⟨v, s', h1, h2, h3, h4, h5, h6⟩
    · simp only [h1]
      refine ⟨none, s, rfl, .inl ⟨rfl, fun y hy => ?_⟩⟩
      by_contra h
      exact ht (empty_unreachable hE hI hC h2 hy (not_le.1 h))
    · simp only [h1]
      by_cases hv : v = t
      · subst hv
        rw [if_pos rfl]
        exact ⟨_, s', rfl, .inr ⟨_, rfl, h4, by simp, settled_earliest hE h4 h5 (by simp)⟩⟩
      · rw [if_neg hv]
        refine ih s' (v :: D) h4 h5 ?_ (by simp only [List.length_cons]; omega)
        simp only [List.mem_cons, not_or]
        exact ⟨Ne.symm hv, ht⟩

theorem pathLoop_ok (hE : Env n links ev R) (hsrc : dep < INF) {s : State} {D : List Nat} (hI : Inv R n src dep s D) {t : Nat} {z : Rat} :
    ∀ (m : Nat) (A B : List Nat) (x : Nat) (acc : List (Nat × Rat)) (fuel : Nat), D = A ++ x :: B → B.length = m → m + 1 ≤ fuel →
    Drive R x (s.dist x) acc t z → ∃ P, pathLoop n s src fuel x acc = some P ∧ Drive R src dep P t z := by
  intro m
  induction m using Nat.strongRecOn with
  | ind m ih =>
    intro A B x acc fuel hD hm hf hd
    obtain ⟨fuel, rfl⟩ : ∃ k, fuel = k + 1 := ⟨fuel - 1, by omega⟩
    rw [pathLoop]
    by_cases hx : x = src
    · subst hx
      have h1 := hI.start
      have h2 := trip_le hE.fifo (hI.sound x (lt_of_le_of_lt h1 hsrc))
      rw [if_pos rfl]
      have : s.dist x = dep := le_antisymm h1 h2
      rw [this] at hd
      exact ⟨acc, rfl, hd⟩
    · rw [if_neg hx]
      have hp := hI.back A x B hD hx
      have hxD : x ∈ D := by rw [hD]; simp
      obtain ⟨g1, g2⟩ := hI.par x (hI.fin x hxD) hx
      obtain ⟨B1, B2, hB⟩ := List.append_of_mem hp
      simp only [if_pos (hI.lt _ (hI.fin _ g1))]
      refine ih B2.length ?_ (A ++ x :: B1) B2 (s.par x) _ fuel (by rw [hD, hB]; simp) rfl ?_ (.step g2 hd)
      · rw [← hm, hB]; simp; omega
      · rw [hB] at hm; simp at hm; omega

theorem path_ok (hE : Env n links ev R) (hsrc : dep < INF) {s : State} {D : List Nat} (hI : Inv R n src dep s D) {t : Nat} (ht : t ∈ D) {fuel : Nat}
    (hf : n ≤ fuel) : ∃ P, path n s fuel src t = some P ∧ Drive R src dep P t (s.dist t) := by
  obtain ⟨A, B, h⟩ := List.append_of_mem ht
  have hl := hI.len
  rw [path, if_pos (hI.lt t (hI.fin t ht))]
  refine pathLoop_ok hE hsrc hI B.length A B t _ fuel h rfl ?_ (.last _ _)
  rw [h] at hl; simp at hl; omega

/-- the calls for the nodes that follow `i` others -/
def calls : Nat → List (Nat × Rat) → List (Nat × Rat × Nat)
  | _, [] => []
  | i, p :: O => if (i + 1) &&& i = 0 then (p.1, p.2, trailingZeros 64 (i + 1)) :: calls (i + 1) O else calls (i + 1) O

theorem ranksLoop_ok (hE : Env n links ev R) (hsrc : dep < INF) : ∀ (fuel : Nat) (s : State) (D : List Nat), Inv R n src dep s D → Closed R s D →
    n + 1 ≤ fuel + D.length → ∃ O : List (Nat × Rat), ranksLoop n links ev fuel D.length s = some (calls D.length O) ∧
      (∀ p ∈ O, p.1 ∉ D ∧ EarliestTrip R src dep p.1 p.2 ∧ p.2 < INF ∧ ∀ u ∈ D, s.dist u ≤ p.2) ∧ (O.map (·.1)).Nodup ∧ O.Pairwise (fun a b => a.2 ≤ b.2) ∧
      (∀ x y, Trip R src dep x y → y < INF → x ∈ D ∨ x ∈ O.map (·.1)) ∧ D.length + O.length ≤ n := by
  intro fuel
  induction fuel with
  | zero => intro s D hI _ hf; have := hI.len; omega
  | succ fuel ih =>
    intro s D hI hC hf
    rw [ranksLoop]
    rcases settle_ok hE hsrc hI hC with ⟨h1, h2⟩ | ⟨v, s', h1, h2, h3, h4, h5, h6⟩
    · simp only [h1]
      exact ⟨[], rfl, fun p h => absurd h (by simp), List.nodup_nil, List.Pairwise.nil, fun x y hx hy => .inl (empty_unreachable hE hI hC h2 hx hy),
        by simpa using hI.len⟩
    · simp only [h1]
      obtain ⟨O, g1, g2, g3, g4, g5, g6⟩ := ih s' (v :: D) h4 h5 (by simp only [List.length_cons]; omega)
      simp only [List.length_cons] at g1 g6
      refine ⟨(v, s'.dist v) :: O, ?_, ?_, ?_, ?_, ?_, by simp only [List.length_cons]; omega⟩
      · simp only [g1, Option.bind_eq_bind, Option.bind_some, Option.pure_def, calls]
      · intro p hp
        rcases List.mem_cons.1 hp with rfl | hp
        · refine ⟨h2, settled_earliest hE h4 h5 (by simp), h4.fin v (by simp), fun u hu => ?_⟩
          rw [← h6 u hu]; exact (List.pairwise_cons.1 h4.sorted).1 u hu
        · obtain ⟨a, b, c, d⟩ := g2 p hp
          refine ⟨fun h => a (List.mem_cons_of_mem _ h), b, c, fun u hu => ?_⟩
          rw [← h6 u hu]; exact d u (List.mem_cons_of_mem _ hu)
      · rw [List.map_cons, List.nodup_cons]
        refine ⟨fun h => ?_, g3⟩
        obtain ⟨p, a, b⟩ := List.mem_map.1 h
        exact (g2 p a).1 (by rw [b]; simp)
      · refine List.pairwise_cons.2 ⟨fun p hp => (g2 p hp).2.2.2 v (by simp), g4⟩
      · intro x y hx hy
        rcases g5 x y hx hy with h | h
        · rcases List.mem_cons.1 h with rfl | h
          · exact .inr (by simp)
          · exact .inl h
        · exact .inr (by rw [List.map_cons]; exact List.mem_cons_of_mem _ h)

theorem pow_bits {i m : Nat} (h1 : i < 2 ^ m) (h2 : 2 ^ m ≤ 2 * i + 1) : (i + 1) &&& i = 0 ↔ i + 1 = 2 ^ m := by
  constructor
  · intro h
    by_contra hne
    cases m with
    | zero => simp at h1 hne; omega
    | succ m =>
      rw [Nat.pow_succ] at h1 h2 hne
      have hb : ∀ x, 2 ^ m ≤ x → x < 2 ^ m * 2 → x.testBit m = true := by
        intro x a b
        have hp := Nat.two_pow_pos m
        have : x / 2 ^ m = 1 := by
          refine Nat.div_eq_of_lt_le ?_ ?_ <;> omega
        rw [Nat.testBit_eq_decide_div_mod_eq, this]; rfl
      have := congrArg (fun x => x.testBit m) h
      simp only [Nat.testBit_and, Nat.zero_testBit, hb i (by omega) h1, hb (i + 1) (by omega) (by omega)] at this
      exact absurd this (by decide)
  · intro h
    have : i = 2 ^ m - 1 := by omega
    rw [this, Nat.sub_add_cancel (Nat.one_le_two_pow), Nat.and_two_pow_sub_one_eq_mod, Nat.mod_self]

theorem trailing_pow : ∀ (fuel m : Nat), m < fuel → trailingZeros fuel (2 ^ m) = m
  | 0, _, h => absurd h (by omega)
  | fuel + 1, 0, _ => by simp [trailingZeros]
  | fuel + 1, m + 1, h => by
    rw [trailingZeros, if_neg (by rw [Nat.pow_succ]; omega), Nat.pow_succ, Nat.mul_div_cancel _ (by decide), trailing_pow fuel m (by omega)]

theorem calls_get : ∀ (O : List (Nat × Rat)) (i m : Nat), i < 2 ^ m → 2 ^ m ≤ 2 * i + 1 → i + O.length < 2 ^ 63 →
    ∀ (k x : Nat) (y : Rat) (r : Nat), (calls i O)[k]? = some (x, y, r) ↔ r = m + k ∧ O[2 ^ (m + k) - 1 - i]? = some (x, y) := by
  intro O
  induction O with
  | nil => intro i m _ _ _ k x y r; simp [calls]
  | cons p O ih =>
    intro i m h1 h2 h3 k x y r
    simp only [List.length_cons] at h3
    rw [calls]
    by_cases h : (i + 1) &&& i = 0
    · have he := (pow_bits h1 h2).1 h
      rw [if_pos h, he, trailing_pow 64 m (by
        have : (2 : Nat) ^ m < 2 ^ 64 := by have : (2 : Nat) ^ 63 < 2 ^ 64 := by decide
                                            omega
        exact (Nat.pow_lt_pow_iff_right (by decide)).1 this), ← he]
      cases k with
      | zero =>
        have e : 2 ^ (m + 0) - 1 - i = 0 := by rw [Nat.add_zero, ← he]; omega
        rw [e]
        simp only [List.getElem?_cons_zero, Option.some.injEq, Prod.mk.injEq, Nat.add_zero]
        obtain ⟨a, b⟩ := p
        simp only [Prod.mk.injEq]
        constructor
        · rintro ⟨rfl, rfl, rfl⟩; exact ⟨rfl, rfl, rfl⟩
        · rintro ⟨rfl, rfl, rfl⟩; exact ⟨rfl, rfl, rfl⟩
      | succ k =>
        have hk : 2 ^ (m + 1) ≤ 2 ^ (m + (k + 1)) := Nat.pow_le_pow_right (by decide) (by omega)
        rw [Nat.pow_succ] at hk
        have e : 2 ^ (m + (k + 1)) - 1 - i = (2 ^ (m + 1 + k) - 1 - (i + 1)) + 1 := by
          rw [show m + 1 + k = m + (k + 1) by omega]; omega
        rw [e, List.getElem?_cons_succ, List.getElem?_cons_succ, ih (i + 1) (m + 1) (by rw [Nat.pow_succ]; omega) (by rw [Nat.pow_succ]; omega) (by omega),
          show m + 1 + k = m + (k + 1) by omega]
    · have hne : i + 1 ≠ 2 ^ m := fun e => h ((pow_bits h1 h2).2 e)
      have hk : 2 ^ m ≤ 2 ^ (m + k) := Nat.pow_le_pow_right (by decide) (by omega)
      have e : 2 ^ (m + k) - 1 - i = (2 ^ (m + k) - 1 - (i + 1)) + 1 := by omega
      rw [if_neg h, ih (i + 1) m (by omega) (by omega) (by omega), e, List.getElem?_cons_succ]

end
end Verif.FlTd
