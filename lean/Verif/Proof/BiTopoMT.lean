import Verif.Proof.BiTopo
import Verif.Model.BiTopoMT
set_option linter.unusedSimpArgs false
set_option linter.unusedVariables false
/- The two-thread search: what holds of a thread whatever it reads from the other one. -/
namespace Verif.MT
open Spec DData BiA

theorem get_lt {n : Nat} {d : DData Unit} {a : Abs Unit} (h : Refines n d a) {v l : Nat} (hv : d.dist.get v = some l) : v < n := by
  obtain ⟨dl, h1, h2, h3⟩ := h.dist
  rw [h1.get] at hv
  rw [← h2]; exact (List.getElem?_eq_some_iff.1 hv).1

/-- What is needed of the potential of a thread. -/
structure SideOK (sd : Side) (P : Nat) : Prop where
  pot : ∀ v q, sd.pot v = some q → q ≤ P
  prune : ∀ v l pr lim, l < INFINITY → pr ≤ INFINITY → ∃ b, sd.prune v l pr lim = some b
  stop : ∀ k pr lim, k ≤ INFINITY → pr ≤ INFINITY → ∃ b, sd.stop (some k) pr lim = some b
  empty : ∀ pr lim, sd.stop none pr lim = some true

/-- What a thread reads: `E` are lower bounds of the labels. -/
structure EnvOK (E : Nat → Nat) (env : Env) : Prop where
  head : env.head ≤ INFINITY
  prog : ∀ i, env.prog i ≤ INFINITY
  label : ∀ i v, E v ≤ env.label i v ∧ env.label i v ≤ INFINITY
  tent : ∀ i, env.tent i ≤ INFINITY

/-- The fixed setting of a thread. -/
structure Fix (sd : Side) (n : Nat) (links : Nat → Option (List Link)) (deg : Nat → Option SymDeg) (W L P : Nat) : Prop where
  ok : LinksOK n links
  degs : Topo.DegOK (staticProb n links (fun _ => 0)) deg
  side : SideOK sd P
  weights : ∀ u v w, LArc links u v w → w ≤ W
  lab : n * W ≤ L ∨ INFINITY ≤ L + 1
  keys : L + P ≤ INFINITY

/-- The state of a thread. -/
structure Inv (sd : Side) (n : Nat) (links : Nat → Option (List Link)) (s W : Nat) (E : Nat → Nat) (a : Abs Unit) (st : TState) : Prop where
  src : a.D s = 0
  ub : ∀ x, a.D x ≤ INFINITY
  walk : ∀ x, a.D x < INFINITY → Walk (LArc links) s x (a.D x)
  cnt : ∀ x, a.D x < INFINITY → ∃ S : List Nat, S.Nodup ∧ x ∉ S ∧ (∀ y ∈ S, y < n ∧ a.D y ≤ a.D x) ∧ a.D x ≤ S.length * W
  pinv : PInv n links s a.D a.P
  queue : ∀ x k, a.Q x = some k → x < n ∧ a.D x < INFINITY ∧ k ≤ INFINITY ∧ (x = s ∨ ∀ q, sd.pot x = some q → a.D x + q ≤ k)
  tent : st.tent ≤ INFINITY
  meet : ∀ m, st.meet = some m → m < n ∧ a.D m < INFINITY ∧ E m < INFINITY

/-- the number of rounds a thread can still make is bounded by the labels -/
def rank (n : Nat) (a : Abs Unit) : Nat := ((List.range n).map (fun x => 2 * a.D x + if (a.Q x).isSome then 1 else 0)).sum

theorem sum_lt {l : List Nat} (hl : l.Nodup) {f g : Nat → Nat} {v : Nat} (hv : v ∈ l) (h : ∀ x, x ≠ v → f x = g x) (hlt : f v < g v) :
    (l.map f).sum < (l.map g).sum := by
  induction l with
  | nil => simp at hv
  | cons x l ih =>
    simp only [List.nodup_cons] at hl
    simp only [List.map_cons, List.sum_cons]
    by_cases hx : x = v
    · subst hx
      have : l.map f = l.map g := List.map_congr_left (fun y hy => h y (fun e => hl.1 (e ▸ hy)))
      rw [this]; omega
    · have := ih hl.2 (by simpa [Ne.symm hx] using hv)
      rw [h x hx]; omega

theorem rank_relax {n : Nat} {a a' : Abs Unit} {v : Nat} (hv : v < n) (hD : ∀ x, x ≠ v → a'.D x = a.D x) (hQ : ∀ x, x ≠ v → a'.Q x = a.Q x)
    (hlt : a'.D v < a.D v) : rank n a' < rank n a := by
  apply sum_lt List.nodup_range (v := v) (by simpa using hv)
  · intro x hx; simp only [hD x hx, hQ x hx]
  · split <;> split <;> omega

theorem rank_pop {n : Nat} {a : Abs Unit} {v k : Nat} (hv : v < n) (hk : a.Q v = some k) : rank n { a with Q := fupd a.Q v none } < rank n a := by
  apply sum_lt List.nodup_range (v := v) (by simpa using hv)
  · intro x hx; simp only [fupd_of_ne _ _ hx]
  · simp [hk]

theorem rank_le {n : Nat} {a : Abs Unit} (h : ∀ x, a.D x ≤ INFINITY) : rank n a ≤ n * (2 * INFINITY + 1) := by
  unfold rank
  have : ∀ l : List Nat, (l.map (fun x => 2 * a.D x + if (a.Q x).isSome then 1 else 0)).sum ≤ l.length * (2 * INFINITY + 1) := by
    intro l
    induction l with
    | nil => simp
    | cons x l ih =>
      simp only [List.map_cons, List.sum_cons, List.length_cons, Nat.add_mul l.length 1]
      have := h x
      split <;> omega
  simpa using this (List.range n)

variable {sd : Side} {n : Nat} {links : Nat → Option (List Link)} {deg : Nat → Option SymDeg} {s W L P : Nat} {E : Nat → Nat} {a : Abs Unit} {st : TState}

theorem nodup_le {l : List Nat} (h : l.Nodup) (hl : ∀ x ∈ l, x < n) : l.length ≤ n := by
  have := (List.Nodup.subperm h (l₂ := List.range n) (fun x hx => by simpa using hl x hx)).length_le
  simpa using this

theorem Inv.small (hi : Inv sd n links s W E a st) (hf : Fix sd n links deg W L P) {x : Nat} (hx : a.D x < INFINITY) : a.D x ≤ L := by
  obtain ⟨S, h1, _, h2, h3⟩ := hi.cnt x hx
  rcases hf.lab with h | h
  · have := Nat.mul_le_mul_right W (nodup_le h1 (fun y hy => (h2 y hy).1))
    omega
  · omega

/-- An improved label. -/
theorem Inv.improve (hi : Inv sd n links s W E a st) (hf : Fix sd n links deg W L P) {x u w : Nat} (harc : LArc links x u w) (hx : a.D x < INFINITY)
    (hun : u < n) (hxn : x < n) (hlt : a.D x + w < a.D u) {st' : TState} {Q' : Nat → Option Nat} (hQ : ∀ y, y ≠ u → Q' y = a.Q y)
    (hQu : ∀ k, Q' u = some k → a.Q u = some k ∨ (k ≤ INFINITY ∧ ∀ q, sd.pot u = some q → a.D x + w + q ≤ k)) (htent : st'.tent ≤ INFINITY)
    (hmeet : ∀ m, st'.meet = some m → st.meet = some m ∨ (m = u ∧ E u < INFINITY)) :
    Inv sd n links s W E ⟨fupd a.D u (a.D x + w), Q', fupd a.P u (x, ())⟩ st' := by
  have hub := hi.ub u
  have hus : u ≠ s := by rintro rfl; have := hi.src; omega
  have hux : u ≠ x := by rintro rfl; omega
  have hle : ∀ y, fupd a.D u (a.D x + w) y ≤ a.D y := by
    intro y
    by_cases hy : y = u
    · subst hy; simp; omega
    · rw [fupd_of_ne _ _ hy]; exact Nat.le_refl _
  constructor
  · simp only; rw [fupd_of_ne _ _ (Ne.symm hus)]; exact hi.src
  · intro y; exact Nat.le_trans (hle y) (hi.ub y)
  · intro y hy
    simp only at hy ⊢
    by_cases hyu : y = u
    · subst hyu; simp only [fupd_same]; exact (hi.walk x hx).snoc harc
    · rw [fupd_of_ne _ _ hyu] at hy ⊢; exact hi.walk y hy
  · intro y hy
    simp only at hy ⊢
    by_cases hyu : y = u
    · subst hyu
      obtain ⟨S, h1, h2, h3, h4⟩ := hi.cnt x hx
      refine ⟨x :: S, List.nodup_cons.2 ⟨h2, h1⟩, ?_, ?_, ?_⟩
      · simp only [List.mem_cons, not_or]
        exact ⟨hux, fun h => by have := (h3 y h).2; omega⟩
      · intro z hz
        have := hle z
        simp only [fupd_same]
        simp only [List.mem_cons] at hz
        rcases hz with rfl | hz
        · exact ⟨hxn, by omega⟩
        · have := h3 z hz; exact ⟨this.1, by omega⟩
      · have := hf.weights x y w harc
        simp only [fupd_same, List.length_cons, Nat.succ_mul]; omega
    · rw [fupd_of_ne _ _ hyu] at hy ⊢
      obtain ⟨S, h1, h2, h3, h4⟩ := hi.cnt y hy
      exact ⟨S, h1, h2, fun z hz => ⟨(h3 z hz).1, Nat.le_trans (hle z) (h3 z hz).2⟩, h4⟩
  · exact hi.pinv.upd hi.src hun hx harc hlt
  · intro y k hk
    simp only at hk ⊢
    by_cases hyu : y = u
    · subst hyu
      simp only [fupd_same]
      rcases hQu k hk with h | ⟨h1, h2⟩
      · obtain ⟨g1, g2, g3, g4⟩ := hi.queue y k h
        refine ⟨g1, by omega, g3, g4.imp id (fun h q hq => ?_)⟩
        have := h q hq; omega
      · exact ⟨hun, by omega, h1, .inr h2⟩
    · rw [hQ y hyu] at hk
      rw [fupd_of_ne _ _ hyu]; exact hi.queue y k hk
  · exact htent
  · intro m hm
    simp only
    rcases hmeet m hm with h | ⟨rfl, h⟩
    · obtain ⟨g1, g2, g3⟩ := hi.meet m h
      exact ⟨g1, Nat.lt_of_le_of_lt (hle m) g2, g3⟩
    · exact ⟨hun, by simp; omega, h⟩

/-- The events of a round. -/
theorem events (hf : Fix sd n links deg W L P) {cap : Nat} {env : Env} (henv : EnvOK E env) {u0 R : Nat} {a0 : Abs Unit} (hu0 : a0.D u0 < INFINITY) :
    Topo.Events (staticProb n links (fun _ => 0)) ⟨true, true⟩ deg (cl sd cap env) u0
      (fun _ _ a st => Inv sd n links s W E a st ∧ (∀ x, a.D x ≤ a0.D x) ∧ rank n a ≤ R) := by
  have himp : ∀ (a : Abs Unit) (st : TState) (u l : Nat), Inv sd n links s W E a st → l < INFINITY → ∃ st' ok, (cl sd cap env).imp st u l = some (st', ok) ∧
      st'.tent ≤ INFINITY ∧ ∀ m, st'.meet = some m → st.meet = some m ∨ (m = u ∧ E u < INFINITY) := by
    intro a st u l hi hl
    obtain ⟨b, hb⟩ := hf.side.prune u l (env.prog st.clock) st.stop hl (henv.prog _)
    have h1 := henv.label st.clock u
    have h2 : add32 l (env.label st.clock u) = some (l + env.label st.clock u) := add32_of_lt (by simp only [INFINITY, U32] at *; omega)
    have h3 := hi.tent
    cases b with
    | true => exact ⟨{ st with clock := st.clock + 1 }, false, by simp only [cl, hb, Option.bind_eq_bind, Option.bind_some, if_true]; rfl, h3, fun m hm => .inl hm⟩
    | false =>
      refine ⟨_, _, by simp only [cl, hb, h2, Option.bind_eq_bind, Option.bind_some]; rfl, ?_, ?_⟩
      · simp only; omega
      · intro m hm
        simp only at hm
        split at hm
        · rename_i hgt
          simp only [Option.some.injEq] at hm
          exact .inr ⟨hm.symm, by omega⟩
        · exact .inl hm
  have hstep : ∀ (a : Abs Unit) (st st' : TState) (x : Nat) (b : Link) (pend : Nat → Link → Prop) (Q' : Nat → Option Nat),
      (Inv sd n links s W E a st ∧ (∀ x, a.D x ≤ a0.D x) ∧ rank n a ≤ R) →
      Topo.Better (staticProb n links (fun _ => 0)) pend a x b → (∀ y, y ≠ b.node → Q' y = a.Q y) →
      (∀ k, Q' b.node = some k → a.Q b.node = some k ∨ (k ≤ INFINITY ∧ ∀ q, sd.pot b.node = some q → a.D x + b.weight + q ≤ k)) → st'.tent ≤ INFINITY →
      (∀ m, st'.meet = some m → st.meet = some m ∨ (m = b.node ∧ E b.node < INFINITY)) →
      let a' := Topo.relaxed (staticProb n links (fun _ => 0)) a x b Q'
      Inv sd n links s W E a' st' ∧ (∀ x, a'.D x ≤ a0.D x) ∧ rank n a' ≤ R := by
    rintro a st st' x ⟨u, w⟩ pend Q' ⟨hi, hle, hR⟩ hb hQ hQu ht hm
    obtain ⟨ls, hls, hmem⟩ := hb.arc
    have harc : LArc links x u w := ⟨ls, hls, hmem⟩
    have hlt : a.D x + w < a.D u := hb.lt
    have hun : u < n := hf.ok.heads x ls _ hls hmem
    refine ⟨hi.improve hf harc hb.xD hun hb.xn hlt hQ hQu ht hm, ?_, ?_⟩
    · intro y
      by_cases hy : y = u
      · subst hy
        have := hle y
        have h2 : (Topo.relaxed (staticProb n links (fun _ => 0)) a x ⟨y, w⟩ Q').D y = a.D x + w := fupd_same ..
        omega
      · have h2 : (Topo.relaxed (staticProb n links (fun _ => 0)) a x ⟨u, w⟩ Q').D y = a.D y := fupd_of_ne _ _ hy
        rw [h2]; exact hle y
    · have := rank_relax (n := n) (a := a) (a' := Topo.relaxed (staticProb n links (fun _ => 0)) a x ⟨u, w⟩ Q') hun (fun y hy => fupd_of_ne _ _ hy) hQ
        (by have h2 : (Topo.relaxed (staticProb n links (fun _ => 0)) a x ⟨u, w⟩ Q').D u = a.D x + w := fupd_same ..
            omega)
      omega
  have hlab : ∀ (a : Abs Unit) (st : TState) (x : Nat) (b : Link) (pend : Nat → Link → Prop), Inv sd n links s W E a st →
      Topo.Better (staticProb n links (fun _ => 0)) pend a x b → a.D x + b.weight < INFINITY := by
    intro a st x b pend hi hb
    have := hi.ub b.node
    have hlt : a.D x + b.weight < a.D b.node := hb.lt
    omega
  constructor
  · rintro h pend a c ⟨hi, _, _⟩; exact hi.ub
  · rintro h pend a c ⟨hi, hle, _⟩; exact Nat.lt_of_le_of_lt (hle u0) hu0
  · rintro h pend a c hi _; exact hi
  · rintro h pend pend' a c x b hi _ _ _ _ _ _; exact hi
  · rintro h pend pend' a c x b hi hb _ _
    exact hstep a c c x b pend a.Q hi hb (fun _ _ => rfl) (fun _ hk => .inl hk) hi.1.tent (fun _ hm => .inl hm)
  · rintro pend a c x b hi hb _ _
    obtain ⟨st', ok, h1, h2, h3⟩ := himp a c b.node _ hi.1 (hlab a c x b pend hi.1 hb)
    exact ⟨st', ok, h1, fun pend' _ => hstep a c st' x b pend a.Q hi hb (fun _ _ => rfl) (fun _ hk => .inl hk) h2 h3⟩
  · rintro h pend a c x b hi hb _
    have hl := hlab a c x b pend hi.1 hb
    obtain ⟨st', ok, h1, h2, h3⟩ := himp a c b.node _ hi.1 hl
    refine ⟨st', ok, h1, fun _ pend' _ => hstep a c st' x b pend a.Q hi hb (fun _ _ => rfl) (fun _ hk => .inl hk) h2 h3, fun _ => ?_⟩
    cases hp : sd.pot b.node with
    | none =>
      refine ⟨st', none, ?_, by simp, fun pend' _ => hstep a c st' x b pend a.Q hi hb (fun _ _ => rfl) (fun _ hk => .inl hk) h2 h3⟩
      have : (cl sd cap env).key st' b.node (a.D x + b.weight) = some (st', none) := by simp [cl, hp]
      exact this
    | some q =>
      have hq := hf.side.pot _ _ hp
      have hnew := hstep a c st' x b pend a.Q hi hb (fun _ _ => rfl) (fun _ hk => .inl hk) h2 h3
      have hD : (Topo.relaxed (staticProb n links (fun _ => 0)) a x b a.Q).D b.node = a.D x + b.weight := fupd_same ..
      have hsm := hnew.1.small hf (x := b.node) (by rw [hD]; exact hl)
      rw [hD] at hsm
      have hadd : add32 q (a.D x + b.weight) = some (q + (a.D x + b.weight)) := add32_of_lt (by have := hf.keys; simp only [INFINITY, U32] at *; omega)
      refine ⟨st', some (q + (a.D x + b.weight)), ?_, ?_, ?_⟩
      · have : (cl sd cap env).key st' b.node (a.D x + b.weight) = some (st', some (q + (a.D x + b.weight))) := by simp [cl, hp, hadd]
        exact this
      · intro κ k hκ hk
        simp only [Option.some.injEq] at hκ
        change a.Q b.node = some k at hk
        rcases (hi.1.queue _ _ hk).2.2.2 with h | h
        · have := hi.1.src; have hlt : a.D x + b.weight < a.D b.node := hb.lt; rw [h] at hlt; omega
        · have := h q hp
          have hlt : a.D x + b.weight < a.D b.node := hb.lt
          omega
      · intro pend' _
        refine hstep a c st' x b pend _ hi hb (fun y hy => fupd_of_ne _ _ hy) (fun k hk => ?_) h2 h3
        have hk' : some (q + (a.D x + b.weight)) = some k := by rw [← hk]; exact (fupd_same ..).symm
        simp only [Option.some.injEq] at hk'
        refine .inr ⟨by have := hf.keys; omega, fun q' hq' => ?_⟩
        rw [hp] at hq'; simp only [Option.some.injEq] at hq'
        omega

/-- What holds of a thread between two rounds; `goal` is the source of the other thread. -/
structure TOK (sd : Side) (n : Nat) (links : Nat → Option (List Link)) (s W goal : Nat) (E : Nat → Nat) (th : Thread) (a : Abs Unit) : Prop where
  ref : Refines n th.d a
  inv : Inv sd n links s W E a th.st
  prog : th.prog ≤ INFINITY
  done : ∀ m, th.done = some (some m) → m < n ∧ a.D m < INFINITY ∧ (m = goal ∨ E m < INFINITY)

/-- One round. -/
theorem step_spec (hf : Fix sd n links deg W L P) {goal cap : Nat} (hgoal : goal < n) {env : Env} (henv : EnvOK E env) {th : Thread} {a : Abs Unit}
    (h : TOK sd n links s W goal E th a) :
    ∃ th' a', step sd n ⟨links, deg⟩ goal cap env th = some th' ∧ TOK sd n links s W goal E th' a' ∧ (∀ x, a'.D x ≤ a.D x) ∧
      (th.done.isSome → th' = th) ∧ (th'.done = none → rank n a' < rank n a) := by
  unfold step
  by_cases hd : th.done.isSome
  · exact ⟨th, a, by simp [hd], h, fun _ => Nat.le_refl _, fun _ => rfl, fun h => by simp [h] at hd⟩
  · have hdn : th.done = none := by simpa using hd
    have hstop : ∃ b, sd.stop th.d.peekKey env.head th.st.stop = some b ∧ (b = false → ∃ v k, th.d.peekKey = some k ∧ a.Q v = some k) := by
      rcases BiD.peekKey_spec h.ref with ⟨h1, _⟩ | ⟨v, k, h1, h2, _⟩
      · exact ⟨true, by rw [h1]; exact hf.side.empty _ _, by simp⟩
      · obtain ⟨b, hb⟩ := hf.side.stop k env.head th.st.stop (h.inv.queue v k h2).2.2.1 henv.head
        exact ⟨b, by rw [h1]; exact hb, fun _ => ⟨v, k, h1, h2⟩⟩
    obtain ⟨b, hb, hb'⟩ := hstop
    simp only [hd, Bool.false_eq_true, if_false, hb, Option.bind_eq_bind, Option.bind_some]
    cases b with
    | true =>
      simp only [if_true]
      cases hm : th.st.meet with
      | some m =>
        refine ⟨_, a, rfl, ⟨h.ref, h.inv, h.prog, ?_⟩, fun _ => Nat.le_refl _, fun h => h.elim, fun h => by simp at h⟩
        intro m' hm'
        simp only [Option.some.injEq] at hm'
        subst hm'
        obtain ⟨g1, g2, g3⟩ := h.inv.meet m hm
        exact ⟨g1, g2, .inr g3⟩
      | none =>
        simp only [h.ref.get hgoal, Option.bind_some]
        refine ⟨_, a, rfl, ⟨h.ref, h.inv, h.prog, ?_⟩, fun _ => Nat.le_refl _, fun h => h.elim, fun h => by simp at h⟩
        intro m' hm'
        simp only [Option.some.injEq] at hm'
        split at hm'
        · rename_i hl
          simp only [Option.some.injEq] at hm'; subst hm'
          exact ⟨hgoal, hl, .inl rfl⟩
        · simp at hm'
    | false =>
      obtain ⟨v0, k0, _, hv0⟩ := hb' rfl
      simp only [Bool.false_eq_true, if_false]
      rcases IHeap.rep_pop h.ref.queue with ⟨h1, h2⟩ | ⟨x, qq, h1, h2, h3, h4⟩
      · have := h2 v0; rw [hv0] at this; simp at this
      · simp only [idx_q, Option.map_eq_some_iff] at h2
        obtain ⟨k, hk, hx⟩ := h2
        obtain ⟨hun, huD, _, _⟩ := h.inv.queue _ _ hk
        obtain ⟨ls, hls⟩ := hf.ok.total x.node hun
        have hr1 : Refines n { th.d with queue := qq } { a with Q := fupd a.Q x.node none } := by
          refine ⟨h.ref.dist, h.ref.default, ?_, h.ref.plen, h.ref.pred⟩
          convert h4 using 1
          funext u
          by_cases hu : u = x.node
          · subst hu; simp [idx_q]
          · simp only [idx_q]; rw [fupd_of_ne _ _ hu, fupd_of_ne _ _ hu]
        have hi1 : Inv sd n links s W E { a with Q := fupd a.Q x.node none } { th.st with clock := 0 } := by
          refine ⟨h.inv.src, h.inv.ub, h.inv.walk, h.inv.cnt, h.inv.pinv, ?_, h.inv.tent, h.inv.meet⟩
          intro y κ hy
          simp only at hy ⊢
          by_cases hyx : y = x.node
          · subst hyx; simp at hy
          · rw [fupd_of_ne _ _ hyx] at hy; exact h.inv.queue y κ hy
        have hE := events (s := s) (cap := cap) (u0 := x.node) (R := rank n { a with Q := fupd a.Q x.node none }) (a0 := a) hf henv huD
        obtain ⟨d', st', a', _, g1, g2, g3, g4, g5⟩ := Topo.fold_ev (staticProb_ok hf.ok (zero_feasible _)) hf.degs hE (N := n) (Nat.le_refl _) hun hls ls
          (fun _ h => h) (d := { th.d with queue := qq }) (c := { th.st with clock := 0 }) (h := false) hr1 ⟨hi1, fun _ => Nat.le_refl _, Nat.le_refl _⟩
        have hset : Topo.settleNext n ⟨true, true⟩ ⟨links, deg⟩ defaultOps (cl sd cap env) th.d { th.st with clock := 0 } = some (some x.node, d', st') := by
          simp only [Topo.settleNext, h1, hls, Option.bind_eq_bind, Option.bind_some]
          have g1' : ls.foldlM (Topo.relaxEdge n ⟨true, true⟩ ⟨links, deg⟩ defaultOps (cl sd cap env) x.node) ({ th.d with queue := qq }, { th.st with clock := 0 }) =
            some (d', st') := g1
          simp [g1']
        have hrank := rank_pop hun hk
        simp only [hset, Option.bind_some]
        by_cases hgo : x.node = goal
        · simp only [hgo, if_true]
          refine ⟨_, a', rfl, ⟨g2, g3, Nat.le_refl _, ?_⟩, g4, fun h => h.elim, fun h => by simp at h⟩
          intro m hm
          simp only [Option.some.injEq] at hm; subst hm
          exact ⟨hgoal, by have := g4 x.node; rw [hgo] at this huD; omega, .inl rfl⟩
        · simp only [hgo, if_false]
          refine ⟨_, a', rfl, ⟨g2, g3, ?_, by simp⟩, g4, fun h => h.elim, fun _ => by omega⟩
          simp only
          rcases BiD.peekKey_spec g2 with ⟨e, _⟩ | ⟨v, κ, e, e', _⟩
          · simp [e]
          · simp only [e, Option.getD_some]; exact (g3.queue v κ e').2.2.1

/-- The start of a thread. -/
theorem start_spec (sd : Side) (n : Nat) (links : Nat → Option (List Link)) (W goal : Nat) (E : Nat → Nat) {d : DData Unit} {a : Abs Unit} (hr : Refines n d a)
    {s : Nat} (hs : s < n) (cap : Nat) :
    ∃ d' a', d.init s 0 = some d' ∧ TOK sd n links s W goal E ⟨d', ⟨INFINITY, cap, none, 0⟩, 0, none⟩ a' := by
  obtain ⟨d', h1, h2⟩ := DData.init_refines hr hs 0
  refine ⟨d', _, h1, h2, ?_, by simp, by simp⟩
  have hs' : ∀ x, x ≠ s → ¬ fupd (fun _ => INFINITY) s 0 x < INFINITY := by intro x hx; rw [fupd_of_ne _ _ hx]; simp
  have hl : ∀ {x}, fupd (fun _ => INFINITY) s 0 x < INFINITY → x = s := fun {x} h => Classical.byContradiction (fun hx => hs' x hx h)
  constructor
  · simp
  · intro x
    by_cases hx : x = s
    · subst hx; simp
    · simp only; rw [fupd_of_ne _ _ hx]; exact Nat.le_refl _
  · intro x hx
    simp only at hx ⊢
    have := hl hx; subst this; simp only [fupd_same]; exact .nil _
  · intro x hx
    simp only at hx ⊢
    have := hl hx; subst this
    exact ⟨[], by simp, by simp, by simp, by simp⟩
  · intro x hx
    have := hl hx; subst this; exact ⟨_, _, .nil⟩
  · intro x k hk
    simp only at hk ⊢
    by_cases hx : x = s
    · subst hx
      simp only [fupd_same, Option.some.injEq] at hk ⊢
      exact ⟨hs, by simp [INFINITY], by omega, .inl trivial⟩
    · rw [fupd_of_ne _ _ hx] at hk; simp at hk
  · simp
  · simp

theorem step_done {sd : Side} {n : Nat} {G : Topo.TGraph Link} {goal cap : Nat} {env : Env} {th th' : Thread} (h : ∃ m, th.done = some m)
    (he : step sd n G goal cap env th = some th') : th' = th := by
  obtain ⟨m, h⟩ := h
  simpa [step, h, eq_comm] using he

/-- A thread that has returned does not change. -/
theorem exec_done1 (J : Job) (sched : List (Bool × Env)) {th th' : Thread × Thread} (h : ∃ m, th.1.done = some m) (he : exec J sched th = some th') :
    ∃ m, th'.1.done = some m := by
  induction sched generalizing th with
  | nil => simp only [exec, Option.some.injEq] at he; subst he; exact h
  | cons x rest ih =>
    obtain ⟨dir, env⟩ := x
    cases dir with
    | true =>
      simp only [exec, Option.bind_eq_bind, Option.bind_eq_some_iff] at he
      obtain ⟨f, h1, h2⟩ := he
      have := step_done h h1
      subst this
      exact ih h h2
    | false =>
      simp only [exec, Option.bind_eq_bind, Option.bind_eq_some_iff] at he
      obtain ⟨f, h1, h2⟩ := he
      exact ih (th := (th.1, f)) h h2

theorem exec_done2 (J : Job) (sched : List (Bool × Env)) {th th' : Thread × Thread} (h : ∃ m, th.2.done = some m) (he : exec J sched th = some th') :
    ∃ m, th'.2.done = some m := by
  induction sched generalizing th with
  | nil => simp only [exec, Option.some.injEq] at he; subst he; exact h
  | cons x rest ih =>
    obtain ⟨dir, env⟩ := x
    cases dir with
    | false =>
      simp only [exec, Option.bind_eq_bind, Option.bind_eq_some_iff] at he
      obtain ⟨f, h1, h2⟩ := he
      have := step_done h h1
      subst this
      exact ih h h2
    | true =>
      simp only [exec, Option.bind_eq_bind, Option.bind_eq_some_iff] at he
      obtain ⟨f, h1, h2⟩ := he
      exact ih (th := (f, th.2)) h h2

/-- How often a thread is scheduled. -/
def turns (b : Bool) (sched : List (Bool × Env)) : Nat := (sched.filter (fun x => x.1 == b)).length

/-- A whole schedule. -/
theorem exec_spec {J : Job} {n : Nat} {fl bl : Nat → Option (List Link)} {degF degB : Nat → Option SymDeg} {W L P : Nat} {Ef Eb : Nat → Nat}
    (hn : J.n = n) (hF : J.F = ⟨fl, degF⟩) (hB : J.B = ⟨bl, degB⟩) (hf : Fix J.f n fl degF W L P) (hb : Fix J.b n bl degB W L P)
    (hsn : J.s < n) (htn : J.t < n) : ∀ (sched : List (Bool × Env)), (∀ x ∈ sched, EnvOK (if x.1 then Ef else Eb) x.2) → ∀ {th : Thread × Thread} {a b : Abs Unit},
    TOK J.f n fl J.s W J.t Ef th.1 a → TOK J.b n bl J.t W J.s Eb th.2 b →
    ∃ th' a' b', exec J sched th = some th' ∧ TOK J.f n fl J.s W J.t Ef th'.1 a' ∧ TOK J.b n bl J.t W J.s Eb th'.2 b' ∧
      (∀ x, a'.D x ≤ a.D x) ∧ (∀ x, b'.D x ≤ b.D x) ∧
      (th'.1.done = none → rank n a' + turns true sched ≤ rank n a) ∧ (th'.2.done = none → rank n b' + turns false sched ≤ rank n b) := by
  intro sched
  induction sched with
  | nil =>
    intro _ th a b ha hb
    exact ⟨th, a, b, rfl, ha, hb, fun _ => Nat.le_refl _, fun _ => Nat.le_refl _, fun _ => by simp [turns], fun _ => by simp [turns]⟩
  | cons x rest ih =>
    rintro henv ⟨tf, tb⟩ a b ha hb'
    obtain ⟨dir, env⟩ := x
    have he := henv (dir, env) (by simp)
    have henv' : ∀ x ∈ rest, EnvOK (if x.1 then Ef else Eb) x.2 := fun x hx => henv x (by simp [hx])
    cases dir with
    | true =>
      obtain ⟨t1, a1, h1, h2, h3, h4, h5⟩ := step_spec (cap := J.cap) hf htn (by simpa using he) ha
      obtain ⟨th', a', b', g1, g2, g3, g4, g5, g6, g7⟩ := ih henv' (th := (t1, tb)) h2 hb'
      refine ⟨th', a', b', ?_, g2, g3, fun x => Nat.le_trans (g4 x) (h3 x), g5, fun h => ?_, fun h => by simpa [turns] using g7 h⟩
      · simp only [exec, hF, hn, h1, Option.bind_eq_bind, Option.bind_some]; exact g1
      · have := g6 h
        have h6 : t1.done = none := by
          cases hd : t1.done with
          | none => rfl
          | some m =>
            exfalso
            obtain ⟨m', e⟩ := exec_done1 J rest (th := (t1, tb)) ⟨m, hd⟩ g1
            rw [e] at h; simp at h
        have := h5 h6
        simp only [turns, beq_self_eq_true, List.filter_cons_of_pos, List.length_cons] at *
        omega
    | false =>
      obtain ⟨t1, b1, h1, h2, h3, h4, h5⟩ := step_spec (cap := J.cap) hb hsn (by simpa using he) hb'
      obtain ⟨th', a', b', g1, g2, g3, g4, g5, g6, g7⟩ := ih henv' (th := (tf, t1)) ha h2
      refine ⟨th', a', b', ?_, g2, g3, g4, fun x => Nat.le_trans (g5 x) (h3 x), fun h => by simpa [turns] using g6 h, fun h => ?_⟩
      · simp only [exec, hB, hn, h1, Option.bind_eq_bind, Option.bind_some]; exact g1
      · have := g7 h
        have h6 : t1.done = none := by
          cases hd : t1.done with
          | none => rfl
          | some m =>
            exfalso
            obtain ⟨m', e⟩ := exec_done2 J rest (th := (tf, t1)) ⟨m, hd⟩ g1
            rw [e] at h; simp at h
        have := h5 h6
        simp only [turns, beq_self_eq_true, List.filter_cons_of_pos, List.length_cons] at *
        omega

end Verif.MT
