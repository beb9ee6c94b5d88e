import Verif.Model.Dijkstra
import Verif.Spec.Graph
import Verif.Proof.Containers
import Verif.Proof.IndexHeap
import Mathlib.Data.List.Perm.Subperm
set_option linter.unusedSimpArgs false
set_option linter.unusedVariables false
/- Correctness of the generic Dijkstra / A* search. -/
namespace Verif
open Spec

theorem idx_q (x : QState) : HeapElem.idx x = x.node := rfl

/-- The setting of a search: graph, operations, the (total) arrival functions of the arcs and the potential. A
potential value of at least `INFINITY` stands for "no potential" (`None`). -/
structure Prob (α β : Type) where
  n : Nat
  links : Nat → Option (List α)
  ops : DOps α β
  lf : α → Nat → Nat
  pi : Nat → Nat

namespace Prob
variable {α β : Type}

/-- arcs with arrival function -/
def F (p : Prob α β) (u v : Nat) (f : Nat → Nat) : Prop :=
  ∃ ls b, p.links u = some ls ∧ b ∈ ls ∧ p.ops.head b = v ∧ f = p.lf b

structure OK (p : Prob α β) : Prop where
  total : ∀ v, v < p.n → ∃ ls, p.links v = some ls
  heads : ∀ v ls b, p.links v = some ls → b ∈ ls → p.ops.head b < p.n
  link : ∀ v ls b l, p.links v = some ls → b ∈ ls → l < INFINITY → p.ops.link l b = some (p.lf b l)
  mono : ∀ v ls b l l', p.links v = some ls → b ∈ ls → l ≤ l' → l' < INFINITY → p.lf b l ≤ p.lf b l'
  ge : ∀ v ls b l, p.links v = some ls → b ∈ ls → l ≤ p.lf b l
  feas : ∀ v ls b l, p.links v = some ls → b ∈ ls → l < INFINITY → p.pi v < INFINITY →
    l + p.pi v ≤ p.lf b l + p.pi (p.ops.head b)

/-- the value used to compare settled nodes: the source is settled first whatever its potential is -/
def lo (p : Prob α β) (s v : Nat) : Nat := if v = s then 0 else p.pi v

/-- arcs the search can use: those of the source and of nodes with a potential -/
def G (p : Prob α β) (s u v : Nat) (f : Nat → Nat) : Prop := p.F u v f ∧ (u = s ∨ p.pi u < INFINITY)

/-- The potential is undefined only at nodes from which `t` cannot be reached before `INFINITY`. -/
def Reach (p : Prob α β) (t : Nat) : Prop :=
  ∀ u a x, TWalk p.F u a t x → x < INFINITY → p.pi u < INFINITY

theorem walkG {p : Prob α β} {s τ t x : Nat} (hre : p.Reach t) (h : TWalk p.F s τ t x) (hx : x < INFINITY) :
    TWalk (p.G s) s τ t x := by
  have : ∀ u y, TWalk p.F s τ u y → TWalk p.F u y t x → TWalk (p.G s) s τ u y := by
    intro u y h1
    induction h1 with
    | nil => intro _; exact .nil
    | snoc h1 ha ih =>
      intro h2
      have h3 := TWalk.cons ha h2
      exact .snoc (ih h3) ⟨ha, .inr (hre _ _ _ h3 hx)⟩
  exact this t x h .nil
end Prob

/-- Abstract state of a search. -/
structure Abs (β : Type) where
  D : Nat → Nat
  Q : Nat → Option Nat
  P : Nat → Nat × β

namespace DData
variable {α β σ : Type}

/-- relation between the data structures and the abstract state -/
structure Refines (n : Nat) (d : DData β) (a : Abs β) : Prop where
  dist : ∃ dl : List Nat, TSVec.Rep d.dist dl ∧ dl.length = n ∧ ∀ v, a.D v = (dl[v]?).getD INFINITY
  default : d.dist.default = INFINITY
  queue : IHeap.Rep n d.queue (fun v => (a.Q v).map (fun k => ⟨k, v⟩))
  plen : d.pred.length = n
  pred : ∀ v, v < n → d.pred[v]? = some (a.P v)

theorem Refines.get {n : Nat} {d : DData β} {a : Abs β} (h : Refines n d a) {v : Nat} (hv : v < n) :
    d.dist.get v = some (a.D v) := by
  obtain ⟨dl, h1, h2, h3⟩ := h.dist
  rw [h1.get, h3]
  rw [List.getElem?_eq_getElem (by omega)]; simp

theorem Refines.get_oob {n : Nat} {d : DData β} {a : Abs β} (h : Refines n d a) {v : Nat} (hv : ¬ v < n) :
    d.dist.get v = none := by
  obtain ⟨dl, h1, h2, h3⟩ := h.dist
  rw [h1.get]
  exact List.getElem?_eq_none (by omega)

theorem Refines.D_oob {n : Nat} {d : DData β} {a : Abs β} (h : Refines n d a) {v : Nat} (hv : ¬ v < n) :
    a.D v = INFINITY := by
  obtain ⟨dl, h1, h2, h3⟩ := h.dist
  rw [h3, List.getElem?_eq_none (by omega)]; rfl

/-- writing a distance -/
theorem Refines.modify {n : Nat} {d : DData β} {a : Abs β} (h : Refines n d a) {v : Nat} (hv : v < n) (f : Nat → Nat) :
    ∃ dist, d.dist.modify v f = some dist ∧ dist.default = INFINITY ∧ dist.get v = some (f (a.D v)) ∧
      ∃ dl : List Nat, TSVec.Rep dist dl ∧ dl.length = n ∧ ∀ u, fupd a.D v (f (a.D v)) u = (dl[u]?).getD INFINITY := by
  obtain ⟨dl, h1, h2, h3⟩ := h.dist
  have hy : dl[v]? = some (a.D v) := by
    rw [h3, List.getElem?_eq_getElem (by omega)]; simp
  obtain ⟨dist, h4, h5, h6⟩ := TSVec.rep_modify h1 f hy
  refine ⟨dist, h4, by rw [h6, h.default], by rw [h5.get]; simp [h2, hv], _, h5, by simp [h2], ?_⟩
  intro u
  by_cases huv : u = v
  · subst huv; simp [h2, hv]
  · rw [fupd_of_ne _ _ huv, h3, List.getElem?_set_ne (by omega)]

theorem refines_new (n : Nat) (b : β) :
    Refines n (DData.new n b) ⟨fun _ => INFINITY, fun _ => none, fun _ => (n, b)⟩ where
  dist := by
    refine ⟨_, TSVec.rep_new INFINITY n, by simp, ?_⟩
    intro v; by_cases hv : v < n <;> simp [List.getElem?_replicate, hv]
  default := rfl
  queue := IHeap.rep_new n
  plen := by simp [DData.new]
  pred := by intro v hv; simp [DData.new, List.getElem?_replicate, hv]

theorem init_refines {n : Nat} {d : DData β} {a : Abs β} (h : Refines n d a) {s : Nat} (hs : s < n) (τ : Nat) :
    ∃ d', d.init s τ = some d' ∧
      Refines n d' ⟨fupd (fun _ => INFINITY) s τ, fupd (fun _ => none) s (some τ), fupd a.P s (s, (a.P s).2)⟩ := by
  obtain ⟨dl, h1, h2, h3⟩ := h.dist
  obtain ⟨q1, hq1, hr1⟩ := IHeap.rep_clear h.queue
  obtain ⟨q2, hq2, hr2⟩ := IHeap.rep_push (x := (⟨τ, s⟩ : QState)) hr1 hs rfl
  have hrs := TSVec.rep_reset h1
  rw [h2, h.default] at hrs
  have hrs' : Refines n (⟨d.dist.reset, d.pred, d.queue⟩ : DData β) ⟨fun _ => INFINITY, a.Q, a.P⟩ :=
    { dist := ⟨_, hrs, by simp, by intro v; by_cases hv : v < n <;> simp [List.getElem?_replicate, hv]⟩
      default := by simp [TSVec.reset, h.default]
      queue := h.queue, plen := h.plen, pred := h.pred }
  obtain ⟨dist, hd1, hd2, hd3, hd4⟩ := hrs'.modify hs (fun _ => τ)
  have hsl : s < d.pred.length := by rw [h.plen]; exact hs
  refine ⟨⟨dist, d.pred.set s (s, (a.P s).2), q2⟩, ?_, ⟨hd4, hd2, ?_, by simp [h.plen], ?_⟩⟩
  · simp only at hd1
    simp only [DData.init, hq1, hq2, hd1, h.pred s hs, Option.bind_eq_bind, Option.bind_some]
    simp [upd_of_lt, hsl]
  · convert hr2 using 1
    funext v
    by_cases hv : v = s
    · subst hv; simp [idx_q]
    · simp only [idx_q]
      rw [fupd_of_ne _ _ hv, fupd_of_ne _ _ hv]; rfl
  · intro v hv
    by_cases hvs : v = s
    · subst hvs; simp [h.plen, hv]
    · rw [List.getElem?_set_ne (by omega), h.pred v hv]
      simp [fupd_of_ne _ _ hvs]

end DData

/-! ### Abstract relaxation -/
section
variable {α β : Type} (p : Prob α β)

/-- abstract effect of relaxing arc `b` of node `v` -/
def arelax (v : Nat) (a : Abs β) (b : α) : Abs β :=
  let linked := p.lf b (a.D v)
  let u := p.ops.head b
  if linked < a.D u then
    ⟨fupd a.D u linked, if p.pi u < INFINITY then fupd a.Q u (some (linked + p.pi u)) else a.Q,
      fupd a.P u (v, p.ops.predLink b)⟩
  else a

/-- Invariant of the search from `s` at time `τ`. `S`: settled nodes, latest first. `pend v b`: arc `b` of settled node
`v` has not been relaxed yet. -/
structure DInv (s τ : Nat) (pend : Nat → α → Prop) (a : Abs β) (S : List Nat) : Prop where
  src : a.D s = τ
  lb : ∀ v, τ ≤ a.D v
  ub : ∀ v, a.D v ≤ INFINITY
  srcMem : s ∈ S
  nodup : S.Nodup
  sett : ∀ v ∈ S, v < p.n ∧ a.D v < INFINITY ∧ a.Q v = none
  queue : ∀ v k, a.Q v = some k → v < p.n ∧ v ∉ S ∧ a.D v < INFINITY ∧ p.pi v < INFINITY ∧ k = a.D v + p.pi v
  reached : ∀ v, v < p.n → a.D v < INFINITY → v ∉ S → p.pi v < INFINITY → a.Q v ≠ none
  ord : ∀ v ∈ S, ∀ u k, a.Q u = some k → a.D v + p.lo s v ≤ k
  sorted : S.Pairwise (fun x y => a.D y + p.lo s y ≤ a.D x + p.lo s x)
  settPi : ∀ v ∈ S, v ≠ s → p.pi v < INFINITY
  relaxed : ∀ v ∈ S, ∀ ls b, p.links v = some ls → b ∈ ls → ¬ pend v b → a.D (p.ops.head b) ≤ p.lf b (a.D v)
  pred : ∀ v, a.D v < INFINITY → v ≠ s → (a.P v).1 ∈ S ∧ ∃ ls b, p.links (a.P v).1 = some ls ∧ b ∈ ls ∧
    p.ops.head b = v ∧ p.ops.predLink b = (a.P v).2 ∧ a.D v = p.lf b (a.D (a.P v).1)
  order : ∀ A v B, S = A ++ v :: B → v ≠ s → (a.P v).1 ∈ B
  walk : ∀ v, a.D v < INFINITY → TWalk p.F s τ v (a.D v)

variable {p}

theorem arelax_inv (hp : p.OK) {s τ v : Nat} {a : Abs β} {B : List Nat} {b : α} {rest ls : List α} {pend' : Nat → α → Prop}
    (hls : p.links v = some ls) (hb : b ∈ ls)
    (hpend' : ∀ x c, ¬ pend' x c → ¬ (x = v ∧ c ∈ rest))
    (hi : DInv p s τ (fun x c => x = v ∧ c ∈ b :: rest) a (v :: B)) :
    DInv p s τ pend' (arelax p v a b) (v :: B) := by
  have hv := hi.sett v (by simp)
  unfold arelax
  simp only
  split
  case isFalse hlt =>
    refine { hi with relaxed := ?_ }
    intro x hx lx c hlx hc hnp
    by_cases hcase : x = v ∧ c = b
    · obtain ⟨rfl, rfl⟩ := hcase; omega
    · apply hi.relaxed x hx lx c hlx hc
      rintro ⟨h1, h2⟩
      simp at h2
      rcases h2 with h2 | h2
      · exact hcase ⟨h1, h2⟩
      · exact hpend' x c hnp ⟨h1, h2⟩
  case isTrue hlt =>
    generalize hu : p.ops.head b = u at *
    generalize hl : p.lf b (a.D v) = l at *
    have hun : u < p.n := hu ▸ hp.heads v ls b hls hb
    have hge := hp.ge v ls b (a.D v) hls hb
    rw [hl] at hge
    have hfe : a.D v + p.lo s v ≤ l + p.pi u := by
      unfold Prob.lo
      split
      · omega
      · rename_i hvs
        have := hp.feas v ls b _ hls hb hv.2.1 (hi.settPi v (by simp) hvs)
        rw [hu, hl] at this; exact this
    have hlinf : l < INFINITY := Nat.lt_of_lt_of_le hlt (hi.ub u)
    -- `u` is not settled
    have hmax : ∀ x ∈ v :: B, a.D x + p.lo s x ≤ a.D v + p.lo s v := by
      intro x hx
      simp at hx
      rcases hx with rfl | hx
      · exact Nat.le_refl _
      · have := hi.sorted
        rw [List.pairwise_cons] at this
        exact this.1 x hx
    have huS : u ∉ v :: B := by
      intro hmem
      have h1 := hmax u hmem
      have h2 := hi.lb v
      have h3 := hi.src
      by_cases hus : u = s
      · subst hus; omega
      · simp only [Prob.lo, hus, if_false] at h1
        simp only [Prob.lo] at hfe
        omega
    have hne : ∀ x ∈ v :: B, x ≠ u := fun x hx h => huS (h ▸ hx)
    have hus : u ≠ s := fun h => huS (h ▸ hi.srcMem)
    have hDS : ∀ x ∈ v :: B, fupd a.D u l x = a.D x := fun x hx => fupd_of_ne _ _ (hne x hx)
    have hQ : ∀ x, x ≠ u → (if p.pi u < INFINITY then fupd a.Q u (some (l + p.pi u)) else a.Q) x = a.Q x := by
      intro x hx; split
      · exact fupd_of_ne _ _ hx
      · rfl
    have hDle : ∀ x, fupd a.D u l x ≤ a.D x := by
      intro x; unfold fupd; split
      · subst_vars; omega
      · exact Nat.le_refl _
    constructor
    · simpa [fupd_of_ne _ _ hus.symm] using hi.src
    · intro x; simp only; unfold fupd; split
      · have := hi.lb v; omega
      · exact hi.lb x
    · intro x; exact Nat.le_trans (hDle x) (hi.ub x)
    · exact hi.srcMem
    · exact hi.nodup
    · intro x hx
      obtain ⟨h1, h2, h3⟩ := hi.sett x hx
      refine ⟨h1, by simp only; rw [hDS x hx]; exact h2, by simp only; rw [hQ x (hne x hx)]; exact h3⟩
    · intro x k hk
      simp only at hk ⊢
      by_cases hxu : x = u
      · subst hxu
        split at hk
        · rename_i hpi
          simp at hk
          exact ⟨hun, huS, by simpa using hlinf, hpi, by simp [hk]⟩
        · rename_i hpi
          have := hi.queue x k hk
          exact absurd this.2.2.2.1 hpi
      · rw [hQ x hxu] at hk
        rw [fupd_of_ne _ _ hxu]
        exact hi.queue x k hk
    · intro x hx hd hxS hpi
      simp only at hd ⊢
      by_cases hxu : x = u
      · subst hxu; simp [hpi]
      · rw [hQ x hxu]; rw [fupd_of_ne _ _ hxu] at hd
        exact hi.reached x hx hd hxS hpi
    · intro x hx y k hk
      simp only at hk ⊢
      rw [hDS x hx]
      by_cases hyu : y = u
      · subst hyu
        split at hk
        · simp at hk; have := hmax x hx; omega
        · exact hi.ord x hx y k hk
      · rw [hQ y hyu] at hk; exact hi.ord x hx y k hk
    · apply hi.sorted.imp_of_mem
      intro x y hx hy h
      simp only
      rw [hDS x hx, hDS y hy]; exact h
    · exact hi.settPi
    · intro x hx lx c hlx hc hnp
      simp only
      rw [hDS x hx]
      by_cases hcase : x = v ∧ c = b
      · obtain ⟨rfl, rfl⟩ := hcase; rw [hu, hl]; simp
      · refine Nat.le_trans (hDle _) ?_
        apply hi.relaxed x hx lx c hlx hc
        rintro ⟨h1, h2⟩
        simp at h2
        rcases h2 with h2 | h2
        · exact hcase ⟨h1, h2⟩
        · exact hpend' x c hnp ⟨h1, h2⟩
    · intro x hd hxs
      simp only at hd ⊢
      by_cases hxu : x = u
      · subst hxu
        simp only [fupd_same]
        refine ⟨by simp, ls, b, hls, hb, hu, rfl, ?_⟩
        rw [hDS v (by simp), hl]
      · rw [fupd_of_ne _ _ hxu] at hd
        rw [fupd_of_ne _ _ hxu, fupd_of_ne _ _ hxu]
        obtain ⟨h1, lx, c, h2, h3, h4, h5, h6⟩ := hi.pred x hd hxs
        exact ⟨h1, lx, c, h2, h3, h4, h5, by rw [hDS _ h1]; exact h6⟩
    · intro A x C hS hxs
      have hx : x ∈ v :: B := by rw [hS]; simp
      simp only
      rw [fupd_of_ne _ _ (hne x hx)]
      exact hi.order A x C hS hxs
    · intro x hd
      simp only at hd ⊢
      by_cases hxu : x = u
      · subst hxu; simp only [fupd_same]
        rw [← hl]
        exact .snoc (hi.walk v hv.2.1) ⟨ls, b, hls, hb, hu, rfl⟩
      · rw [fupd_of_ne _ _ hxu] at hd ⊢
        exact hi.walk x hd

/-- popping a node of minimal key -/
theorem pop_inv (hp : p.OK) {s τ v k : Nat} {a : Abs β} {S : List Nat}
    (hi : DInv p s τ (fun _ _ => False) a S) (hk : a.Q v = some k) (hmin : ∀ u k', a.Q u = some k' → k ≤ k')
    {ls : List α} (hls : p.links v = some ls) :
    DInv p s τ (fun x c => x = v ∧ c ∈ ls) { a with Q := fupd a.Q v none } (v :: S) := by
  obtain ⟨hv, hvS, hvD, hvpi, hvk⟩ := hi.queue v k hk
  have hQ : ∀ u k', fupd a.Q v none u = some k' → u ≠ v ∧ a.Q u = some k' := by
    intro u k' h
    by_cases huv : u = v
    · subst huv; simp at h
    · rw [fupd_of_ne _ _ huv] at h; exact ⟨huv, h⟩
  constructor
  · exact hi.src
  · exact hi.lb
  · exact hi.ub
  · simp [hi.srcMem]
  · simp [hvS, hi.nodup]
  · intro x hx
    simp at hx
    rcases hx with rfl | hx
    · exact ⟨hv, hvD, by simp⟩
    · obtain ⟨h1, h2, h3⟩ := hi.sett x hx
      refine ⟨h1, h2, ?_⟩
      simp only
      rw [fupd_of_ne _ _ (by rintro rfl; exact hvS hx)]; exact h3
  · intro x k' h
    obtain ⟨hne, h⟩ := hQ x k' h
    obtain ⟨h1, h2, h3⟩ := hi.queue x k' h
    exact ⟨h1, by simp [hne, h2], h3⟩
  · intro x hx hd hxS hpi
    simp at hxS
    simp only
    rw [fupd_of_ne _ _ hxS.1]
    exact hi.reached x hx hd hxS.2 hpi
  · intro x hx u k' h
    have h' := (hQ u k' h).2
    simp at hx
    rcases hx with rfl | hx
    · have := hmin u k' h'; simp only [Prob.lo]; split <;> omega
    · exact hi.ord x hx u k' h'
  · rw [List.pairwise_cons]
    refine ⟨?_, hi.sorted⟩
    intro x hx
    have := hi.ord x hx v k hk
    have hvs : v ≠ s := fun h => hvS (h ▸ hi.srcMem)
    simp only [Prob.lo, hvs, if_false] at this ⊢; omega
  · intro x hx hxs
    simp at hx
    rcases hx with rfl | hx
    · exact hvpi
    · exact hi.settPi x hx hxs
  · intro x hx lx c hlx hc hnp
    simp at hx
    rcases hx with rfl | hx
    · rw [hls] at hlx; simp at hlx; subst hlx
      exact absurd ⟨rfl, hc⟩ hnp
    · exact hi.relaxed x hx lx c hlx hc (by simp)
  · intro x hd hxs
    obtain ⟨h1, h2⟩ := hi.pred x hd hxs
    exact ⟨by simp [h1], h2⟩
  · intro A x C hS hxs
    cases A with
    | nil =>
      simp at hS
      obtain ⟨rfl, rfl⟩ := hS
      exact (hi.pred _ hvD hxs).1
    | cons y A =>
      simp at hS
      exact hi.order A x C hS.2 hxs
  · exact hi.walk

/-- the state after popping the source for the first time -/
theorem start_inv {s τ : Nat} {P : Nat → Nat × β} (hs : s < p.n) (hτ : τ < INFINITY) {ls : List α} (hls : p.links s = some ls) :
    DInv p s τ (fun x c => x = s ∧ c ∈ ls) ⟨fupd (fun _ => INFINITY) s τ, fun _ => none, P⟩ [s] := by
  have hne : ∀ v, fupd (fun _ => INFINITY) s τ v < INFINITY → v = s := by
    intro v h
    by_cases hv : v = s
    · exact hv
    · rw [fupd_of_ne _ _ hv] at h; omega
  constructor
  · simp
  · intro v; simp only [fupd]; split <;> omega
  · intro v; simp only [fupd]; split <;> omega
  · simp
  · simp
  · intro v hv; simp at hv; subst hv; simp [hs, hτ]
  · intro v k h; simp at h
  · intro v hv hd hvS; exact absurd (hne v hd) (by simpa using hvS)
  · intro v hv u k h; simp at h
  · simp
  · intro v hv hvs; simp at hv; exact absurd hv hvs
  · intro v hv lx b h1 h2 h3
    simp at hv; subst hv
    rw [hls] at h1; simp at h1; subst h1
    simp [h2] at h3
  · intro v hd hvs; exact absurd (hne v hd) hvs
  · intro A v B hS hvs
    cases A with
    | nil => simp at hS; exact absurd hS.1.symm hvs
    | cons y A => simp at hS
  · intro v hd
    have := hne v hd; subst this
    simp only [fupd_same]; exact .nil

theorem walk_ge (hp : p.OK) {s τ u v x : Nat} (h : TWalk (p.G s) u τ v x) : τ ≤ x := by
  induction h with
  | nil => exact Nat.le_refl _
  | snoc _ h ih =>
    obtain ⟨⟨lx, c, h1, h2, _, rfl⟩, _⟩ := h
    exact Nat.le_trans ih (hp.ge _ lx c _ h1 h2)

/-- Every walk either ends in a settled node with a small enough label or passes a queued node. -/
theorem frontier (hp : p.OK) {s τ : Nat} {a : Abs β} {S : List Nat} (hi : DInv p s τ (fun _ _ => False) a S)
    {v x : Nat} (hw : TWalk (p.G s) s τ v x) (hx : x < INFINITY) (hv : p.pi v < INFINITY) :
    (v ∈ S ∧ a.D v ≤ x) ∨ ∃ y k, a.Q y = some k ∧ k ≤ x + p.pi v := by
  induction hw with
  | nil => left; exact ⟨hi.srcMem, by rw [hi.src]; exact Nat.le_refl _⟩
  | @snoc u v x f hw harc ih =>
    obtain ⟨⟨ls, b, hls, hb, hhead, rfl⟩, hus⟩ := harc
    have hge := hp.ge u ls b x hls hb
    have hstep : u ∈ S → a.D u ≤ x → (v ∈ S ∧ a.D v ≤ p.lf b x) ∨ ∃ y k, a.Q y = some k ∧ k ≤ p.lf b x + p.pi v := by
      intro h1 h2
      have hr := hi.relaxed u h1 ls b hls hb (by simp)
      have hm := hp.mono u ls b _ _ hls hb h2 (by omega)
      rw [hhead] at hr
      have hD : a.D v ≤ p.lf b x := Nat.le_trans hr hm
      by_cases hvS : v ∈ S
      · left; exact ⟨hvS, hD⟩
      · right
        have hvn : v < p.n := hhead ▸ hp.heads u ls b hls hb
        have := hi.reached v hvn (by omega) hvS (by omega)
        cases hq : a.Q v with
        | none => exact absurd hq this
        | some k =>
          obtain ⟨_, _, _, _, hk⟩ := hi.queue v k hq
          exact ⟨v, k, hq, by omega⟩
    rcases hus with rfl | hus
    · refine hstep hi.srcMem ?_
      rw [hi.src]; exact walk_ge hp hw
    · have hfe := hp.feas u ls b x hls hb (by omega) hus
      rw [hhead] at hfe
      rcases ih (by omega) hus with ⟨h1, h2⟩ | ⟨y, k, h1, h2⟩
      · exact hstep h1 h2
      · right; exact ⟨y, k, h1, by omega⟩

/-- The label of a settled node is minimal. -/
theorem settled_min (hp : p.OK) {s τ : Nat} {a : Abs β} {S : List Nat} (hi : DInv p s τ (fun _ _ => False) a S)
    {v x : Nat} (hv : v ∈ S) (hw : TWalk (p.G s) s τ v x) (hx : x < INFINITY) (hpi : p.pi v < INFINITY) : a.D v ≤ x := by
  rcases frontier hp hi hw hx hpi with ⟨_, h⟩ | ⟨y, k, h1, h2⟩
  · exact h
  · have := hi.ord v hv y k h1
    by_cases hvs : v = s
    · have h3 := (hi.queue y k h1).2.2.2.2
      subst hvs
      rw [hi.src]; exact walk_ge hp hw
    · simp only [Prob.lo, hvs, if_false] at this
      omega

end

namespace DData
variable {α β σ : Type} {p : Prob α β}

/-- What the closures must do: return the key given by the potential and keep their own invariant `J`, which may
speak about the tentative distances. -/
def CbOK (p : Prob α β) (s τ : Nat) (cb : σ → Nat → Nat → Option (σ × Option Nat)) (J : σ → (Nat → Nat) → Prop) : Prop :=
  ∀ c D v l, J c D → v < p.n → l < D v → l < INFINITY → TWalk p.F s τ v l →
    ∃ c', cb c v l = some (c', if p.pi v < INFINITY then some (l + p.pi v) else none) ∧ J c' (fupd D v l)

theorem relax_refines' {N : Nat} (hN : p.n ≤ N) (hp : p.OK) {s τ : Nat} {cb : σ → Nat → Nat → Option (σ × Option Nat)}
    {J : σ → (Nat → Nat) → Prop} (hcb : CbOK p s τ cb J) {v : Nat} {a : Abs β} {B : List Nat} {b : α} {ls : List α}
    {pend : Nat → α → Prop} {d : DData β} {c : σ}
    (hls : p.links v = some ls) (hb : b ∈ ls) (hr : Refines N d a) (hi : DInv p s τ pend a (v :: B))
    (hj : J c a.D) :
    ∃ d' c', relax p.ops cb v (d, c) b = some (d', c') ∧ Refines N d' (arelax p v a b) ∧ J c' (arelax p v a b).D := by
  obtain ⟨hvn, hvD, hvQ⟩ := hi.sett v (by simp)
  have hun := hp.heads v ls b hls hb
  have hlink := hp.link v ls b _ hls hb hvD
  obtain ⟨dist, hd1, hd2, hd3, hd4⟩ := hr.modify (Nat.lt_of_lt_of_le hun hN) (fun l => if p.lf b (a.D v) < l then p.lf b (a.D v) else l)
  have hg1 := hr.get (Nat.lt_of_lt_of_le hvn hN)
  have hg2 := hr.get (Nat.lt_of_lt_of_le hun hN)
  unfold arelax
  simp only
  by_cases hlt : p.lf b (a.D v) < a.D (p.ops.head b)
  · simp only [hlt, if_true] at hd3 hd4 ⊢
    have hlinf : p.lf b (a.D v) < INFINITY := Nat.lt_of_lt_of_le hlt (hi.ub _)
    have hw : TWalk p.F s τ (p.ops.head b) (p.lf b (a.D v)) :=
      .snoc (hi.walk v hvD) ⟨ls, b, hls, hb, rfl, rfl⟩
    obtain ⟨c', hc1, hc2⟩ := hcb c a.D (p.ops.head b) _ hj hun hlt hlinf hw
    have hpl : p.ops.head b < d.pred.length := by rw [hr.plen]; exact Nat.lt_of_lt_of_le hun hN
    have hpred : ∀ x, x < N → (d.pred.set (p.ops.head b) (v, p.ops.predLink b))[x]? =
        some (fupd a.P (p.ops.head b) (v, p.ops.predLink b) x) := by
      intro x hx
      by_cases hxu : x = p.ops.head b
      · subst hxu; simp [hr.plen, hx]
      · rw [List.getElem?_set_ne (by omega), hr.pred x hx, fupd_of_ne _ _ hxu]
    have hcont := IHeap.rep_containsIndex hr.queue (Nat.lt_of_lt_of_le hun hN)
    have hmapne : ∀ (m : Nat → Option QState) k x, x ≠ p.ops.head b → m x = (a.Q x).map (fun k => ⟨k, x⟩) →
        (fupd a.Q (p.ops.head b) (some k) x).map (fun k => (⟨k, x⟩ : QState)) = m x := by
      intro m k x hx h; rw [fupd_of_ne _ _ hx, h]
    by_cases hpi : p.pi (p.ops.head b) < INFINITY
    · simp only [hpi, if_true] at hc1 ⊢
      cases hq : a.Q (p.ops.head b) with
      | none =>
        simp only [hq, Option.map_none, Option.isSome_none] at hcont
        obtain ⟨q, hq1, hq2⟩ := IHeap.rep_push (x := (⟨p.lf b (a.D v) + p.pi (p.ops.head b), p.ops.head b⟩ : QState))
          hr.queue (Nat.lt_of_lt_of_le hun hN) (by simp [idx_q, hq])
        refine ⟨⟨dist, d.pred.set (p.ops.head b) (v, p.ops.predLink b), q⟩, c', ?_, ⟨hd4, hd2, ?_, by simp [hr.plen], hpred⟩, hc2⟩
        · simp only [relax, hg1, hlink, hg2, hd1, hd3, hlt, hc1, upd_of_lt _ hpl, hcont, hq1, Option.bind_eq_bind,
            Option.bind_some, if_true]
          simp [hq1]
        · convert hq2 using 1
          funext x
          by_cases hxu : x = p.ops.head b
          · subst hxu; simp [idx_q]
          · simp only [idx_q]; rw [fupd_of_ne _ _ hxu, fupd_of_ne _ _ hxu]
      | some k =>
        obtain ⟨_, _, _, _, hk⟩ := hi.queue _ k hq
        simp only [hq, Option.map_some, Option.isSome_some] at hcont
        obtain ⟨q, hq1, hq2⟩ := IHeap.rep_decreaseKey (x := (⟨p.lf b (a.D v) + p.pi (p.ops.head b), p.ops.head b⟩ : QState))
          (y := ⟨k, p.ops.head b⟩) hr.queue (by simp [idx_q, hq]) (by
            simp only [IHeap.le, HeapElem.lt]; simp; omega)
        refine ⟨⟨dist, d.pred.set (p.ops.head b) (v, p.ops.predLink b), q⟩, c', ?_, ⟨hd4, hd2, ?_, by simp [hr.plen], hpred⟩, hc2⟩
        · simp only [relax, hg1, hlink, hg2, hd1, hd3, hlt, hc1, upd_of_lt _ hpl, hcont, hq1, Option.bind_eq_bind,
            Option.bind_some, if_true]
          simp [hq1]
        · convert hq2 using 1
          funext x
          by_cases hxu : x = p.ops.head b
          · subst hxu; simp [idx_q]
          · simp only [idx_q]; rw [fupd_of_ne _ _ hxu, fupd_of_ne _ _ hxu]
    · simp only [hpi, if_false] at hc1 ⊢
      refine ⟨⟨dist, d.pred.set (p.ops.head b) (v, p.ops.predLink b), d.queue⟩, c', ?_, ⟨hd4, hd2, hr.queue, by simp [hr.plen], hpred⟩, hc2⟩
      simp only [relax, hg1, hlink, hg2, hd1, hd3, hlt, hc1, upd_of_lt _ hpl, Option.bind_eq_bind,
        Option.bind_some, if_true]
      rfl
  · simp only [hlt, if_false] at hd3 hd4 ⊢
    refine ⟨⟨dist, d.pred, d.queue⟩, c, ?_, ⟨?_, hd2, hr.queue, hr.plen, hr.pred⟩, hj⟩
    · simp only [relax, hg1, hlink, hg2, hd1, hlt, Option.bind_eq_bind, Option.bind_some, if_false]
      rfl
    · obtain ⟨dl, h1, h2, h3⟩ := hd4
      refine ⟨dl, h1, h2, ?_⟩
      intro x; rw [← h3]
      by_cases hx : x = p.ops.head b
      · subst hx; simp
      · rw [fupd_of_ne _ _ hx]

theorem fold_refines' {N : Nat} (hN : p.n ≤ N) (hp : p.OK) {s τ : Nat} {cb : σ → Nat → Nat → Option (σ × Option Nat)}
    {J : σ → (Nat → Nat) → Prop} (hcb : CbOK p s τ cb J) {v : Nat} {B : List Nat} {ls : List α}
    (hls : p.links v = some ls) (rest : List α) (hrest : ∀ b ∈ rest, b ∈ ls) :
    ∀ (a : Abs β) (d : DData β) (c : σ), Refines N d a → DInv p s τ (fun x c => x = v ∧ c ∈ rest) a (v :: B) →
      J c a.D →
    ∃ d' c' a', rest.foldlM (relax p.ops cb v) (d, c) = some (d', c') ∧ Refines N d' a' ∧
      DInv p s τ (fun _ _ => False) a' (v :: B) ∧ J c' a'.D ∧ a'.D v = a.D v := by
  induction rest with
  | nil =>
    intro a d c hr hi hj
    refine ⟨d, c, a, rfl, hr, ?_, hj, rfl⟩
    refine { hi with relaxed := ?_ }
    intro x hx lx b h1 h2 _
    exact hi.relaxed x hx lx b h1 h2 (by simp)
  | cons b rest ih =>
    intro a d c hr hi hj
    have hb := hrest b (by simp)
    obtain ⟨d1, c1, h1, h2, h3⟩ := relax_refines' hN hp hcb hls hb hr hi hj
    have hi1 := arelax_inv (pend' := fun x c => x = v ∧ c ∈ rest) hp hls hb (fun _ _ h => h) hi
    obtain ⟨d2, c2, a2, h4, h5, h6, h7, h8⟩ := ih (fun x hx => hrest x (by simp [hx])) _ d1 c1 h2 hi1 h3
    refine ⟨d2, c2, a2, ?_, h5, h6, h7, ?_⟩
    · simp only [List.foldlM_cons, h1, Option.bind_eq_bind, Option.bind_some]; exact h4
    · rw [h8]
      -- the label of `v` does not change
      unfold arelax
      simp only
      split
      · rename_i hlt
        have hge := hp.ge v ls b (a.D v) hls hb
        simp only
        by_cases he : v = p.ops.head b
        · rw [← he] at hlt; omega
        · rw [fupd_of_ne _ _ he]
      · rfl

/-- One step of a running search. -/
theorem settle_spec' {N : Nat} (hN : p.n ≤ N) (hp : p.OK) {s τ : Nat} {cb : σ → Nat → Nat → Option (σ × Option Nat)}
    {J : σ → (Nat → Nat) → Prop} (hcb : CbOK p s τ cb J) {S : List Nat} {a : Abs β} {d : DData β} {c : σ}
    (hr : Refines N d a) (hi : DInv p s τ (fun _ _ => False) a S) (hj : J c a.D) :
    (settleNext p.links p.ops cb d c = some (none, d, c) ∧ ∀ v, a.Q v = none) ∨
    ∃ v k d' c' a', settleNext p.links p.ops cb d c = some (some v, d', c') ∧ Refines N d' a' ∧
      DInv p s τ (fun _ _ => False) a' (v :: S) ∧ J c' a'.D ∧ a'.D v = a.D v ∧
      a.Q v = some k ∧ k = a.D v + p.pi v ∧ v ∉ S ∧ (∀ u k', a.Q u = some k' → k ≤ k') := by
  rcases IHeap.rep_pop hr.queue with ⟨h1, h2⟩ | ⟨x, q, h1, h2, h3, h4⟩
  · left
    refine ⟨by simp [settleNext, h1], ?_⟩
    intro v; have := h2 v; simpa using this
  · right
    simp only [idx_q, Option.map_eq_some_iff] at h2
    obtain ⟨k, hk, hx⟩ := h2
    have hkey : x.key = k := by rw [← hx]
    obtain ⟨hvn, hvS, _, _, hkd⟩ := hi.queue _ k hk
    obtain ⟨ls, hls⟩ := hp.total x.node hvn
    have hmin : ∀ u k', a.Q u = some k' → k ≤ k' := by
      intro u k' hu
      have := h3 u ⟨k', u⟩ (by simp [hu])
      simp only [IHeap.le, HeapElem.lt] at this
      simp at this; omega
    have hi1 := pop_inv hp hi hk hmin hls
    have hr1 : Refines N { d with queue := q } { a with Q := fupd a.Q x.node none } := by
      refine ⟨hr.dist, hr.default, ?_, hr.plen, hr.pred⟩
      convert h4 using 1
      funext u
      by_cases hu : u = x.node
      · subst hu; simp [idx_q]
      · simp only [idx_q]; rw [fupd_of_ne _ _ hu, fupd_of_ne _ _ hu]
    obtain ⟨d', c', a', h5, h6, h7, h8, h9⟩ := fold_refines' hN hp hcb hls ls (fun _ h => h) _ _ c hr1 hi1 hj
    refine ⟨x.node, k, d', c', a', ?_, h6, h7, h8, h9, hk, hkd, hvS, hmin⟩
    simp only [settleNext, h1, hls, Option.bind_eq_bind, Option.bind_some]
    simp [h5]

/-- The first step of a search: the source is settled. -/
theorem start_settle' {N : Nat} (hN : p.n ≤ N) (hp : p.OK) {s τ : Nat} {cb : σ → Nat → Nat → Option (σ × Option Nat)}
    {J : σ → (Nat → Nat) → Prop} (hcb : CbOK p s τ cb J) {P : Nat → Nat × β} {d1 : DData β} {c : σ}
    (hr1 : Refines N d1 ⟨fupd (fun _ => INFINITY) s τ, fupd (fun _ => none) s (some τ), P⟩) (hs : s < p.n)
    (hτ : τ < INFINITY) (hj : J c (fupd (fun _ => INFINITY) s τ)) :
    ∃ d' c' a', settleNext p.links p.ops cb d1 c = some (some s, d', c') ∧ Refines N d' a' ∧
      DInv p s τ (fun _ _ => False) a' [s] ∧ J c' a'.D := by
  obtain ⟨ls, hls⟩ := hp.total s hs
  rcases IHeap.rep_pop hr1.queue with ⟨_, h3⟩ | ⟨x, q, h2, h3, _, h4⟩
  · have := h3 s; simp at this
  · have hxs : x.node = s := by
      apply Classical.byContradiction
      intro hne
      simp only [idx_q] at h3
      rw [fupd_of_ne _ _ hne] at h3
      simp at h3
    have hr2 : Refines N { d1 with queue := q } ⟨fupd (fun _ => INFINITY) s τ, fun _ => none, P⟩ := by
      refine ⟨hr1.dist, hr1.default, ?_, hr1.plen, hr1.pred⟩
      convert h4 using 1
      funext u
      by_cases hu : u = s
      · subst hu; simp [idx_q, hxs]
      · simp only [idx_q, hxs]; rw [fupd_of_ne _ _ hu, fupd_of_ne _ _ hu]
    have hi := start_inv (p := p) (P := P) hs hτ hls
    obtain ⟨d', c', a', h5, h6, h7, h8, h9⟩ := fold_refines' hN hp hcb hls ls (fun _ h => h) _ _ c hr2 hi hj
    refine ⟨d', c', a', ?_, h6, h7, h8⟩
    simp only [settleNext, h2, hxs, hls, Option.bind_eq_bind, Option.bind_some]
    simp [h5]

theorem settle_spec (hp : p.OK) {s τ : Nat} {cb : σ → Nat → Nat → Option (σ × Option Nat)}
    {J : σ → (Nat → Nat) → Prop} (hcb : CbOK p s τ cb J) {S : List Nat} {a : Abs β} {d : DData β} {c : σ}
    (hr : Refines p.n d a) (hi : DInv p s τ (fun _ _ => False) a S) (hj : J c a.D) :
    (settleNext p.links p.ops cb d c = some (none, d, c) ∧ ∀ v, a.Q v = none) ∨
    ∃ v k d' c' a', settleNext p.links p.ops cb d c = some (some v, d', c') ∧ Refines p.n d' a' ∧
      DInv p s τ (fun _ _ => False) a' (v :: S) ∧ J c' a'.D ∧ a'.D v = a.D v ∧
      a.Q v = some k ∧ k = a.D v + p.pi v ∧ v ∉ S ∧ (∀ u k', a.Q u = some k' → k ≤ k') :=
  settle_spec' (Nat.le_refl _) hp hcb hr hi hj

theorem start_settle (hp : p.OK) {s τ : Nat} {cb : σ → Nat → Nat → Option (σ × Option Nat)}
    {J : σ → (Nat → Nat) → Prop} (hcb : CbOK p s τ cb J) {P : Nat → Nat × β} {d1 : DData β} {c : σ}
    (hr1 : Refines p.n d1 ⟨fupd (fun _ => INFINITY) s τ, fupd (fun _ => none) s (some τ), P⟩) (hs : s < p.n)
    (hτ : τ < INFINITY) (hj : J c (fupd (fun _ => INFINITY) s τ)) :
    ∃ d' c' a', settleNext p.links p.ops cb d1 c = some (some s, d', c') ∧ Refines p.n d' a' ∧
      DInv p s τ (fun _ _ => False) a' [s] ∧ J c' a'.D :=
  start_settle' (Nat.le_refl _) hp hcb hr1 hs hτ hj

/-- The first step after `initialize`. -/
theorem first_spec (hp : p.OK) {s τ : Nat} {cb : σ → Nat → Nat → Option (σ × Option Nat)}
    {J : σ → (Nat → Nat) → Prop} (hcb : CbOK p s τ cb J) {a0 : Abs β} {d0 : DData β} {c : σ}
    (hr : Refines p.n d0 a0) (hs : s < p.n) (hτ : τ < INFINITY) (hj : J c (fupd (fun _ => INFINITY) s τ)) :
    ∃ d1, d0.init s τ = some d1 ∧ d1.dist.get s = some τ ∧
    ∃ d' c' a', settleNext p.links p.ops cb d1 c = some (some s, d', c') ∧ Refines p.n d' a' ∧
      DInv p s τ (fun _ _ => False) a' [s] ∧ J c' a'.D := by
  obtain ⟨d1, h1, hr1⟩ := init_refines hr hs τ
  exact ⟨d1, h1, by rw [hr1.get hs]; simp, start_settle hp hcb hr1 hs hτ hj⟩

theorem _root_.Verif.DInv.length_le {s τ : Nat} {pend : Nat → α → Prop} {a : Abs β} {S : List Nat} (hi : DInv p s τ pend a S) :
    S.length ≤ p.n := by
  have := hi.nodup.subperm (l₂ := List.range p.n) (by
    intro x hx; simp; exact (hi.sett x hx).1)
  simpa using this.length_le

/-- What holds when the loop of `distance` ends. -/
structure Done (p : Prob α β) (s τ t : Nat) (J : σ → (Nat → Nat) → Prop) (r : Option Nat) (d : DData β) (c : σ) (a : Abs β)
    (S : List Nat) : Prop where
  refines : Refines p.n d a
  inv : DInv p s τ (fun _ _ => False) a S
  j : J c a.D
  res : (t ∈ S ∧ r = some (a.D t)) ∨ (t ∉ S ∧ r = none ∧ ∀ v, a.Q v = none)

theorem loop_spec (hp : p.OK) {s τ t : Nat} {cb : σ → Nat → Nat → Option (σ × Option Nat)}
    {J : σ → (Nat → Nat) → Prop} (hcb : CbOK p s τ cb J) :
    ∀ (fuel : Nat) (S : List Nat) (a : Abs β) (d : DData β) (c : σ), p.n < fuel + S.length → Refines p.n d a →
      DInv p s τ (fun _ _ => False) a S → J c a.D → t ∉ S →
    ∃ r d' c' a' S', searchLoop p.links p.ops cb t fuel d c = some (r, d', c') ∧ Done p s τ t J r d' c' a' S' := by
  intro fuel
  induction fuel with
  | zero =>
    intro S a d c hf hr hi hj _
    have := hi.length_le
    omega
  | succ fuel ih =>
    intro S a d c hf hr hi hj ht
    rcases settle_spec hp hcb hr hi hj with ⟨h1, h2⟩ | ⟨v, k, d', c', a', h1, h2, h3, h4, h5, h6, h7, h8⟩
    · exact ⟨none, d, c, a, S, by simp [searchLoop, h1], hr, hi, hj, .inr ⟨ht, rfl, h2⟩⟩
    · by_cases hvt : v = t
      · subst hvt
        have hvn := (h3.sett v (by simp)).1
        refine ⟨some (a'.D v), d', c', a', v :: S, ?_, h2, h3, h4, .inl ⟨by simp, rfl⟩⟩
        simp [searchLoop, h1, h2.get hvn]
      · obtain ⟨r, d2, c2, a2, S2, h9, h10⟩ := ih (v :: S) a' d' c' (by simp; omega) h2 h3 h4 (by simp [ht, Ne.symm hvt])
        exact ⟨r, d2, c2, a2, S2, by simp [searchLoop, h1, hvt, h9], h10⟩

/-- The whole search. -/
theorem search_spec (hp : p.OK) {s τ t : Nat} {cb : σ → Nat → Nat → Option (σ × Option Nat)}
    {J : σ → (Nat → Nat) → Prop} (hcb : CbOK p s τ cb J) {a0 : Abs β} {d0 : DData β} {c : σ}
    (hr : Refines p.n d0 a0) (hs : s < p.n) (hτ : τ < INFINITY) (hj : J c (fupd (fun _ => INFINITY) s τ)) :
    ∃ r d' c' a S, (do let d ← d0.init s τ; searchLoop p.links p.ops cb t (p.n + 1) d c) = some (r, d', c') ∧
      Done p s τ t J r d' c' a S := by
  obtain ⟨d1, h1, _, d', c', a', h3, h4, h5, h6⟩ := first_spec hp hcb hr hs hτ hj
  simp only [h1, Option.bind_eq_bind, Option.bind_some]
  by_cases hst : s = t
  · subst hst
    exact ⟨some (a'.D s), d', c', a', [s], by simp [searchLoop, h3, h4.get hs], h4, h5, h6, .inl ⟨by simp, rfl⟩⟩
  · obtain ⟨r, d2, c2, a2, S2, h9, h10⟩ := loop_spec (t := t) hp hcb p.n [s] a' d' c' (by simp) h4 h5 h6 (by simp [Ne.symm hst])
    exact ⟨r, d2, c2, a2, S2, by simp [searchLoop, h3, hst, h9], h10⟩

/-- The result is the earliest arrival. -/
theorem Done.earliest (hp : p.OK) {s τ t : Nat} {J : σ → (Nat → Nat) → Prop} {r : Option Nat} {d : DData β} {c : σ}
    {a : Abs β} {S : List Nat} (h : Done p s τ t J r d c a S) (hre : p.Reach t) (x : Nat) :
    r = some x ↔ IsEarliest p.F s τ t x ∧ x < INFINITY := by
  have hmin : t ∈ S → ∀ y, TWalk p.F s τ t y → a.D t ≤ y := by
    intro htS y hy
    by_cases hyi : y < INFINITY
    · exact settled_min hp h.inv htS (Prob.walkG hre hy hyi) hyi (hre t y y .nil hyi)
    · have := h.inv.ub t; omega
  rcases h.res with ⟨h1, h2⟩ | ⟨h1, h2, h3⟩
  · have hD := (h.inv.sett t h1).2.1
    have hw := h.inv.walk t hD
    rw [h2]
    constructor
    · intro he; simp at he; subst he
      exact ⟨⟨hw, hmin h1⟩, hD⟩
    · rintro ⟨⟨h4, h5⟩, h6⟩
      have := hmin h1 x h4
      have := h5 _ hw
      simp; omega
  · rw [h2]
    constructor
    · intro he; simp at he
    · rintro ⟨⟨h4, h5⟩, h6⟩
      rcases frontier hp h.inv (Prob.walkG hre h4 h6) h6 (hre t x x .nil h6) with ⟨h7, _⟩ | ⟨y, k, h7, _⟩
      · exact absurd h7 h1
      · rw [h3] at h7; simp at h7

/-! ### Paths -/

/-- `APath p s τ ns as x`: the nodes `ns` and arcs `as` form a walk departing at `s` at `τ` and arriving at the last node at `x`. -/
inductive APath (p : Prob α β) (s τ : Nat) : List Nat → List α → Nat → Prop
  | nil : APath p s τ [s] [] τ
  | snoc {ns as u x ls b} : APath p s τ (ns ++ [u]) as x → p.links u = some ls → b ∈ ls →
      APath p s τ (ns ++ [u] ++ [p.ops.head b]) (as ++ [b]) (p.lf b x)

/-- following the predecessors -/
theorem path_spec {s τ : Nat} {d : DData β} {a : Abs β} {S : List Nat}
    (hr : Refines p.n d a) (hi : DInv p s τ (fun _ _ => False) a S) :
    ∀ (m : Nat) (A B : List Nat) (v : Nat), B.length ≤ m → S = A ++ v :: B →
    ∃ (ns : List Nat) (as : List α), APath p s τ (ns ++ [v]) as (a.D v) ∧
      (∀ fuel path, B.length < fuel → nodePathLoop d s fuel path v = some (path ++ ns.reverse)) ∧
      (∀ fuel path, B.length < fuel → edgePathLoop d s fuel path v = some (path ++ (as.map p.ops.predLink).reverse)) := by
  intro m
  induction m with
  | zero =>
    intro A B v hm hS
    have hB : B = [] := by simpa using hm
    have hvs : v = s := by
      apply Classical.byContradiction
      intro hne
      have := hi.order A v B hS hne
      simp [hB] at this
    subst hvs
    refine ⟨[], [], by rw [hi.src]; exact .nil, ?_, ?_⟩
    all_goals
      intro fuel path hf
      cases fuel with
      | zero => omega
      | succ fuel => simp [nodePathLoop, edgePathLoop]
  | succ m ih =>
    intro A B v hm hS
    have hvS : v ∈ S := by rw [hS]; simp
    obtain ⟨hvn, hvD, _⟩ := hi.sett v hvS
    by_cases hvs : v = s
    · subst hvs
      refine ⟨[], [], by rw [hi.src]; exact .nil, ?_, ?_⟩
      all_goals
        intro fuel path hf
        cases fuel with
        | zero => omega
        | succ fuel => simp [nodePathLoop, edgePathLoop]
    · have hu := hi.order A v B hS hvs
      obtain ⟨_, ls, b, h1, h2, h3, h4, h5⟩ := hi.pred v hvD hvs
      obtain ⟨B1, B2, hB⟩ := List.append_of_mem hu
      have hlen : B.length = B1.length + B2.length + 1 := by rw [hB]; simp; omega
      obtain ⟨ns, as, h6, h7, h8⟩ := ih (A ++ v :: B1) B2 (a.P v).1 (by omega) (by rw [hS, hB]; simp)
      refine ⟨ns ++ [(a.P v).1], as ++ [b], ?_, ?_, ?_⟩
      · have := APath.snoc h6 h1 h2
        rw [h3, ← h5] at this
        exact this
      · intro fuel path hf
        cases fuel with
        | zero => omega
        | succ fuel =>
          simp only [nodePathLoop, hvs, if_false, hr.pred v hvn, Option.bind_eq_bind, Option.bind_some]
          rw [h7 fuel _ (by omega)]; simp
      · intro fuel path hf
        cases fuel with
        | zero => omega
        | succ fuel =>
          simp only [edgePathLoop, hvs, if_false, hr.pred v hvn, Option.bind_eq_bind, Option.bind_some]
          rw [h8 fuel _ (by omega), ← h4]; simp

theorem paths_of_settled {s τ : Nat} {d : DData β} {a : Abs β} {S : List Nat}
    (hr : Refines p.n d a) (hi : DInv p s τ (fun _ _ => False) a S) {t : Nat} (ht : t ∈ S) :
    ∃ (ns : List Nat) (as : List α), APath p s τ (ns ++ [t]) as (a.D t) ∧
      nodePath d s t = some (ns ++ [t]) ∧ edgePath d s t = some (as.map p.ops.predLink) := by
  obtain ⟨A, B, hS⟩ := List.append_of_mem ht
  obtain ⟨ns, as, h1, h2, h3⟩ := path_spec hr hi B.length A B t (Nat.le_refl _) hS
  have hl := hi.length_le
  rw [hS] at hl; simp at hl
  refine ⟨ns, as, h1, ?_, ?_⟩
  · simp [nodePath, h2 (d.pred.length + 1) [t] (by rw [hr.plen]; omega)]
  · simp [edgePath, h3 (d.pred.length + 1) [] (by rw [hr.plen]; omega)]

end DData
end Verif
