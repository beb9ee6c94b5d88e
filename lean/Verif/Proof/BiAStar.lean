import Verif.Proof.BiDijkstra
set_option linter.unusedSimpArgs false
set_option linter.unusedVariables false
/- Correctness of bidirectional A* with `SymmetricBiDirPotential` and `ChooseMinKeyDir`. -/
namespace Verif
open Spec DData

namespace BiA

/-- the queue after relaxing an arc to `x` -/
def setQ (Q : Nat → Option Nat) (x : Nat) : Option Nat → Nat → Option Nat
  | none => Q
  | some κ => fupd Q x (some κ)

/-- One relaxation, whatever the closures do. -/
theorem relax_abs {n : Nat} {σ : Type} {cb : σ → Nat → Nat → Option (σ × Option Nat)} {d : DData Unit} {a : Abs Unit} {c c' : σ}
    {u x w : Nat} {key : Option Nat} (hr : Refines n d a) (hu : u < n) (hx : x < n) (hadd : a.D u + w < U32)
    (hcb : a.D u + w < a.D x → cb c x (a.D u + w) = some (c', key))
    (hdec : ∀ κ k, key = some κ → a.Q x = some k → κ ≤ k) :
    (a.D u + w < a.D x → ∃ d', relax defaultOps cb u (d, c) ⟨x, w⟩ = some (d', c') ∧
      Refines n d' ⟨fupd a.D x (a.D u + w), setQ a.Q x key, fupd a.P x (u, ())⟩) ∧
    (¬ a.D u + w < a.D x → ∃ d', relax defaultOps cb u (d, c) ⟨x, w⟩ = some (d', c) ∧ Refines n d' a) := by
  have hlink : add32 (a.D u) w = some (a.D u + w) := add32_of_lt hadd
  obtain ⟨dist, hd1, hd2, hd3, hd4⟩ := hr.modify hx (fun l => if a.D u + w < l then a.D u + w else l)
  have hg1 := hr.get hu
  have hg2 := hr.get hx
  constructor
  · intro hlt
    simp only [hlt, if_true] at hd3 hd4
    have hc := hcb hlt
    have hpl : x < d.pred.length := by rw [hr.plen]; exact hx
    have hpred : ∀ y, y < n → (d.pred.set x (u, ()))[y]? = some (fupd a.P x (u, ()) y) := by
      intro y hy
      by_cases hxu : y = x
      · subst hxu; simp [hr.plen, hy]
      · rw [List.getElem?_set_ne (by omega), hr.pred y hy, fupd_of_ne _ _ hxu]
    have hcont := IHeap.rep_containsIndex hr.queue hx
    cases key with
    | none =>
      refine ⟨⟨dist, d.pred.set x (u, ()), d.queue⟩, ?_, ⟨hd4, hd2, hr.queue, by simp [hr.plen], hpred⟩⟩
      simp only [relax, defaultOps, hg1, hlink, hg2, hd1, hd3, hlt, hc, upd_of_lt _ hpl, Option.bind_eq_bind,
        Option.bind_some, if_true]
      rfl
    | some κ =>
      cases hq : a.Q x with
      | none =>
        simp only [hq, Option.map_none, Option.isSome_none] at hcont
        obtain ⟨q, hq1, hq2⟩ := IHeap.rep_push (x := (⟨κ, x⟩ : QState)) hr.queue hx (by simp [idx_q, hq])
        refine ⟨⟨dist, d.pred.set x (u, ()), q⟩, ?_, ⟨hd4, hd2, ?_, by simp [hr.plen], hpred⟩⟩
        · simp only [relax, defaultOps, hg1, hlink, hg2, hd1, hd3, hlt, hc, upd_of_lt _ hpl, hcont, hq1, Option.bind_eq_bind,
            Option.bind_some, if_true]
          simp [hq1]
        · convert hq2 using 1
          funext y
          by_cases hxu : y = x
          · subst hxu; simp [idx_q, setQ]
          · simp only [idx_q, setQ]; rw [fupd_of_ne _ _ hxu, fupd_of_ne _ _ hxu]
      | some k =>
        have hk := hdec κ k rfl hq
        simp only [hq, Option.map_some, Option.isSome_some] at hcont
        obtain ⟨q, hq1, hq2⟩ := IHeap.rep_decreaseKey (x := (⟨κ, x⟩ : QState))
          (y := ⟨k, x⟩) hr.queue (by simp [idx_q, hq]) (by
            simp only [IHeap.le, HeapElem.lt]; simp; omega)
        refine ⟨⟨dist, d.pred.set x (u, ()), q⟩, ?_, ⟨hd4, hd2, ?_, by simp [hr.plen], hpred⟩⟩
        · simp only [relax, defaultOps, hg1, hlink, hg2, hd1, hd3, hlt, hc, upd_of_lt _ hpl, hcont, hq1, Option.bind_eq_bind,
            Option.bind_some, if_true]
          simp [hq1]
        · convert hq2 using 1
          funext y
          by_cases hxu : y = x
          · subst hxu; simp [idx_q, setQ]
          · simp only [idx_q, setQ]; rw [fupd_of_ne _ _ hxu, fupd_of_ne _ _ hxu]
  · intro hlt
    simp only [hlt, if_false] at hd3 hd4
    refine ⟨⟨dist, d.pred, d.queue⟩, ?_, ⟨?_, hd2, hr.queue, hr.plen, hr.pred⟩⟩
    · simp only [relax, defaultOps, hg1, hlink, hg2, hd1, hlt, Option.bind_eq_bind, Option.bind_some, if_false]
      rfl
    · obtain ⟨dl, h1, h2, h3⟩ := hd4
      refine ⟨dl, h1, h2, ?_⟩
      intro y; rw [← h3]
      by_cases hy : y = x
      · subst hy; simp
      · rw [fupd_of_ne _ _ hy]

/-- The label `l` at node `x` cannot be part of a walk shorter than `M`: what the pruning tests. `qo` is the smallest key of the other
search, `pi` the own potential and `po` the one of the other search. -/
def Irr (imp : Bool) (M qo : Nat) (pi po : Nat → Nat) (x l : Nat) : Prop :=
  M < INFINITY ∧ (M ≤ l + pi x ∨ (imp = true ∧ M ≤ l + (qo - po x)))

theorem Irr.mono {imp : Bool} {M M' qo qo' : Nat} {pi po : Nat → Nat} {x l : Nat} (hM : M' ≤ M) (hq : qo ≤ qo')
    (h : Irr imp M qo pi po x l) : Irr imp M' qo' pi po x l := by
  obtain ⟨h1, h2⟩ := h
  refine ⟨by omega, ?_⟩
  rcases h2 with h2 | ⟨h2, h3⟩
  · left; omega
  · right; exact ⟨h2, by omega⟩

/-- Irrelevant labels produce irrelevant labels. -/
theorem Irr.arc {imp : Bool} {M qo : Nat} {pi po : Nat → Nat} {u x w l : Nat} (h1 : pi u ≤ w + pi x) (h2 : po x ≤ w + po u)
    (h : Irr imp M qo pi po u l) : Irr imp M qo pi po x (l + w) := by
  obtain ⟨h3, h4⟩ := h
  refine ⟨h3, ?_⟩
  rcases h4 with h4 | ⟨h4, h5⟩
  · left; omega
  · right; exact ⟨h4, by omega⟩

/-- the potential a node is compared with: the source is queued with key 0 -/
def lo (s : Nat) (pi : Nat → Nat) (x : Nat) : Nat := if x = s then 0 else pi x

/-- Following the predecessors from `v` leads to `s`; `ns` are the nodes in front of `v`, `l` the length. -/
inductive Chain (n : Nat) (links : Nat → Option (List Link)) (s : Nat) (D : Nat → Nat) (P : Nat → Nat × Unit) : Nat → List Nat → Nat → Prop
  | nil : Chain n links s D P s [] 0
  | snoc {u v w l : Nat} {ns : List Nat} : v ≠ s → v < n → (P v).1 = u → LArc links u v w → D u + w ≤ D v → Chain n links s D P u ns l →
      Chain n links s D P v (ns ++ [u]) (l + w)

section
variable {n : Nat} {links : Nat → Option (List Link)} {s : Nat} {D : Nat → Nat} {P : Nat → Nat × Unit}

theorem Chain.le {v l : Nat} {ns : List Nat} (h : Chain n links s D P v ns l) : l ≤ D v ∧ ∀ y ∈ ns, D y ≤ D v := by
  induction h with
  | nil => simp
  | snoc _ _ _ _ hle _ ih =>
    refine ⟨by omega, ?_⟩
    intro y hy
    simp at hy
    rcases hy with hy | rfl
    · have := ih.2 y hy; omega
    · omega

theorem Chain.unique {v l l' : Nat} {ns ns' : List Nat} (h : Chain n links s D P v ns l) (h' : Chain n links s D P v ns' l') : ns = ns' := by
  induction h generalizing ns' l' with
  | nil =>
    cases h' with
    | nil => rfl
    | snoc h => exact absurd rfl h
  | snoc h1 h2 h3 _ _ _ ih =>
    cases h' with
    | nil => exact absurd rfl h1
    | snoc g1 g2 g3 _ _ g6 =>
      subst h3; subst g3
      rw [ih g6]

theorem Chain.sub {v l : Nat} {ns : List Nat} (h : Chain n links s D P v ns l) {y : Nat} (hy : y ∈ ns) :
    ∃ ms l', ms.length < ns.length ∧ Chain n links s D P y ms l' := by
  induction h with
  | nil => simp at hy
  | @snoc u v w l ns _ _ _ _ _ hc ih =>
    simp at hy
    rcases hy with hy | rfl
    · obtain ⟨ms, l', h1, h2⟩ := ih hy
      exact ⟨ms, l', by simp; omega, h2⟩
    · exact ⟨ns, l, by simp, hc⟩

theorem Chain.nodup {v l : Nat} {ns : List Nat} (h : Chain n links s D P v ns l) : (ns ++ [v]).Nodup := by
  induction h with
  | nil => simp
  | @snoc u v w l ns h1 h2 h3 h4 h5 hc ih =>
    rw [List.nodup_append]
    refine ⟨ih, by simp, ?_⟩
    intro y hy z hz
    simp at hz; subst hz
    rintro rfl
    have hfull := Chain.snoc h1 h2 h3 h4 h5 hc
    obtain ⟨ms, l', g1, g2⟩ := hfull.sub hy
    rw [hfull.unique g2] at g1; omega

theorem Chain.length_le {v l : Nat} {ns : List Nat} (hs : s < n) (h : Chain n links s D P v ns l) : ns.length < n := by
  have hlt : ∀ y ∈ ns ++ [v], y < n := by
    induction h with
    | nil => simpa using hs
    | snoc _ hv _ _ _ _ ih =>
      intro y hy
      simp only [List.mem_append, List.mem_singleton] at hy
      rcases hy with hy | rfl
      · exact ih y (by simpa using hy)
      · exact hv
  have := (List.subperm_of_subset h.nodup (l₂ := List.range n) (by intro y hy; simpa using hlt y hy)).length_le
  simp at this; omega

theorem Chain.pathOf {v l : Nat} {ns : List Nat} (h : Chain n links s D P v ns l) :
    (ns ++ [v]).head? = some s ∧ PathOf (LArc links) (ns ++ [v]) l := by
  induction h with
  | nil => exact ⟨rfl, .single s⟩
  | @snoc u v w l ns _ _ _ ha _ _ ih =>
    refine ⟨?_, by simpa using BiD.pathOf_snoc ih.2 ha⟩
    have := ih.1
    cases ns <;> simpa using this

theorem Chain.loop {d : DData Unit} (hpred : ∀ y, y < n → d.pred[y]? = some (P y)) {v l : Nat} {ns : List Nat} (h : Chain n links s D P v ns l) :
    ∀ fuel path, ns.length < fuel → nodePathLoop d s fuel path v = some (path ++ ns.reverse) := by
  induction h with
  | nil =>
    intro fuel path hf
    cases fuel with
    | zero => simp at hf
    | succ fuel => simp [nodePathLoop]
  | snoc h1 h2 h3 _ _ _ ih =>
    intro fuel path hf
    cases fuel with
    | zero => omega
    | succ fuel =>
      simp only [nodePathLoop, h1, if_false, hpred _ h2, Option.bind_eq_bind, Option.bind_some, h3]
      rw [ih fuel _ (by simp at hf; omega)]; simp

/-- Every labelled node has a chain. -/
def PInv (n : Nat) (links : Nat → Option (List Link)) (s : Nat) (D : Nat → Nat) (P : Nat → Nat × Unit) : Prop :=
  ∀ x, D x < INFINITY → ∃ ns l, Chain n links s D P x ns l

theorem PInv.upd (h : PInv n links s D P) (hs : D s = 0) {u x w : Nat} (hxn : x < n) (hu : D u < INFINITY) (ha : LArc links u x w)
    (hlt : D u + w < D x) : PInv n links s (fupd D x (D u + w)) (fupd P x (u, ())) := by
  have hxs : x ≠ s := by rintro rfl; omega
  have hxu : x ≠ u := by rintro rfl; omega
  have keep : ∀ {v ns l}, Chain n links s D P v ns l → v ≠ x → x ∉ ns → Chain n links s (fupd D x (D u + w)) (fupd P x (u, ())) v ns l := by
    intro v ns l hc
    induction hc with
    | nil => intro _ _; exact .nil
    | snoc h1 h2 h3 h4 h5 _ ih =>
      intro hv hx
      simp at hx
      refine .snoc h1 h2 (by rw [fupd_of_ne _ _ hv]; exact h3) h4 ?_ (ih (fun h => hx.2 h.symm) hx.1)
      rw [fupd_of_ne _ _ hv, fupd_of_ne _ _ (fun h => hx.2 h.symm)]; exact h5
  obtain ⟨nu, lu, hcu⟩ := h u hu
  have hcu' := keep hcu (Ne.symm hxu) (by intro hx; have := hcu.le.2 x hx; omega)
  have hx' : Chain n links s (fupd D x (D u + w)) (fupd P x (u, ())) x (nu ++ [u]) (lu + w) :=
    .snoc hxs hxn (by simp) ha (by rw [fupd_of_ne _ _ (Ne.symm hxu)]; simp) hcu'
  have all : ∀ {v ns l}, Chain n links s D P v ns l → ∃ ns' l', Chain n links s (fupd D x (D u + w)) (fupd P x (u, ())) v ns' l' := by
    intro v ns l hc
    induction hc with
    | nil => exact ⟨_, _, .nil⟩
    | @snoc y v w' l ns h1 h2 h3 h4 h5 _ ih =>
      by_cases hvx : v = x
      · subst hvx; exact ⟨_, _, hx'⟩
      · obtain ⟨ns', l', hc'⟩ := ih
        refine ⟨_, _, .snoc h1 h2 (by rw [fupd_of_ne _ _ hvx]; exact h3) h4 ?_ hc'⟩
        rw [fupd_of_ne _ _ hvx]
        unfold fupd
        split
        · subst_vars; omega
        · exact h5
  intro y hy
  by_cases hyx : y = x
  · subst hyx; exact ⟨_, _, hx'⟩
  · rw [fupd_of_ne _ _ hyx] at hy
    obtain ⟨ns, l, hc⟩ := h y hy
    exact all hc

end

/-- Invariant of one search. `act`: nodes whose current label was not pruned; `S`: settled nodes; `K`: the last key popped;
`I`: irrelevant labels; `BK`: a bound for the keys. -/
structure SInv (n : Nat) (links : Nat → Option (List Link)) (s : Nat) (pi : Nat → Nat) (I : Nat → Nat → Prop) (rel : Prop) (BK : Nat)
    (pend : Nat → Link → Prop) (a : Abs Unit) (act : Nat → Prop) (S : List Nat) (K : Nat) : Prop where
  src : a.D s = 0
  actSrc : act s
  ub : ∀ x, a.D x ≤ INFINITY
  walk : ∀ x, a.D x < INFINITY → Walk (LArc links) s x (a.D x)
  sett : ∀ x ∈ S, x < n ∧ a.D x < INFINITY ∧ a.Q x = none
  nodup : S.Nodup
  queue : ∀ x k, a.Q x = some k → x < n ∧ x ∉ S ∧ a.D x < INFINITY ∧ a.D x + lo s pi x ≤ k ∧ K ≤ k
  actOK : ∀ x, act x → a.D x < INFINITY ∧ (x ∈ S ∨ a.Q x = some (a.D x + lo s pi x) ∨ (x ≠ s ∧ INFINITY ≤ pi x))
  inact : ∀ x, ¬ act x → a.D x < INFINITY → I x (a.D x)
  relaxed : ∀ x ∈ S, act x → ∀ ls l, links x = some ls → l ∈ ls → ¬ pend x l → a.D l.node ≤ a.D x + l.weight
  ordS : ∀ x ∈ S, a.D x + lo s pi x ≤ K
  kb : rel → ∀ x k, a.Q x = some k → k ≤ BK
  pinv : PInv n links s a.D a.P

/-- Labels only decrease; where they do not change nothing else does. -/
def Ext (a : Abs Unit) (act : Nat → Prop) (a' : Abs Unit) (act' : Nat → Prop) : Prop :=
  ∀ x, a'.D x ≤ a.D x ∧ (a'.D x = a.D x → a'.Q x = a.Q x ∧ (act' x ↔ act x))

theorem Ext.refl (a : Abs Unit) (act : Nat → Prop) : Ext a act a act := fun x => ⟨Nat.le_refl _, fun _ => ⟨rfl, Iff.rfl⟩⟩

theorem Ext.trans {a b c : Abs Unit} {p q r : Nat → Prop} (h1 : Ext a p b q) (h2 : Ext b q c r) : Ext a p c r := by
  intro x
  obtain ⟨h3, h4⟩ := h1 x
  obtain ⟨h5, h6⟩ := h2 x
  refine ⟨by omega, fun h => ?_⟩
  obtain ⟨g1, g2⟩ := h4 (by omega)
  obtain ⟨g3, g4⟩ := h6 (by omega)
  exact ⟨g3.trans g1, g4.trans g2⟩

/-- Invariant of (`tentative_distance`, `meeting_node`). -/
structure Joint (n : Nat) (A : Nat → Nat → Nat → Prop) (s t : Nat) (c : Nat × Nat) (D : Nat → Nat) (p : Nat → Prop) (E : Nat → Nat) (q : Nat → Prop) :
    Prop where
  ub : c.1 ≤ INFINITY
  le : ∀ x, p x → q x → c.1 ≤ D x + E x
  walk : c.1 < INFINITY → Walk A s t c.1
  meet : c.1 < INFINITY → c.2 < n ∧ D c.2 + E c.2 ≤ c.1

/-- What is fixed during a query, seen from one direction. -/
structure Fix (n : Nat) (links : Nat → Option (List Link)) (pi po : Nat → Nat) (W P : Nat) : Prop where
  ok : LinksOK n links
  arc : ∀ u v w, LArc links u v w → pi u ≤ w + pi v
  arc' : ∀ u v w, LArc links u v w → po v ≤ w + po u
  piI : ∀ v, pi v ≤ INFINITY
  piP : ∀ v, pi v < INFINITY → pi v ≤ P
  wt : ∀ u v w, LArc links u v w → w ≤ W

/-- a potential as the code has it -/
def opt (pi : Nat → Nat) (v : Nat) : Option Nat := if pi v < INFINITY then some (pi v) else none

theorem opt_getD {pi : Nat → Nat} (h : ∀ v, pi v ≤ INFINITY) (v : Nat) : (opt pi v).getD INFINITY = pi v := by
  unfold opt; have := h v; split
  · rfl
  · simp; omega

/-- the smallest key of a search -/
def qmin (d : DData Unit) : Nat := d.peekKey.getD INFINITY

theorem prune_spec {imp : Bool} {pi po : Nat → Nat} (h1 : ∀ v, pi v ≤ INFINITY) (h2 : ∀ v, po v ≤ INFINITY) {x l qo M : Nat}
    (hl : l < INFINITY) (hov : M < INFINITY → l + qo < U32) :
    ∃ b, pruneInternal imp (opt pi) (opt po) x l qo M = some b ∧ (b = true ↔ Irr imp M qo pi po x l) := by
  unfold pruneInternal Irr
  by_cases hM : M < INFINITY
  · have hp := h1 x
    have e1 : add32 l (pi x) = some (l + pi x) := add32_of_lt (by simp only [INFINITY, U32] at *; omega)
    have e2 : add32 l (qo - po x) = some (l + (qo - po x)) := add32_of_lt (by have := hov hM; omega)
    simp only [hM, if_true, opt_getD h1, opt_getD h2, e1, e2, Option.bind_eq_bind, Option.bind_some, true_and]
    by_cases h3 : l + pi x ≥ M
    · exact ⟨true, by simp [h3], by simp; left; exact h3⟩
    · cases imp
      · exact ⟨false, by simp [h3], by simp; omega⟩
      · refine ⟨decide (l + (qo - po x) ≥ M), by simp [h3], ?_⟩
        simp; omega
  · exact ⟨false, by simp [hM], by simp [hM]⟩

/-- One relaxation of an arc of the popped node `u`. -/
theorem relax_spec {imp : Bool} {n : Nat} {links : Nat → Option (List Link)} {s t : Nat} {pi po : Nat → Nat} {W P X cap : Nat} {rel : Prop}
    (hf : Fix n links pi po W P) (hpo : ∀ v, po v ≤ INFINITY) {A : Nat → Nat → Nat → Prop}
    {od : DData Unit} {ob : Abs Unit} {q : Nat → Prop} (hro : Refines n od ob) (hEub : ∀ x, ob.D x ≤ INFINITY)
    (hwalk : ∀ x l, Walk (LArc links) s x l → ob.D x < INFINITY → Walk A s t (l + ob.D x))
    (hrel : ∀ c, Walk A s t c → c < INFINITY → rel) (hrel' : cap < INFINITY → rel)
    (hqo : rel → qmin od ≤ max INFINITY (X + W + P)) (hX : 2 * (X + W) + P < U32)
    {u : Nat} {ls rest : List Link} {b : Link} (hls : links u = some ls) (hb : b ∈ ls)
    {d : DData Unit} {a : Abs Unit} {p : Nat → Prop} {B : List Nat} {K : Nat} {c : Nat × Nat}
    (hr : Refines n d a)
    (hi : SInv n links s pi (Irr imp (min c.1 cap) (qmin od) pi po) rel (X + W + P) (fun x l => x = u ∧ l ∈ b :: rest) a p (u :: B) K)
    (hK : p u → K = a.D u + lo s pi u) (hDX : rel → a.D u ≤ X) (hj : Joint n A s t c a.D p ob.D q) :
    ∃ d' c' a' p', relax defaultOps (BiD.cb (pruneInternal imp (opt pi) (opt po)) (opt pi) od cap) u (d, c) b = some (d', c') ∧
      Refines n d' a' ∧
      SInv n links s pi (Irr imp (min c'.1 cap) (qmin od) pi po) rel (X + W + P) (fun x l => x = u ∧ l ∈ rest) a' p' (u :: B) K ∧
      Ext a p a' p' ∧ a'.D u = a.D u ∧ Joint n A s t c' a'.D p' ob.D q ∧ c'.1 ≤ c.1 := by
  obtain ⟨x, w⟩ := b
  obtain ⟨hun, huD, huQ⟩ := hi.sett u (by simp)
  have harc : LArc links u x w := ⟨ls, hls, hb⟩
  have hxn : x < n := hf.ok.heads u ls _ hls hb
  have hwI : w ≤ INFINITY := hf.ok.weights u ls _ hls hb
  have hadd : a.D u + w < U32 := by simp only [INFINITY, U32] at *; omega
  have hu0 : lo s pi u ≤ w + pi x ∨ u = s := by
    by_cases h : u = s
    · exact .inr h
    · left; simp only [lo, h, if_false]; exact hf.arc _ _ _ harc
  by_cases hlt : a.D u + w < a.D x
  case neg =>
    obtain ⟨d', h1, h2⟩ := (relax_abs (cb := BiD.cb (pruneInternal imp (opt pi) (opt po)) (opt pi) od cap) (c := c) (c' := c) (key := none)
      hr hun hxn hadd (fun h => absurd h hlt) (by simp)).2 hlt
    refine ⟨d', c, a, p, h1, h2, ?_, Ext.refl _ _, rfl, hj, Nat.le_refl _⟩
    refine { hi with relaxed := ?_ }
    intro y hy hp lx l hlx hl hnp
    by_cases hcase : y = u ∧ l = ⟨x, w⟩
    · obtain ⟨rfl, rfl⟩ := hcase; simp only; omega
    · apply hi.relaxed y hy hp lx l hlx hl
      rintro ⟨h3, h4⟩
      simp at h4
      rcases h4 with h4 | h4
      · exact hcase ⟨h3, h4⟩
      · exact hnp ⟨h3, h4⟩
  case pos =>
    have hlI : a.D u + w < INFINITY := Nat.lt_of_lt_of_le hlt (hi.ub x)
    have hxs : x ≠ s := by rintro rfl; rw [hi.src] at hlt; omega
    have hxu : x ≠ u := by rintro rfl; omega
    have hlo : lo s pi x = pi x := by simp [lo, hxs]
    have hw' : Walk (LArc links) s x (a.D u + w) := (hi.walk u huD).snoc harc
    have hMrel : min c.1 cap < INFINITY → rel := by
      intro h
      by_cases h1 : c.1 < INFINITY
      · exact hrel _ (hj.walk h1) h1
      · exact hrel' (by omega)
    have hov : min c.1 cap < INFINITY → a.D u + w + qmin od < U32 := by
      intro h
      have h1 := hMrel h
      have h2 := hqo h1
      have h3 := hDX h1
      have h4 := hf.wt _ _ _ harc
      simp only [INFINITY, U32] at *
      omega
    obtain ⟨bb, hb1, hb2⟩ := prune_spec (imp := imp) (x := x) hf.piI hpo hlI hov
    have hDle : ∀ y, fupd a.D x (a.D u + w) y ≤ a.D y := by
      intro y; unfold fupd; split
      · subst_vars; omega
      · exact Nat.le_refl _
    have hDu : fupd a.D x (a.D u + w) u = a.D u := fupd_of_ne _ _ (Ne.symm hxu)
    have hrest : ∀ y l, ¬ (y = u ∧ l ∈ rest) → ¬ (y = u ∧ l = ⟨x, w⟩) → ¬ (y = u ∧ l ∈ (⟨x, w⟩ : Link) :: rest) := by
      rintro y l h1 h2 ⟨h3, h4⟩
      simp at h4
      rcases h4 with h4 | h4
      · exact h2 ⟨h3, h4⟩
      · exact h1 ⟨h3, h4⟩
    have hrelaxed : ∀ (p' : Nat → Prop), (∀ y, y ≠ x → p' y → p y) → (x ∈ u :: B → ¬ p' x) →
        ∀ y ∈ u :: B, p' y → ∀ lx l, links y = some lx → l ∈ lx → ¬ (y = u ∧ l ∈ rest) →
          fupd a.D x (a.D u + w) l.node ≤ fupd a.D x (a.D u + w) y + l.weight := by
      intro p' hp1 hp2 y hy hpy lx l hlx hl hnp
      have hyx : y ≠ x := by rintro rfl; exact hp2 hy hpy
      rw [fupd_of_ne _ _ hyx]
      by_cases hcase : y = u ∧ l = ⟨x, w⟩
      · obtain ⟨rfl, rfl⟩ := hcase; simp
      · exact Nat.le_trans (hDle _) (hi.relaxed y hy (hp1 y hyx hpy) lx l hlx hl (hrest y l hnp hcase))
    have hwalk' : ∀ y, fupd a.D x (a.D u + w) y < INFINITY → Walk (LArc links) s y (fupd a.D x (a.D u + w) y) := by
      intro y hy
      by_cases hyx : y = x
      · subst hyx; simpa using hw'
      · rw [fupd_of_ne _ _ hyx] at hy ⊢; exact hi.walk y hy
    have hordS : ∀ y ∈ u :: B, fupd a.D x (a.D u + w) y + lo s pi y ≤ K := by
      intro y hy
      have := hi.ordS y hy
      have := hDle y
      omega
    cases bb with
    | true =>
      -- pruned
      have hirr := hb2.1 rfl
      have hcb : BiD.cb (pruneInternal imp (opt pi) (opt po)) (opt pi) od cap c x (a.D u + w) = some (c, none) := by
        simp only [BiD.cb]
        rw [show (od.peekKey.getD INFINITY) = qmin od from rfl, hb1]
        rfl
      obtain ⟨d', h1, h2⟩ := (relax_abs (c := c) (c' := c) (key := none) hr hun hxn hadd (fun _ => hcb) (by simp)).1 hlt
      refine ⟨d', c, ⟨fupd a.D x (a.D u + w), a.Q, fupd a.P x (u, ())⟩, fun y => y ≠ x ∧ p y, h1, h2, ?_, ?_, hDu, ?_, Nat.le_refl _⟩
      · constructor
        · simp only; rw [fupd_of_ne _ _ (Ne.symm hxs)]; exact hi.src
        · exact ⟨Ne.symm hxs, hi.actSrc⟩
        · intro y; exact Nat.le_trans (hDle y) (hi.ub y)
        · exact hwalk'
        · intro y hy
          obtain ⟨g1, g2, g3⟩ := hi.sett y hy
          exact ⟨g1, Nat.lt_of_le_of_lt (hDle y) g2, g3⟩
        · exact hi.nodup
        · intro y k hk
          obtain ⟨g1, g2, g3, g4, g5⟩ := hi.queue y k hk
          have := hDle y
          exact ⟨g1, g2, Nat.lt_of_le_of_lt (hDle y) g3, by simp only; omega, g5⟩
        · rintro y ⟨hy1, hy2⟩
          simp only; rw [fupd_of_ne _ _ hy1]
          exact hi.actOK y hy2
        · intro y hy hyD
          simp only at hyD ⊢
          by_cases hyx : y = x
          · subst hyx; simpa using hirr
          · rw [fupd_of_ne _ _ hyx] at hyD ⊢
            exact hi.inact y (fun h => hy ⟨hyx, h⟩) hyD
        · exact hrelaxed _ (fun y _ h => h.2) (fun _ h => h.1 rfl)
        · exact hordS
        · exact hi.kb
        · exact hi.pinv.upd hi.src hxn huD harc hlt
      · intro y
        refine ⟨hDle y, ?_⟩
        intro he
        have hyx : y ≠ x := by rintro rfl; simp at he; omega
        exact ⟨rfl, ⟨fun h => h.2, fun h => ⟨hyx, h⟩⟩⟩
      · refine ⟨hj.ub, ?_, hj.walk, fun h => ⟨(hj.meet h).1, by have := (hj.meet h).2; have := hDle c.2; simp only; omega⟩⟩
        rintro y ⟨hy1, hy2⟩ hy3
        simp only; rw [fupd_of_ne _ _ hy1]
        exact hj.le y hy2 hy3
    | false =>
      have hnirr : ¬ Irr imp (min c.1 cap) (qmin od) pi po x (a.D u + w) := fun h => by have := hb2.2 h; cases this
      have hpu : p u := by
        apply Classical.byContradiction
        intro h
        exact hnirr (Irr.arc (hf.arc _ _ _ harc) (hf.arc' _ _ _ harc) (hi.inact u h huD))
      have hKu := hK hpu
      have hKx : K ≤ a.D u + w + pi x := by
        rcases hu0 with h | h
        · omega
        · subst h; rw [hKu, hi.src]; simp [lo]
      have hxS : x ∉ u :: B := by
        intro h
        have := hi.ordS x h
        rw [hlo] at this
        omega
      -- the state of the closures
      have hE := hEub x
      have e3 : add32 (a.D u + w) (ob.D x) = some (a.D u + w + ob.D x) := add32_of_lt (by simp only [INFINITY, U32] at *; omega)
      have hc : ∃ c' : Nat × Nat, (if a.D u + w + ob.D x < c.1 then (a.D u + w + ob.D x, x) else c) = c' ∧ c'.1 ≤ c.1 ∧
          c'.1 ≤ a.D u + w + ob.D x ∧ (c'.1 < INFINITY → Walk A s t c'.1) ∧
          (c'.1 < INFINITY → c'.2 < n ∧ fupd a.D x (a.D u + w) c'.2 + ob.D c'.2 ≤ c'.1) := by
        refine ⟨_, rfl, ?_⟩
        by_cases h : a.D u + w + ob.D x < c.1
        · simp only [h, if_true]
          refine ⟨by omega, Nat.le_refl _, fun h' => hwalk x _ hw' (by have := hj.ub; omega), fun _ => ⟨hxn, by simp⟩⟩
        · simp only [h, if_false]
          refine ⟨Nat.le_refl _, by omega, hj.walk, fun h => ⟨(hj.meet h).1, ?_⟩⟩
          have := (hj.meet h).2
          have := hDle c.2
          omega
      obtain ⟨c', hc1, hc2, hc3, hc4, hc5⟩ := hc
      have hcb : BiD.cb (pruneInternal imp (opt pi) (opt po)) (opt pi) od cap c x (a.D u + w) =
          some (c', if pi x < INFINITY then some (a.D u + w + pi x) else none) := by
        simp only [BiD.cb]
        rw [show (od.peekKey.getD INFINITY) = qmin od from rfl, hb1]
        simp only [Option.bind_eq_bind, Option.bind_some, hro.get hxn, e3, hc1]
        simp only [Bool.false_eq_true, if_false, Option.bind_some]
        unfold opt
        by_cases hpx : pi x < INFINITY
        · have e4 : add32 (pi x) (a.D u + w) = some (a.D u + w + pi x) := by
            rw [add32_of_lt (by simp only [INFINITY, U32] at *; omega)]; congr 1; omega
          simp [hpx, e4]
        · simp [hpx]
      have hmono : ∀ {y l}, Irr imp (min c.1 cap) (qmin od) pi po y l → Irr imp (min c'.1 cap) (qmin od) pi po y l :=
        fun h => h.mono (by omega) (Nat.le_refl _)
      obtain ⟨d', h1, h2⟩ := (relax_abs (c := c) (c' := c') (key := if pi x < INFINITY then some (a.D u + w + pi x) else none)
        hr hun hxn hadd (fun _ => hcb) (by
          intro κ k hκ hk
          have := (hi.queue x k hk).2.2.2.1
          rw [hlo] at this
          split at hκ
          · simp at hκ; omega
          · simp at hκ)).1 hlt
      have hQ : setQ a.Q x (if pi x < INFINITY then some (a.D u + w + pi x) else none) = if pi x < INFINITY then fupd a.Q x (some (a.D u + w + pi x)) else a.Q := by
        split <;> simp [setQ]
      rw [hQ] at h2
      have hQne : ∀ y, y ≠ x → (if pi x < INFINITY then fupd a.Q x (some (a.D u + w + pi x)) else a.Q) y = a.Q y := by
        intro y hy; split
        · exact fupd_of_ne _ _ hy
        · rfl
      refine ⟨d', c', ⟨fupd a.D x (a.D u + w), if pi x < INFINITY then fupd a.Q x (some (a.D u + w + pi x)) else a.Q, fupd a.P x (u, ())⟩,
        fun y => y = x ∨ p y, h1, h2, ?_, ?_, hDu, ?_, hc2⟩
      · constructor
        · simp only; rw [fupd_of_ne _ _ (Ne.symm hxs)]; exact hi.src
        · exact .inr hi.actSrc
        · intro y; exact Nat.le_trans (hDle y) (hi.ub y)
        · exact hwalk'
        · intro y hy
          obtain ⟨g1, g2, g3⟩ := hi.sett y hy
          have hyx : y ≠ x := by rintro rfl; exact hxS hy
          refine ⟨g1, Nat.lt_of_le_of_lt (hDle y) g2, ?_⟩
          simp only; rw [hQne y hyx]; exact g3
        · exact hi.nodup
        · intro y k hk
          simp only at hk ⊢
          by_cases hyx : y = x
          · subst hyx
            by_cases hpy : pi y < INFINITY
            · simp only [hpy, if_true, fupd_same, Option.some.injEq] at hk
              refine ⟨hxn, hxS, by simpa using hlI, by simp [hlo]; omega, by omega⟩
            · simp only [hpy, if_false] at hk
              obtain ⟨g1, g2, g3, g4, g5⟩ := hi.queue y k hk
              have := hDle y
              exact ⟨g1, g2, Nat.lt_of_le_of_lt (hDle y) g3, by omega, g5⟩
          · rw [hQne y hyx] at hk
            rw [fupd_of_ne _ _ hyx]
            exact hi.queue y k hk
        · intro y hy
          simp only
          by_cases hyx : y = x
          · subst hyx
            refine ⟨by simpa using hlI, ?_⟩
            by_cases hpy : pi y < INFINITY
            · right; left; simp [hpy, hlo]
            · right; right; exact ⟨hxs, by omega⟩
          · rw [fupd_of_ne _ _ hyx, hQne y hyx]
            exact hi.actOK y (by rcases hy with h | h; exact absurd h hyx; exact h)
        · intro y hy hyD
          simp only at hyD ⊢
          have hyx : y ≠ x := fun h => hy (.inl h)
          rw [fupd_of_ne _ _ hyx] at hyD ⊢
          exact hmono (hi.inact y (fun h => hy (.inr h)) hyD)
        · exact hrelaxed _ (fun y hyx h => by rcases h with h | h; exact absurd h hyx; exact h) (fun h => absurd h hxS)
        · exact hordS
        · intro hR y k hk
          simp only at hk
          by_cases hyx : y = x
          · subst hyx
            by_cases hpy : pi y < INFINITY
            · simp only [hpy, if_true, fupd_same, Option.some.injEq] at hk
              have := hDX hR
              have := hf.wt _ _ _ harc
              have := hf.piP y hpy
              omega
            · simp only [hpy, if_false] at hk
              exact hi.kb hR y k hk
          · rw [hQne y hyx] at hk
            exact hi.kb hR y k hk
        · exact hi.pinv.upd hi.src hxn huD harc hlt
      · intro y
        refine ⟨hDle y, ?_⟩
        intro he
        have hyx : y ≠ x := by rintro rfl; simp at he; omega
        exact ⟨hQne y hyx, ⟨fun h => by rcases h with h | h; exact absurd h hyx; exact h, .inr⟩⟩
      · refine ⟨by have := hj.ub; omega, ?_, hc4, hc5⟩
        intro y hy hq
        simp only
        by_cases hyx : y = x
        · subst hyx; simp; omega
        · rw [fupd_of_ne _ _ hyx]
          have := hj.le y (by rcases hy with h | h; exact absurd h hyx; exact h) hq
          omega

/-- All arcs of the popped node. -/
theorem fold_spec {imp : Bool} {n : Nat} {links : Nat → Option (List Link)} {s t : Nat} {pi po : Nat → Nat} {W P X cap : Nat} {rel : Prop}
    (hf : Fix n links pi po W P) (hpo : ∀ v, po v ≤ INFINITY) {A : Nat → Nat → Nat → Prop}
    {od : DData Unit} {ob : Abs Unit} {q : Nat → Prop} (hro : Refines n od ob) (hEub : ∀ x, ob.D x ≤ INFINITY)
    (hwalk : ∀ x l, Walk (LArc links) s x l → ob.D x < INFINITY → Walk A s t (l + ob.D x))
    (hrel : ∀ c, Walk A s t c → c < INFINITY → rel) (hrel' : cap < INFINITY → rel)
    (hqo : rel → qmin od ≤ max INFINITY (X + W + P)) (hX : 2 * (X + W) + P < U32)
    {u : Nat} {ls : List Link} (hls : links u = some ls) {B : List Nat} {K : Nat} (rest : List Link) (hrest : ∀ b ∈ rest, b ∈ ls) :
    ∀ (d : DData Unit) (a : Abs Unit) (p : Nat → Prop) (c : Nat × Nat), Refines n d a →
      SInv n links s pi (Irr imp (min c.1 cap) (qmin od) pi po) rel (X + W + P) (fun x l => x = u ∧ l ∈ rest) a p (u :: B) K →
      (p u → K = a.D u + lo s pi u) → (rel → a.D u ≤ X) → Joint n A s t c a.D p ob.D q →
    ∃ d' c' a' p', rest.foldlM (relax defaultOps (BiD.cb (pruneInternal imp (opt pi) (opt po)) (opt pi) od cap) u) (d, c) = some (d', c') ∧
      Refines n d' a' ∧
      SInv n links s pi (Irr imp (min c'.1 cap) (qmin od) pi po) rel (X + W + P) (fun _ _ => False) a' p' (u :: B) K ∧
      Ext a p a' p' ∧ a'.D u = a.D u ∧ Joint n A s t c' a'.D p' ob.D q ∧ c'.1 ≤ c.1 := by
  induction rest with
  | nil =>
    intro d a p c hr hi hK hDX hj
    refine ⟨d, c, a, p, rfl, hr, ?_, Ext.refl _ _, rfl, hj, Nat.le_refl _⟩
    refine { hi with relaxed := ?_ }
    intro x hx hp lx l h1 h2 _
    exact hi.relaxed x hx hp lx l h1 h2 (by simp)
  | cons b rest ih =>
    intro d a p c hr hi hK hDX hj
    obtain ⟨d1, c1, a1, p1, h1, h2, h3, h4, h5, h6, h7⟩ := relax_spec hf hpo hro hEub hwalk hrel hrel' hqo hX hls (hrest b (by simp)) hr hi hK hDX hj
    obtain ⟨d2, c2, a2, p2, g1, g2, g3, g4, g5, g6, g7⟩ := ih (fun x hx => hrest x (by simp [hx])) d1 a1 p1 c1 h2 h3
      (by intro hp; rw [h5]; exact hK (((h4 u).2 h5).2.1 hp)) (by rw [h5]; exact hDX) h6
    refine ⟨d2, c2, a2, p2, ?_, g2, g3, h4.trans g4, g5.trans h5, g6, by omega⟩
    simp only [List.foldlM_cons, h1, Option.bind_eq_bind, Option.bind_some]; exact g1

/-- The smallest key. -/
theorem qmin_spec {n : Nat} {d : DData Unit} {a : Abs Unit} (hr : Refines n d a) {u k : Nat} (hk : a.Q u = some k) : qmin d ≤ k := by
  rcases BiD.peekKey_spec hr with ⟨_, h⟩ | ⟨v, k', h1, _, h3⟩
  · rw [h] at hk; simp at hk
  · simp only [qmin, h1, Option.getD_some]; exact h3 u k hk

/-- One step of one search. -/
theorem settle_spec {imp : Bool} {n : Nat} {links : Nat → Option (List Link)} {s t : Nat} {pi po : Nat → Nat} {W P X cap : Nat} {rel : Prop}
    (hf : Fix n links pi po W P) (hpo : ∀ v, po v ≤ INFINITY) {A : Nat → Nat → Nat → Prop}
    {od : DData Unit} {ob : Abs Unit} {q : Nat → Prop} (hro : Refines n od ob) (hEub : ∀ x, ob.D x ≤ INFINITY)
    (hwalk : ∀ x l, Walk (LArc links) s x l → ob.D x < INFINITY → Walk A s t (l + ob.D x))
    (hrel : ∀ c, Walk A s t c → c < INFINITY → rel) (hrel' : cap < INFINITY → rel)
    (hqo : rel → qmin od ≤ max INFINITY (X + W + P)) (hX : 2 * (X + W) + P < U32)
    {d : DData Unit} {a : Abs Unit} {p : Nat → Prop} {S : List Nat} {K k : Nat} {c : Nat × Nat} (hr : Refines n d a)
    (hi : SInv n links s pi (Irr imp (min c.1 cap) (qmin od) pi po) rel (X + W + P) (fun _ _ => False) a p S K)
    (hj : Joint n A s t c a.D p ob.D q) (hpk : d.peekKey = some k) (hkI : k < INFINITY) (hkX : rel → k ≤ X) :
    ∃ u d' c' a' p', settleNext links defaultOps (BiD.cb (pruneInternal imp (opt pi) (opt po)) (opt pi) od cap) d c = some (some u, d', c') ∧
      Refines n d' a' ∧
      SInv n links s pi (Irr imp (min c'.1 cap) (qmin od) pi po) rel (X + W + P) (fun _ _ => False) a' p' (u :: S) k ∧
      Ext { a with Q := fupd a.Q u none } p a' p' ∧ a'.D u = a.D u ∧ Joint n A s t c' a'.D p' ob.D q ∧ c'.1 ≤ c.1 ∧
      a.Q u = some k ∧ k ≤ qmin d' := by
  obtain ⟨v0, hv0, hmin⟩ : ∃ v, a.Q v = some k ∧ ∀ u k', a.Q u = some k' → k ≤ k' := by
    rcases BiD.peekKey_spec hr with ⟨h, _⟩ | ⟨v, k', h1, h2, h3⟩
    · rw [h] at hpk; simp at hpk
    · rw [h1] at hpk; simp at hpk; subst hpk; exact ⟨v, h2, h3⟩
  rcases IHeap.rep_pop hr.queue with ⟨h1, h2⟩ | ⟨x, qq, h1, h2, h3, h4⟩
  · have := h2 v0; rw [hv0] at this; simp at this
  · simp only [idx_q, Option.map_eq_some_iff] at h2
    obtain ⟨k', hk, hx⟩ := h2
    have hkk : k' = k := by
      have g1 := hmin _ _ hk
      have g2 := h3 v0 ⟨k, v0⟩ (by simp [hv0])
      have hkey : x.key = k' := by rw [← hx]
      simp only [IHeap.le, HeapElem.lt] at g2
      simp at g2; omega
    subst hkk
    obtain ⟨hun, huS, huD, hul, huK⟩ := hi.queue _ _ hk
    obtain ⟨ls, hls⟩ := hf.ok.total x.node hun
    have hr1 : Refines n { d with queue := qq } { a with Q := fupd a.Q x.node none } := by
      refine ⟨hr.dist, hr.default, ?_, hr.plen, hr.pred⟩
      convert h4 using 1
      funext u
      by_cases hu : u = x.node
      · subst hu; simp [idx_q]
      · simp only [idx_q]; rw [fupd_of_ne _ _ hu, fupd_of_ne _ _ hu]
    have hK : p x.node → k' = a.D x.node + lo s pi x.node := by
      intro hp
      rcases (hi.actOK _ hp).2 with h | h | ⟨h, h'⟩
      · exact absurd h huS
      · rw [hk] at h; simpa using h
      · simp only [lo, h, if_false] at hul; omega
    have hi1 : SInv n links s pi (Irr imp (min c.1 cap) (qmin od) pi po) rel (X + W + P) (fun y l => y = x.node ∧ l ∈ ls)
        { a with Q := fupd a.Q x.node none } p (x.node :: S) k' := by
      constructor
      · exact hi.src
      · exact hi.actSrc
      · exact hi.ub
      · exact hi.walk
      · intro y hy
        simp only
        by_cases hyx : y = x.node
        · subst hyx; exact ⟨hun, huD, by simp⟩
        · rw [fupd_of_ne _ _ hyx]
          simp [hyx] at hy
          exact hi.sett y hy
      · exact List.nodup_cons.2 ⟨huS, hi.nodup⟩
      · intro y κ hy
        simp only at hy ⊢
        by_cases hyx : y = x.node
        · subst hyx; simp at hy
        · rw [fupd_of_ne _ _ hyx] at hy
          obtain ⟨g1, g2, g3, g4, g5⟩ := hi.queue y κ hy
          exact ⟨g1, by simp [hyx, g2], g3, g4, hmin _ _ hy⟩
      · intro y hy
        obtain ⟨g1, g2⟩ := hi.actOK y hy
        refine ⟨g1, ?_⟩
        simp only
        by_cases hyx : y = x.node
        · subst hyx; left; simp
        · rw [fupd_of_ne _ _ hyx]
          rcases g2 with g2 | g2
          · left; simp [g2]
          · exact .inr g2
      · exact hi.inact
      · intro y hy hp lx l hlx hl hnp
        simp only [List.mem_cons] at hy
        rcases hy with rfl | hy
        · rw [hls] at hlx; simp at hlx; subst hlx
          exact absurd ⟨rfl, hl⟩ hnp
        · exact hi.relaxed y hy hp lx l hlx hl (by simp)
      · intro y hy
        simp only [List.mem_cons] at hy
        rcases hy with rfl | hy
        · exact hul
        · have := hi.ordS y hy
          simp only; omega
      · intro hR y κ hy
        simp only at hy
        by_cases hyx : y = x.node
        · subst hyx; simp at hy
        · rw [fupd_of_ne _ _ hyx] at hy
          exact hi.kb hR y κ hy
      · exact hi.pinv
    obtain ⟨d', c', a', p', g1, g2, g3, g4, g5, g6, g7⟩ := fold_spec hf hpo hro hEub hwalk hrel hrel' hqo hX hls ls (fun _ h => h)
      { d with queue := qq } { a with Q := fupd a.Q x.node none } p c hr1 hi1 hK (fun h => by have := hkX h; simp only; omega) hj
    refine ⟨x.node, d', c', a', p', ?_, g2, g3, g4, g5, g6, g7, hk, ?_⟩
    · simp only [settleNext, h1, hls, Option.bind_eq_bind, Option.bind_some]
      simp [g1]
    · rcases BiD.peekKey_spec g2 with ⟨h, _⟩ | ⟨v, κ, g8, g9, _⟩
      · simp only [qmin, h, Option.getD_none]; omega
      · simp only [qmin, g8, Option.getD_some]
        exact (g3.queue _ _ g9).2.2.2.2

/-- What is fixed during a query. -/
structure Ctx (n : Nat) (fl bl : Nat → Option (List Link)) (s t : Nat) (pf pb : Nat → Nat) (W P X cap : Nat) (rel : Prop) : Prop where
  set : BiD.Setting n fl bl
  fw : Fix n fl pf pb W P
  bw : Fix n bl pb pf W P
  target : pf t = 0
  source : pb s = 0
  bound : 2 * (X + W) + P < U32
  capX : cap < INFINITY → cap ≤ X
  distX : ∀ d, IsDist (LArc fl) s t d → d < INFINITY → d ≤ X
  relIff : rel ↔ (cap < INFINITY ∨ ∃ d, IsDist (LArc fl) s t d ∧ d < INFINITY)

theorem isDist_rev {n : Nat} {fl bl : Nat → Option (List Link)} (h : BiD.Setting n fl bl) {s t d : Nat} :
    IsDist (LArc bl) t s d ↔ IsDist (LArc fl) s t d :=
  ⟨fun g => ⟨h.walk g.1, fun d' h' => g.2 d' (h.symm.walk h')⟩, fun g => ⟨h.symm.walk g.1, fun d' h' => g.2 d' (h.walk h')⟩⟩

theorem Ctx.symm {n : Nat} {fl bl : Nat → Option (List Link)} {s t : Nat} {pf pb : Nat → Nat} {W P X cap : Nat} {rel : Prop}
    (h : Ctx n fl bl s t pf pb W P X cap rel) : Ctx n bl fl t s pb pf W P X cap rel where
  set := h.set.symm
  fw := h.bw
  bw := h.fw
  target := h.source
  source := h.target
  bound := h.bound
  capX := h.capX
  distX := fun d hd => h.distX d ((isDist_rev h.set).1 hd)
  relIff := by rw [h.relIff]; simp only [isDist_rev h.set]

/-- A shortest walk has a part between two nodes queued with exact labels. -/
def Mid (A : Nat → Nat → Nat → Prop) (s t : Nat) (a : Abs Unit) (p : Nat → Prop) (b : Abs Unit) (q : Nat → Prop) (d : Nat) : Prop :=
  ∃ x y α β γ, Walk A s x α ∧ Walk A x y β ∧ Walk A y t γ ∧ α + β + γ = d ∧ a.D x = α ∧ p x ∧ a.Q x ≠ none ∧
    b.D y = γ ∧ q y ∧ b.Q y ≠ none

theorem Mid.symm {n : Nat} {fl bl : Nat → Option (List Link)} (h : BiD.Setting n fl bl) {s t d : Nat} {a b : Abs Unit} {p q : Nat → Prop}
    (hm : Mid (LArc fl) s t a p b q d) : Mid (LArc bl) t s b q a p d := by
  obtain ⟨x, y, α, β, γ, h1, h2, h3, h4, h5, h6, h7, h8, h9, h10⟩ := hm
  exact ⟨y, x, γ, β, α, h.symm.walk h3, h.symm.walk h2, h.symm.walk h1, by omega, h8, h9, h10, h5, h6, h7⟩

/-- The invariant of the loop. -/
structure Inv (imp : Bool) (n : Nat) (fl bl : Nat → Option (List Link)) (s t : Nat) (pf pb : Nat → Nat) (B cap : Nat) (rel : Prop)
    (fd bd : DData Unit) (c : Nat × Nat) (a b : Abs Unit) (p q : Nat → Prop) (SF SB : List Nat) (KF KB : Nat) : Prop where
  rf : Refines n fd a
  rb : Refines n bd b
  sf : SInv n fl s pf (Irr imp (min c.1 cap) (qmin bd) pf pb) rel B (fun _ _ => False) a p SF KF
  sb : SInv n bl t pb (Irr imp (min c.1 cap) (qmin fd) pb pf) rel B (fun _ _ => False) b q SB KB
  j : Joint n (LArc fl) s t c a.D p b.D q
  mid : ∀ d, IsDist (LArc fl) s t d → d < INFINITY → d < cap → c.1 ≤ d ∨ Mid (LArc fl) s t a p b q d

theorem Inv.symm {imp : Bool} {n : Nat} {fl bl : Nat → Option (List Link)} {s t : Nat} {pf pb : Nat → Nat} {B cap : Nat} {rel : Prop}
    {fd bd : DData Unit} {c : Nat × Nat} {a b : Abs Unit} {p q : Nat → Prop} {SF SB : List Nat} {KF KB : Nat} (hs : BiD.Setting n fl bl)
    (h : Inv imp n fl bl s t pf pb B cap rel fd bd c a b p q SF SB KF KB) :
    Inv imp n bl fl t s pb pf B cap rel bd fd c b a q p SB SF KB KF where
  rf := h.rb
  rb := h.rf
  sf := h.sb
  sb := h.sf
  j := ⟨h.j.ub, fun x h1 h2 => by rw [Nat.add_comm]; exact h.j.le x h2 h1, fun hc => hs.symm.walk (h.j.walk hc),
    fun hc => ⟨(h.j.meet hc).1, by rw [Nat.add_comm]; exact (h.j.meet hc).2⟩⟩
  mid := fun d hd h1 h2 => (h.mid d ((isDist_rev hs).1 hd) h1 h2).imp id (Mid.symm hs)

theorem pot_walk {A : Nat → Nat → Nat → Prop} {pi : Nat → Nat} (h : ∀ u v w, A u v w → pi u ≤ w + pi v) {x y l : Nat} (hw : Walk A x y l) :
    pi x ≤ l + pi y := by
  induction hw with
  | nil => omega
  | cons ha _ ih => have := h _ _ _ ha; omega

theorem pot_walk' {A : Nat → Nat → Nat → Prop} {po : Nat → Nat} (h : ∀ u v w, A u v w → po v ≤ w + po u) {x y l : Nat} (hw : Walk A x y l) :
    po y ≤ l + po x := by
  induction hw with
  | nil => omega
  | cons ha _ ih => have := h _ _ _ ha; omega

section
variable {imp : Bool} {n : Nat} {fl bl : Nat → Option (List Link)} {s t : Nat} {pf pb : Nat → Nat} {W P X cap : Nat} {rel : Prop}
  {fd bd : DData Unit} {c : Nat × Nat} {a b : Abs Unit} {p q : Nat → Prop} {SF SB : List Nat} {KF KB : Nat}

/-- The smallest key is at most the distance. -/
theorem mid_key (hc : Ctx n fl bl s t pf pb W P X cap rel)
    (hi : Inv imp n fl bl s t pf pb (X + W + P) cap rel fd bd c a b p q SF SB KF KB) {d : Nat} (hd : d < INFINITY)
    (hm : Mid (LArc fl) s t a p b q d) : ∃ k, fd.peekKey = some k ∧ k ≤ d := by
  obtain ⟨x, y, α, β, γ, h1, h2, h3, h4, h5, h6, h7, h8, h9, h10⟩ := hm
  have hpx := pot_walk hc.fw.arc (h2.append h3)
  rw [hc.target] at hpx
  have hlo : lo s pf x ≤ pf x := by unfold lo; split <;> omega
  have hQ : a.Q x = some (a.D x + lo s pf x) := by
    rcases (hi.sf.actOK x h6).2 with h | h | ⟨_, h⟩
    · exact absurd (hi.sf.sett x h).2.2 h7
    · exact h
    · omega
  rcases BiD.peekKey_spec hi.rf with ⟨_, h⟩ | ⟨v, k, g1, _, g3⟩
  · exact absurd (h x) h7
  · exact ⟨k, g1, by have := g3 _ _ hQ; omega⟩

/-- The next key does not exceed `X`. -/
theorem key_bound (hc : Ctx n fl bl s t pf pb W P X cap rel)
    (hi : Inv imp n fl bl s t pf pb (X + W + P) cap rel fd bd c a b p q SF SB KF KB) {k : Nat} (hk : fd.peekKey = some k)
    (hkM : k < min c.1 cap) : rel → k ≤ X := by
  intro hr
  by_cases hcap : cap < INFINITY
  · have := hc.capX hcap; omega
  · rcases hc.relIff.1 hr with h | ⟨d, h1, h2⟩
    · exact absurd h hcap
    · have hX := hc.distX d h1 h2
      rcases hi.mid d h1 h2 (by omega) with h | h
      · omega
      · obtain ⟨k', g1, g2⟩ := mid_key hc hi h2 h
        rw [hk] at g1; simp at g1; omega

/-- A step of the forward search. -/
theorem step (hc : Ctx n fl bl s t pf pb W P X cap rel)
    (hi : Inv imp n fl bl s t pf pb (X + W + P) cap rel fd bd c a b p q SF SB KF KB) {k : Nat} (hk : fd.peekKey = some k)
    (hkM : k < min c.1 cap) :
    ∃ u fd' c' a' p', settleNext fl defaultOps (BiD.cb (pruneInternal imp (opt pf) (opt pb)) (opt pf) bd cap) fd c = some (some u, fd', c') ∧
      Inv imp n fl bl s t pf pb (X + W + P) cap rel fd' bd c' a' b p' q (u :: SF) SB k KB ∧
      (u = t → fd'.dist.get t = some (a'.D t) ∧ t < n ∧ a'.D t < INFINITY ∧ CapAnswer (LArc fl) s t cap (some (a'.D t))) := by
  have hkI : k < INFINITY := by have := hi.j.ub; omega
  have hkX := key_bound hc hi hk hkM
  have hqb : rel → qmin bd ≤ max INFINITY (X + W + P) := by
    intro hr
    rcases BiD.peekKey_spec hi.rb with ⟨h, _⟩ | ⟨v, k', g1, g2, _⟩
    · simp only [qmin, h, Option.getD_none]; omega
    · simp only [qmin, g1, Option.getD_some]
      have := hi.sb.kb hr v k' g2; omega
  have hwalk : ∀ x l, Walk (LArc fl) s x l → b.D x < INFINITY → Walk (LArc fl) s t (l + b.D x) :=
    fun x l h1 h2 => h1.append (hc.set.walk (hi.sb.walk x h2))
  have hrel : ∀ c, Walk (LArc fl) s t c → c < INFINITY → rel := by
    intro c h1 h2
    obtain ⟨d, h3, h4⟩ := exists_isDist h1
    exact hc.relIff.2 (.inr ⟨d, h4, by omega⟩)
  obtain ⟨u, fd', c', a', p', h1, h2, h3, h4, h5, h6, h7, h8, h9⟩ := settle_spec hc.fw hc.bw.piI hi.rb hi.sb.ub hwalk hrel
    (fun h => hc.relIff.2 (.inl h)) hqb hc.bound hi.rf hi.sf hi.j hk hkI hkX
  have hq' : qmin fd ≤ qmin fd' := by simp only [qmin, hk, Option.getD_some]; exact h9
  refine ⟨u, fd', c', a', p', h1, ⟨h2, hi.rb, h3, ?_, h6, ?_⟩, ?_⟩
  · refine { hi.sb with inact := fun x hx hD => (hi.sb.inact x hx hD).mono (by omega) hq' }
  · intro d hd hdI hdc
    rcases hi.mid d hd hdI hdc with h | hm
    · left; omega
    · obtain ⟨x, y, α, β, γ, g1, g2, g3, g4, g5, g6, g7, g8, g9, g10⟩ := hm
      have hexact : ∀ z l m, Walk (LArc fl) z t m → l + m = d → a'.D z ≤ l → a'.D z = l := by
        intro z l m hz hlm hle
        have := hd.2 _ ((h3.walk z (by omega)).append hz)
        omega
      by_cases hxu : x = u
      · subst hxu
        have hp' : p' x := ((h4 x).2 h5).2.2 g6
        have hyb := pot_walk' hc.fw.arc' (g1.append g2)
        rw [hc.source] at hyb
        have hloy : lo t pb y ≤ pb y := by unfold lo; split <;> omega
        have hQy : b.Q y = some (b.D y + lo t pb y) := by
          rcases (hi.sb.actOK y g9).2 with h | h | ⟨_, h⟩
          · exact absurd (hi.sb.sett y h).2.2 g10
          · exact h
          · omega
        have hqy := qmin_spec hi.rb hQy
        -- follow the walk
        have key : ∀ v m, Walk (LArc fl) v y m → ∀ l, l + m + γ = d → Walk (LArc fl) s v l → a'.D v = l → v ∈ x :: SF → p' v →
            c'.1 ≤ d ∨ Mid (LArc fl) s t a' p' b q d := by
          intro v m hv
          clear g2 hQy hqy hloy hyb
          induction hv with
          | nil v =>
            intro l hl hwl hD _ hpv
            left
            have := h6.le v hpv g9
            omega
          | @cons v v1 y w m ha hv ih =>
            intro l hl hwl hD hvS hpv
            obtain ⟨ls, hls, hmem⟩ := ha
            have hle : a'.D v1 ≤ l + w := by rw [← hD]; exact h3.relaxed v hvS hpv ls ⟨v1, w⟩ hls hmem (by simp)
            have hD1 := hexact v1 (l + w) (m + γ) (hv.append g3) (by omega) hle
            have hw1 : Walk (LArc fl) s v1 (l + w) := hwl.snoc ⟨ls, hls, hmem⟩
            have hpf := pot_walk hc.fw.arc (hv.append g3)
            rw [hc.target] at hpf
            by_cases hp1 : p' v1
            · rcases (h3.actOK v1 hp1).2 with h | h | ⟨_, h⟩
              · exact ih g3 g8 g9 g10 (l + w) (by omega) hw1 hD1 h hp1
              · right
                exact ⟨v1, y, l + w, m, γ, hw1, hv, g3, by omega, hD1, hp1, by rw [h]; simp, g8, g9, g10⟩
              · omega
            · left
              obtain ⟨i1, i2⟩ := h3.inact v1 hp1 (by omega)
              rcases i2 with i2 | ⟨_, i2⟩
              · omega
              · have hyb := pot_walk' hc.fw.arc' hv
                have hyb2 := pot_walk' hc.fw.arc' (hw1.append hv)
                rw [hc.source] at hyb2
                have hloy : lo t pb y ≤ pb y := by unfold lo; split <;> omega
                have hQy : b.Q y = some (b.D y + lo t pb y) := by
                  rcases (hi.sb.actOK y g9).2 with h | h | ⟨_, h⟩
                  · exact absurd (hi.sb.sett y h).2.2 g10
                  · exact h
                  · omega
                have hqy := qmin_spec hi.rb hQy
                omega
        exact key x β g2 α (by omega) g1 (h5.trans g5) (by simp) hp'
      · right
        have e1 := (h4 x).1
        have e2 := hexact x α (β + γ) (g2.append g3) (by omega) (by simp only at e1; omega)
        obtain ⟨e3, e4⟩ := (h4 x).2 (by simp only; omega)
        refine ⟨x, y, α, β, γ, g1, g2, g3, g4, e2, e4.2 g6, ?_, g8, g9, g10⟩
        rw [e3]; simp only; rw [fupd_of_ne _ _ hxu]; exact g7
  · rintro rfl
    obtain ⟨i1, i2, _⟩ := h3.sett u (by simp)
    refine ⟨h2.get i1, i1, i2, ?_, ?_⟩
    · intro d hd; simp at hd; subst hd; exact ⟨h3.walk u i2, i2⟩
    · intro d hd hdI hdc
      have hle : a.D u ≤ k := by have := (hi.sf.queue u k h8).2.2.2.1; omega
      have hge := hd.2 _ (h3.walk u i2)
      rcases hi.mid d hd hdI hdc with h | hm
      · omega
      · obtain ⟨k', g1, g2⟩ := mid_key hc hi hdI hm
        rw [hk] at g1; simp at g1
        simp only [Option.some.injEq]; omega

theorem SInv.length_le {links : Nat → Option (List Link)} {pi : Nat → Nat} {I : Nat → Nat → Prop} {BK : Nat} {pend : Nat → Link → Prop} {S : List Nat} {K : Nat}
    (h : SInv n links s pi I rel BK pend a p S K) : S.length ≤ n := by
  have hsub : S ⊆ List.range n := by
    intro x hx; simp; exact (h.sett x hx).1
  simpa using (List.subperm_of_subset h.nodup hsub).length_le

/-- What holds after a query. -/
structure Fin (n : Nat) (fl : Nat → Option (List Link)) (s t cap : Nat) (r : BiD.Res) : Prop where
  rf : ∃ a, Refines n r.fd a
  rb : ∃ a, Refines n r.bd a
  ans : CapAnswer (LArc fl) s t cap r.result
  path : ∀ x, r.result = some x → ∃ ns y, BiD.nodePath r s t = some ns ∧ ns.head? = some s ∧ ns.getLast? = some t ∧
    PathOf (LArc fl) ns y ∧ y ≤ x

/-- The path over a meeting node. -/
theorem path_spec (hs : BiD.Setting n fl bl) {I J : Nat → Nat → Prop} {BK : Nat} (hsn : s < n) (htn : t < n)
    (rf : Refines n fd a) (rb : Refines n bd b) (sf : SInv n fl s pf I rel BK (fun _ _ => False) a p SF KF)
    (sb : SInv n bl t pb J rel BK (fun _ _ => False) b q SB KB) {m x : Nat} (hD : a.D m < INFINITY) (hE : b.D m < INFINITY)
    (hx : a.D m + b.D m ≤ x) (r : Option Nat) :
    ∃ ns y, BiD.nodePath ⟨r, fd, bd, m⟩ s t = some ns ∧ ns.head? = some s ∧ ns.getLast? = some t ∧ PathOf (LArc fl) ns y ∧ y ≤ x := by
  obtain ⟨ns, l, hc⟩ := sf.pinv m hD
  obtain ⟨ms, l', hc'⟩ := sb.pinv m hE
  have h1 := hc.loop (d := fd) rf.pred (fd.pred.length + 2) [m] (by rw [rf.plen]; have := hc.length_le hsn; omega)
  have h2 := hc'.loop (d := bd) rb.pred (bd.pred.length + 2) (ns ++ [m]) (by rw [rb.plen]; have := hc'.length_le htn; omega)
  obtain ⟨g1, g2⟩ := hc.pathOf
  obtain ⟨e1, e2⟩ := hc'.pathOf
  refine ⟨ns ++ m :: ms.reverse, l + l', ?_, ?_, ?_, ?_, ?_⟩
  · simp [BiD.nodePath, h1, h2]
  · cases ns <;> simpa using g1
  · cases ms with
    | nil => simpa using e1
    | cons m ms => simp at e1; simp [e1, List.getLast?_cons]
  · refine BiD.pathOf_append g2 ?_
    have := BiD.pathOf_reverse (B := LArc fl) (fun u v w ha => (hs.rev v u w).1 ha) e2
    simpa using this
  · have := hc.le.1
    have := hc'.le.1
    omega

/-- The loop. -/
theorem loop_spec (hc : Ctx n fl bl s t pf pb W P X cap rel) (hsn : s < n) (htn : t < n) :
    ∀ (fuel : Nat) (fd bd : DData Unit) (c : Nat × Nat) (a b : Abs Unit) (p q : Nat → Prop) (SF SB : List Nat) (KF KB : Nat),
      2 * n + 1 ≤ fuel + SF.length + SB.length →
      Inv imp n fl bl s t pf pb (X + W + P) cap rel fd bd c a b p q SF SB KF KB →
    ∃ r, BiD.loop (symmetricBi imp (opt pf) (opt pb)) minKeyDir fl bl s t cap fuel () fd bd c = some r ∧ Fin n fl s t cap r := by
  intro fuel
  induction fuel with
  | zero =>
    intro fd bd c a b p q SF SB KF KB hf hi
    have := hi.sf.length_le
    have := hi.sb.length_le
    omega
  | succ fuel ih =>
    intro fd bd c a b p q SF SB KF KB hf hi
    have hstop : (∀ d, IsDist (LArc fl) s t d → d < INFINITY → d < cap → c.1 ≤ d) →
        Fin n fl s t cap ⟨if c.1 = INFINITY then none else some c.1, fd, bd, c.2⟩ := by
      intro hcov
      have hub := hi.j.ub
      refine ⟨⟨a, hi.rf⟩, ⟨b, hi.rb⟩, ⟨?_, ?_⟩, ?_⟩
      rotate_left 2
      · intro x hx
        by_cases h : c.1 = INFINITY
        · simp [h] at hx
        · simp [h] at hx; subst hx
          obtain ⟨_, g1⟩ := hi.j.meet (by omega)
          exact path_spec hc.set hsn htn hi.rf hi.rb hi.sf hi.sb (by omega) (by omega) g1 _
      · intro d hd
        by_cases h : c.1 = INFINITY
        · simp [h] at hd
        · simp [h] at hd; subst hd
          exact ⟨hi.j.walk (by omega), by omega⟩
      · intro d hd h1 h2
        have h3 := hcov d hd h1 h2
        have h4 : c.1 ≠ INFINITY := by omega
        have := hd.2 _ (hi.j.walk (by omega))
        simp [h4]; omega
    -- a step forward
    have hfw : ∀ k, fd.peekKey = some k → k < min c.1 cap →
        ∃ u fd' c', settleNext fl defaultOps (BiD.cb (pruneInternal imp (opt pf) (opt pb)) (opt pf) bd cap) fd c = some (some u, fd', c') ∧
          ((u = t ∧ ∃ x, fd'.dist.get t = some x ∧ Fin n fl s t cap ⟨some x, fd', bd, t⟩) ∨
           (u ≠ t ∧ ∃ r, BiD.loop (symmetricBi imp (opt pf) (opt pb)) minKeyDir fl bl s t cap fuel () fd' bd c' = some r ∧
              Fin n fl s t cap r)) := by
      intro k hk hkM
      obtain ⟨u, fd', c', a', p', h1, h2, h3⟩ := step hc hi hk hkM
      refine ⟨u, fd', c', h1, ?_⟩
      by_cases hu : u = t
      · obtain ⟨h4, h5, h6, h7⟩ := h3 hu
        refine .inl ⟨hu, a'.D t, h4, ⟨a', h2.rf⟩, ⟨b, h2.rb⟩, h7, ?_⟩
        intro x hx
        simp at hx; subst hx
        have h0 := h2.sb.src
        exact path_spec hc.set hsn htn h2.rf h2.rb h2.sf h2.sb h6 (by rw [h0]; decide) (by omega) _
      · obtain ⟨r, h4, h5⟩ := ih fd' bd c' a' b p' q (u :: SF) SB k KB (by simp; omega) h2
        exact .inr ⟨hu, r, h4, h5⟩
    -- a step backward
    have hbw : ∀ k, bd.peekKey = some k → k < min c.1 cap →
        ∃ u bd' c', settleNext bl defaultOps (BiD.cb (pruneInternal imp (opt pb) (opt pf)) (opt pb) fd cap) bd c = some (some u, bd', c') ∧
          ((u = s ∧ ∃ x, bd'.dist.get s = some x ∧ Fin n fl s t cap ⟨some x, fd, bd', s⟩) ∨
           (u ≠ s ∧ ∃ r, BiD.loop (symmetricBi imp (opt pf) (opt pb)) minKeyDir fl bl s t cap fuel () fd bd' c' = some r ∧
              Fin n fl s t cap r)) := by
      intro k hk hkM
      obtain ⟨u, bd', c', a', p', h1, h2, h3⟩ := step hc.symm (hi.symm hc.set) hk hkM
      refine ⟨u, bd', c', h1, ?_⟩
      have h2' := h2.symm hc.set.symm
      by_cases hu : u = s
      · obtain ⟨h4, g1, g2, h5, h6⟩ := h3 hu
        refine .inl ⟨hu, a'.D s, h4, ⟨a, h2'.rf⟩, ⟨a', h2'.rb⟩, ⟨?_, ?_⟩, ?_⟩
        rotate_left 2
        · intro x hx
          simp at hx; subst hx
          have h0 := h2'.sf.src
          exact path_spec hc.set hsn htn h2'.rf h2'.rb h2'.sf h2'.sb (by rw [h0]; decide) g2 (by omega) _
        · intro d hd
          obtain ⟨g1, g2⟩ := h5 d hd
          exact ⟨hc.set.walk g1, g2⟩
        · intro d hd; exact h6 d ((isDist_rev hc.set).2 hd)
      · obtain ⟨r, h4, h5⟩ := ih fd bd' c' a a' p p' SF (u :: SB) KF k (by simp; omega) h2'
        exact .inr ⟨hu, r, h4, h5⟩
    have hmidf := fun d hd hm => mid_key (d := d) hc hi hd hm
    have hmidb := fun d (hd : d < INFINITY) hm => mid_key (d := d) hc.symm (hi.symm hc.set) hd (Mid.symm hc.set hm)
    -- stopping
    have hfin : ∀ (st : Bool), BiD.stopCheck (symmetricBi imp (opt pf) (opt pb)) minKeyDir () fd bd (min c.1 cap) = some st →
        (st = true → ∀ d, IsDist (LArc fl) s t d → d < INFINITY → d < cap → c.1 ≤ d) →
        (st = false → (∃ k, fd.peekKey = some k ∧ k < min c.1 cap ∧ (minKeyDir.choose () fd.peekKey bd.peekKey).1 = true) ∨
          (∃ k, bd.peekKey = some k ∧ k < min c.1 cap ∧ (minKeyDir.choose () fd.peekKey bd.peekKey).1 = false)) →
        ∃ r, BiD.loop (symmetricBi imp (opt pf) (opt pb)) minKeyDir fl bl s t cap (fuel + 1) () fd bd c = some r ∧ Fin n fl s t cap r := by
      intro st hst h1 h2
      cases st with
      | true => exact ⟨_, by simp [BiD.loop, hst], hstop (h1 rfl)⟩
      | false =>
        rcases h2 rfl with ⟨k, g1, g2, g3⟩ | ⟨k, g1, g2, g3⟩
        · obtain ⟨u, fd', c', e1, e2⟩ := hfw k g1 g2
          have e1' : settleNext fl defaultOps (BiD.cb (symmetricBi imp (opt pf) (opt pb)).pruneF (symmetricBi imp (opt pf) (opt pb)).fw bd cap)
              fd c = some (some u, fd', c') := e1
          rcases e2 with ⟨rfl, x, e2, e3⟩ | ⟨hu, r, e2, e3⟩
          · refine ⟨_, ?_, e3⟩
            simp [BiD.loop, hst, g3, e1', e2]
          · refine ⟨r, ?_, e3⟩
            simp [BiD.loop, hst, g3, e1', hu, e2]
        · obtain ⟨u, bd', c', e1, e2⟩ := hbw k g1 g2
          have e1' : settleNext bl defaultOps (BiD.cb (symmetricBi imp (opt pf) (opt pb)).pruneB (symmetricBi imp (opt pf) (opt pb)).bw fd cap)
              bd c = some (some u, bd', c') := e1
          rcases e2 with ⟨rfl, x, e2, e3⟩ | ⟨hu, r, e2, e3⟩
          · refine ⟨_, ?_, e3⟩
            simp [BiD.loop, hst, g3, e1', e2]
          · refine ⟨r, ?_, e3⟩
            simp [BiD.loop, hst, g3, e1', hu, e2]
    have hub := hi.j.ub
    cases hf0 : fd.peekKey with
    | none =>
      cases hb0 : bd.peekKey with
      | none =>
        refine hfin true (by simp [BiD.stopCheck, minKeyDir, symmetricBi, hf0, hb0]) ?_ (by simp)
        intro _ d hd h1 h2
        rcases hi.mid d hd h1 h2 with h | h
        · exact h
        · obtain ⟨k, g1, _⟩ := hmidf d h1 h; rw [hf0] at g1; simp at g1
      | some kb =>
        refine hfin (decide (kb ≥ min c.1 cap) || decide (min c.1 cap = INFINITY))
          (by simp [BiD.stopCheck, minKeyDir, symmetricBi, hf0, hb0]) ?_ ?_
        · intro _ d hd h1 h2
          rcases hi.mid d hd h1 h2 with h | h
          · exact h
          · obtain ⟨k, g1, _⟩ := hmidf d h1 h; rw [hf0] at g1; simp at g1
        · intro h
          simp at h
          right
          exact ⟨kb, hb0, by omega, by simp [minKeyDir, hf0, hb0]⟩
    | some kf =>
      cases hb0 : bd.peekKey with
      | none =>
        refine hfin (decide (kf ≥ min c.1 cap) || decide (min c.1 cap = INFINITY))
          (by simp [BiD.stopCheck, minKeyDir, symmetricBi, hf0, hb0]) ?_ ?_
        · intro _ d hd h1 h2
          rcases hi.mid d hd h1 h2 with h | h
          · exact h
          · obtain ⟨k, g1, _⟩ := hmidb d h1 h; rw [hb0] at g1; simp at g1
        · intro h
          simp at h
          left
          exact ⟨kf, hf0, by omega, by simp [minKeyDir, hf0, hb0]⟩
      | some kb =>
        refine hfin (decide (kf ≥ min c.1 cap) && decide (kb ≥ min c.1 cap))
          (by simp [BiD.stopCheck, minKeyDir, symmetricBi, hf0, hb0]) ?_ ?_
        · intro hst d hd h1 h2
          rcases hi.mid d hd h1 h2 with h | h
          · exact h
          · obtain ⟨k, g1, g2⟩ := hmidb d h1 h
            rw [hb0] at g1; simp only [Option.some.injEq] at g1
            simp at hst
            omega
        · intro hst
          by_cases hle : kf ≤ kb
          · left
            refine ⟨kf, hf0, ?_, by simp [minKeyDir, hf0, hb0, hle]⟩
            apply Classical.byContradiction
            intro h
            simp at hst; omega
          · right
            refine ⟨kb, hb0, ?_, by simp [minKeyDir, hf0, hb0]; omega⟩
            apply Classical.byContradiction
            intro h
            simp at hst; omega

/-- a search before its first step -/
theorem SInv.start {links : Nat → Option (List Link)} (hs : s < n) {pi : Nat → Nat} {I : Nat → Nat → Prop} {BK : Nat} {Pr : Nat → Nat × Unit} :
    SInv n links s pi I rel BK (fun _ _ => False)
      ⟨fupd (fun _ => INFINITY) s 0, fupd (fun _ => none) s (some 0), Pr⟩ (fun x => x = s) [] 0 where
  src := by simp
  actSrc := rfl
  ub := by intro x; simp only; unfold fupd; split <;> simp
  walk := by
    intro x hx
    simp only at hx ⊢
    by_cases h : x = s
    · subst h; simp; exact .nil _
    · rw [fupd_of_ne _ _ h] at hx; simp at hx
  sett := by simp
  nodup := by simp
  queue := by
    intro x k hk
    simp only at hk ⊢
    by_cases h : x = s
    · subst h; simp at hk; subst hk
      refine ⟨hs, by simp, by simp; decide, by simp [lo], Nat.le_refl _⟩
    · rw [fupd_of_ne _ _ h] at hk; simp at hk
  actOK := by
    rintro x rfl
    refine ⟨by simp; decide, .inr (.inl (by simp [lo]))⟩
  inact := by
    intro x h hx
    simp only at hx
    rw [fupd_of_ne _ _ h] at hx; simp at hx
  relaxed := by simp
  ordS := by simp
  kb := by
    intro _ x k hk
    simp only at hk
    by_cases h : x = s
    · subst h; simp at hk; omega
    · rw [fupd_of_ne _ _ h] at hk; simp at hk
  pinv := by
    intro x hx
    simp only at hx
    by_cases h : x = s
    · subst h; exact ⟨_, _, .nil⟩
    · rw [fupd_of_ne _ _ h] at hx; simp at hx

/-- A query. -/
theorem query_spec (hc : Ctx n fl bl s t pf pb W P X cap rel) (hs : s < n) (ht : t < n) (meet : Nat) (hrf : Refines n fd a) (hrb : Refines n bd b) :
    ∃ r, BiD.distanceWithCap (symmetricBi imp (opt pf) (opt pb)) minKeyDir n fl bl fd bd meet s t cap = some r ∧ Fin n fl s t cap r := by
  obtain ⟨fd', h1, h2⟩ := init_refines hrf hs 0
  obtain ⟨bd', h3, h4⟩ := init_refines hrb ht 0
  have hf := SInv.start (links := fl) (pi := pf) (I := Irr imp (min INFINITY cap) (qmin bd') pf pb) (BK := X + W + P) (rel := rel)
    (Pr := fupd a.P s (s, (a.P s).2)) hs
  have hb := SInv.start (links := bl) (pi := pb) (I := Irr imp (min INFINITY cap) (qmin fd') pb pf) (BK := X + W + P) (rel := rel)
    (Pr := fupd b.P t (t, (b.P t).2)) ht
  have hpf : fd'.peekKey = some 0 := by
    rcases BiD.peekKey_spec h2 with ⟨_, h⟩ | ⟨v, k, g1, g2, _⟩
    · have := h s; simp at this
    · by_cases hv : v = s
      · subst hv; simp at g2; rw [g1, ← g2]
      · simp only at g2; rw [fupd_of_ne _ _ hv] at g2; simp at g2
  have hpb : bd'.peekKey = some 0 := by
    rcases BiD.peekKey_spec h4 with ⟨_, h⟩ | ⟨v, k, g1, g2, _⟩
    · have := h t; simp at this
    · by_cases hv : v = t
      · subst hv; simp at g2; rw [g1, ← g2]
      · simp only at g2; rw [fupd_of_ne _ _ hv] at g2; simp at g2
  by_cases hst : s = t
  · subst hst
    by_cases hcap : cap = 0
    · refine ⟨⟨none, fd', bd', meet⟩, ?_, ⟨_, h2⟩, ⟨_, h4⟩, ⟨by simp, fun d _ _ h => by omega⟩, by simp⟩
      have : BiD.stopCheck (symmetricBi imp (opt pf) (opt pb)) minKeyDir () fd' bd' (min INFINITY cap) = some true := by
        simp [BiD.stopCheck, minKeyDir, symmetricBi, hpf, hpb, hcap]
      simp only [BiD.distanceWithCap, h1, h3, Option.bind_eq_bind, Option.bind_some, BiD.loop]
      rw [show minKeyDir.init = () from rfl, this]
      simp
    · have hj : Joint n (LArc fl) s s (INFINITY, meet) (fupd (fun _ => INFINITY) s 0) (fun x => x = s) (fupd (fun _ => INFINITY) s 0) (fun _ => False) :=
        ⟨Nat.le_refl _, fun _ _ h => h.elim, fun h => absurd h (Nat.lt_irrefl _), fun h => absurd h (Nat.lt_irrefl _)⟩
      have hwalk : ∀ x l, Walk (LArc fl) s x l → fupd (fun _ => INFINITY) s 0 x < INFINITY →
          Walk (LArc fl) s s (l + fupd (fun _ => INFINITY) s 0 x) := by
        intro x l hw hx
        by_cases h : x = s
        · subst h; simpa using hw
        · rw [fupd_of_ne _ _ h] at hx; simp at hx
      have hM : min INFINITY cap ≠ 0 := by simp only [INFINITY]; omega
      obtain ⟨u, d1, c1, a1, p1, g1, g2, g3, g4, g5, g6, g7, g8, g9⟩ := settle_spec (A := LArc fl) (t := s) (cap := cap) (c := (INFINITY, meet)) (k := 0) (q := fun _ => False) hc.fw hc.bw.piI h4 hb.ub hwalk
        (by
          intro c w1 w2
          obtain ⟨d, w3, w4⟩ := exists_isDist w1
          exact hc.relIff.2 (.inr ⟨d, w4, by omega⟩))
        (fun h => hc.relIff.2 (.inl h)) (by intro _; simp only [qmin, hpb, Option.getD_some]; omega) hc.bound h2 hf hj hpf (by decide) (by intro _; omega)
      have hu : u = s := by
        apply Classical.byContradiction
        intro h
        simp only at g8; rw [fupd_of_ne _ _ h] at g8; simp at g8
      subst hu
      refine ⟨⟨some 0, d1, bd', u⟩, ?_, ⟨_, g2⟩, ⟨_, h4⟩, ⟨?_, ?_⟩, ?_⟩
      rotate_left 3
      · intro x hx
        exact ⟨[u], 0, by simp [BiD.nodePath, nodePathLoop], rfl, rfl, .single u, by omega⟩
      · have e0 : BiD.stopCheck (symmetricBi imp (opt pf) (opt pb)) minKeyDir () fd' bd' (min INFINITY cap) = some false := by
          simp [BiD.stopCheck, minKeyDir, symmetricBi, hpf, hpb]
          refine ⟨by simp only [INFINITY]; omega, ?_⟩
          omega
        have e1 : settleNext fl defaultOps (BiD.cb (symmetricBi imp (opt pf) (opt pb)).pruneF (symmetricBi imp (opt pf) (opt pb)).fw bd' cap)
              fd' (INFINITY, meet) = some (some u, d1, c1) := g1
        have e2 : d1.dist.get u = some 0 := by
          rw [g2.get hs, g5]; simp
        simp only [BiD.distanceWithCap, h1, h3, Option.bind_eq_bind, Option.bind_some, BiD.loop]
        rw [show minKeyDir.init = () from rfl, e0]
        simp [hpf, hpb, minKeyDir, e1, e2]
      · intro d hd; simp at hd; subst hd; exact ⟨.nil _, by decide⟩
      · intro d hd _ _
        have := hd.2 0 (.nil _)
        simp; omega
  · have hinv : Inv imp n fl bl s t pf pb (X + W + P) cap rel fd' bd' (INFINITY, meet)
        ⟨fupd (fun _ => INFINITY) s 0, fupd (fun _ => none) s (some 0), fupd a.P s (s, (a.P s).2)⟩
        ⟨fupd (fun _ => INFINITY) t 0, fupd (fun _ => none) t (some 0), fupd b.P t (t, (b.P t).2)⟩ (fun x => x = s) (fun x => x = t) [] [] 0 0 := by
      refine ⟨h2, h4, hf, hb, ⟨Nat.le_refl _, ?_, fun h => absurd h (Nat.lt_irrefl _), fun h => absurd h (Nat.lt_irrefl _)⟩, ?_⟩
      · rintro x rfl h; exact absurd h hst
      · intro d hd _ _
        right
        exact ⟨s, t, 0, d, 0, .nil _, hd.1, .nil _, by omega, by simp, rfl, by simp, by simp, rfl, by simp⟩
    obtain ⟨r, h5, h6⟩ := loop_spec hc hs ht (2 * n + 3) fd' bd' (INFINITY, meet) _ _ _ _ [] [] 0 0 (by simp) hinv
    refine ⟨r, ?_, h6⟩
    simp only [BiD.distanceWithCap, h1, h3, Option.bind_eq_bind, Option.bind_some]
    exact h5

end

end BiA
end Verif
