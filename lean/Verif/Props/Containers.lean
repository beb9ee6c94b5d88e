import Verif.Proof.Containers
/- Properties C01 - C05: compact options, node orders, resettable vectors. -/
namespace Verif
open Spec

/-! ### C01 -/

/-- **C01.** Packing and reading back: everything except the sentinel survives, `None` survives, and the sentinel is
refused. -/
theorem C01_in_range_option_round_trip {α : Type} [Sentinel α] [DecidableEq α] (o : Option α) :
    (o ≠ some Sentinel.sentinel → ∃ p, InRangeOption.new o = some p ∧ p.value = o) ∧
    (o = some Sentinel.sentinel → InRangeOption.new o = none) := by
  constructor
  · intro h
    cases o with
    | none => exact ⟨⟨Sentinel.sentinel⟩, rfl, by simp [InRangeOption.value]⟩
    | some v =>
      have hv : v ≠ Sentinel.sentinel := fun h' => h (by rw [h'])
      exact ⟨⟨v⟩, by simp [InRangeOption.new, hv], by simp [InRangeOption.value, hv]⟩
  · rintro rfl; simp [InRangeOption.new]

/-- **C01**, for `some` and `NONE`. -/
theorem C01_some_and_none {α : Type} [Sentinel α] [DecidableEq α] (v : α) :
    (InRangeOption.some' v = if v = Sentinel.sentinel then none else some ⟨v⟩) ∧
    (∀ p, InRangeOption.some' v = some p → p.value = some v) ∧
    (InRangeOption.NONE : InRangeOption α).value = none := by
  refine ⟨?_, ?_, by simp [InRangeOption.NONE, InRangeOption.value]⟩
  · by_cases h : v = Sentinel.sentinel <;> simp [InRangeOption.some', h]
  · intro p hp
    by_cases h : v = Sentinel.sentinel <;> simp [InRangeOption.some', h] at hp
    subst hp; simp [InRangeOption.value, h]

/-- The sentinels the code uses are the largest `u32` and the smallest `i32`. -/
example : (Sentinel.sentinel : UInt32).toNat = 2 ^ 32 - 1 ∧ (Sentinel.sentinel : Int32).toInt = -2 ^ 31 := by decide
example : (some (7 : UInt32)) ≠ some Sentinel.sentinel := by decide

/-! ### C02 -/

/-- `xs` lists every number below its length exactly once. -/
def IsPermutation (xs : List Nat) : Prop := xs.Perm (List.range xs.length)

/-- **C02.** `from_node_order` accepts exactly the permutations (of at most `u32::MAX - 1` nodes). -/
theorem C02_from_node_order_accepts_exactly_permutations (xs : List Nat) :
    (∃ o, NodeOrder.fromNodeOrder xs = some o) ↔ IsPermutation xs ∧ xs.length < U32 - 1 := by
  constructor
  · rintro ⟨o, ho⟩
    simp only [NodeOrder.fromNodeOrder, Option.bind_eq_bind, Option.bind_eq_some_iff] at ho
    obtain ⟨inv, h, _⟩ := ho
    have := NodeOrder.invert_some h
    exact ⟨this.2.perm, this.1⟩
  · rintro ⟨h1, h2⟩
    obtain ⟨inv, h⟩ := NodeOrder.invert_of_perm h2 h1
    exact ⟨⟨xs, inv⟩, by simp [NodeOrder.fromNodeOrder, h]⟩

/-- **C02.** Both lookups of an order built from a node list are defined exactly on `0..n` and are inverse to each other;
`node` is the given list. -/
theorem C02_rank_node_inverse (xs : List Nat) (o : NodeOrder) (h : NodeOrder.fromNodeOrder xs = some o) :
    o.len = xs.length ∧ (∀ r, o.node r = xs[r]?) ∧
    (∀ v, v < xs.length → ∃ r, r < xs.length ∧ o.rank v = some r ∧ o.node r = some v) ∧
    (∀ r, r < xs.length → ∃ v, v < xs.length ∧ o.node r = some v ∧ o.rank v = some r) := by
  simp only [NodeOrder.fromNodeOrder, Option.bind_eq_bind, Option.bind_eq_some_iff] at h
  obtain ⟨inv, h, ho⟩ := h
  obtain ⟨_, hi⟩ := NodeOrder.invert_some h
  simp at ho; subst ho
  refine ⟨rfl, fun r => rfl, ?_, ?_⟩
  · intro v hv
    have hv' : v < inv.length := by rw [hi.len]; exact hv
    have hr : inv[v]? = some inv[v] := List.getElem?_eq_getElem hv'
    have := (hi.inv _ _).2 hr
    exact ⟨_, (List.getElem?_eq_some_iff.1 this).1, hr, this⟩
  · intro r hr
    have hv : xs[r]? = some xs[r] := List.getElem?_eq_getElem hr
    have := (hi.inv _ _).1 hv
    refine ⟨_, ?_, hv, this⟩
    rw [← hi.len]; exact (List.getElem?_eq_some_iff.1 this).1

/-- **C02.** Building from the rank array of an order gives the same order, and vice versa. -/
theorem C02_from_ranks_from_node_order_agree (xs : List Nat) (o : NodeOrder) :
    (NodeOrder.fromNodeOrder xs = some o → NodeOrder.fromRanks o.ranks = some o) ∧
    (NodeOrder.fromRanks xs = some o → NodeOrder.fromNodeOrder o.nodeOrder = some o) := by
  have key : ∀ xs inv, NodeOrder.invert xs = some inv → NodeOrder.invert inv = some xs := by
    intro xs inv h
    obtain ⟨hn, hi⟩ := NodeOrder.invert_some h
    have hs := hi.symm
    obtain ⟨inv', h'⟩ := NodeOrder.invert_of_perm (by rw [hi.len]; exact hn) hs.perm
    have := NodeOrder.Inverse.unique hs (NodeOrder.invert_some h').2
    rw [h', this]
  constructor
  · intro h
    simp only [NodeOrder.fromNodeOrder, Option.bind_eq_bind, Option.bind_eq_some_iff] at h
    obtain ⟨inv, h, ho⟩ := h
    simp at ho; subst ho
    simp [NodeOrder.fromRanks, key _ _ h]
  · intro h
    simp only [NodeOrder.fromRanks, Option.bind_eq_bind, Option.bind_eq_some_iff] at h
    obtain ⟨inv, h, ho⟩ := h
    simp at ho; subst ho
    simp [NodeOrder.fromNodeOrder, key _ _ h]

/-- **C02.** The identity order maps every node to itself. -/
theorem C02_identity (n v : Nat) (h : v < n) :
    (NodeOrder.identity n).rank v = some v ∧ (NodeOrder.identity n).node v = some v := by
  simp [NodeOrder.identity, NodeOrder.rank, NodeOrder.node, h]

example : NodeOrder.fromNodeOrder [2, 0, 3, 1] = some ⟨[2, 0, 3, 1], [1, 3, 0, 2]⟩ := by decide
example : NodeOrder.fromNodeOrder [2, 0, 2, 1] = none := by decide

/-! ### C03 -/

/-- One API call on the model of `TimestampedVector`. -/
def TSVec.exec {α : Type} (v : TSVec α) : VecOp α → Option (Option α × TSVec α)
  | .get i => (v.get i).map fun x => (some x, v)
  | .set i x => (v.set i x).map fun v' => (none, v')
  | .modify i f => (v.modify i f).map fun v' => (none, v')
  | .reset => some (none, v.reset)

theorem TSVec.exec_spec {α : Type} {v : TSVec α} {l : List α} (h : v.Rep l) (op : VecOp α) :
    (v.exec op = none ∧ plainExec v.default l op = none) ∨
    ∃ out v' l', v.exec op = some (out, v') ∧ plainExec v.default l op = some (out, l') ∧ v'.Rep l' ∧
      v'.default = v.default := by
  cases op with
  | get i =>
    by_cases hi : i < l.length
    · right
      refine ⟨some l[i], v, l, ?_, by simp [plainExec, hi], h, rfl⟩
      simp [exec, h.get, List.getElem?_eq_getElem hi]
    · left
      simp [exec, h.get, plainExec, hi]
  | set i x =>
    by_cases hi : i < l.length
    · right
      obtain ⟨v', h1, h2, h3⟩ := rep_set h x hi
      exact ⟨none, v', _, by simp [exec, h1], by simp [plainExec, hi], h2, h3⟩
    · left
      simp [exec, set_oob h hi, plainExec, hi]
  | modify i f =>
    by_cases hi : i < l.length
    · right
      obtain ⟨v', h1, h2, h3⟩ := rep_modify h f (List.getElem?_eq_getElem hi)
      exact ⟨none, v', _, by simp [exec, h1], by simp [plainExec, hi], h2, h3⟩
    · left
      simp [exec, modify, get_oob h hi, plainExec, hi]
  | reset =>
    right
    exact ⟨none, v.reset, _, rfl, rfl, rep_reset h, rfl⟩

/-- **C03.** For every size and every history of reads, writes, in-place modifications and resets - however long, so
including any number of wrap-arounds of the 32 bit epoch - a `TimestampedVector` returns the same results (and panics
at the same calls) as a plain vector that is refilled on reset. -/
theorem C03_timestamped_vector_is_a_plain_vector {α : Type} (d : α) (n : Nat) (ops : List (VecOp α)) :
    runHistory TSVec.exec (TSVec.new d n) ops = runHistory (plainExec d) (List.replicate n d) ops := by
  have key : ∀ (ops : List (VecOp α)) (v : TSVec α) (l : List α), v.Rep l → v.default = d →
      runHistory TSVec.exec v ops = runHistory (plainExec d) l ops := by
    intro ops
    induction ops with
    | nil => intros; rfl
    | cons op ops ih =>
      intro v l h hd
      rcases TSVec.exec_spec h op with ⟨h1, h2⟩ | ⟨out, v', l', h1, h2, h3, h4⟩
      · rw [hd] at h2; simp [runHistory, h1, h2]
      · rw [hd] at h2 h4
        simp [runHistory, h1, h2, ih v' l' h3 h4]
  exact key ops _ _ (TSVec.rep_new d n) rfl

/-- The epoch really wraps: the last epoch before the wrap-around is followed by epoch 0, and the value written in the
original epoch 0 is not visible. -/
example : ((⟨[7], U32 - 1, [0], 9⟩ : TSVec Nat).reset).get 0 = some 9 := by decide
example : runHistory TSVec.exec (TSVec.new 9 2) [.set 0 1, .get 0, .reset, .get 0, .modify 1 (· + 1), .get 1] =
  some [none, some 1, none, some 9, none, some 10] := by decide

/-! ### C04 -/

/-- One API call on the model of `AtomicDists` (it has no in-place modification). -/
def AtomicDists.exec (v : AtomicDists) : VecOp Nat → Option (Option Nat × AtomicDists)
  | .get i => (v.get i).map fun x => (some x, v)
  | .set i x => (v.set i x).map fun v' => (none, v')
  | .modify _ _ => none
  | .reset => some (none, v.reset)

/-- The calls `AtomicDists` offers; weights are `u32`. -/
def AtomicDists.Call : VecOp Nat → Prop
  | .get _ => True
  | .set _ w => w < U32
  | .modify _ _ => False
  | .reset => True

/-- **C04.** For every size and every history of get, set and reset, `AtomicDists` returns the same results as a plain
vector of weights refilled with `INFINITY` on reset. -/
theorem C04_atomic_dists_is_a_plain_vector (n : Nat) (ops : List (VecOp Nat)) (hc : ∀ op ∈ ops, AtomicDists.Call op) :
    runHistory AtomicDists.exec (AtomicDists.new n) ops =
      runHistory (plainExec INFINITY) (List.replicate n INFINITY) ops := by
  have key : ∀ (ops : List (VecOp Nat)) (v : AtomicDists) (l : List Nat), v.Rep l → (∀ op ∈ ops, AtomicDists.Call op) →
      runHistory AtomicDists.exec v ops = runHistory (plainExec INFINITY) l ops := by
    intro ops
    induction ops with
    | nil => intros; rfl
    | cons op ops ih =>
      intro v l h hc
      have hcs := fun o ho => hc o (List.mem_cons_of_mem _ ho)
      cases op with
      | get i =>
        by_cases hi : i < l.length
        · simp [runHistory, AtomicDists.exec, plainExec, h.get, hi, ih v l h hcs]
        · simp [runHistory, AtomicDists.exec, plainExec, h.get, hi]
      | set i w =>
        by_cases hi : i < l.length
        · obtain ⟨v', h1, h2⟩ := AtomicDists.rep_set h hi (hc (.set i w) (by simp))
          simp [runHistory, AtomicDists.exec, plainExec, h1, hi, ih v' _ h2 hcs]
        · simp [runHistory, AtomicDists.exec, plainExec, AtomicDists.set_oob h hi, hi]
      | modify i f => exact (hc (.modify i f) (by simp)).elim
      | reset => simp [runHistory, AtomicDists.exec, plainExec, ih _ _ (AtomicDists.rep_reset h) hcs]
  exact key ops _ _ (AtomicDists.rep_new n) hc

example : runHistory AtomicDists.exec (AtomicDists.new 2) [.set 0 5, .get 0, .reset, .get 0] =
  some [none, some 5, none, some INFINITY] := by decide

/-! ### C05 -/

/-- One API call on the model of `ClearlistVector`: writes go through `index_mut`. -/
def ClearVec.exec {α : Type} [DecidableEq α] (v : ClearVec α) : VecOp α → Option (Option α × ClearVec α)
  | .get i => (v.get i).map fun x => (some x, v)
  | .set i x => (v.modify i (fun _ => x)).map fun v' => (none, v')
  | .modify i f => (v.modify i f).map fun v' => (none, v')
  | .reset => v.reset.map fun v' => (none, v')

/-- **C05.** For every size, default and history, a `ClearlistVector` behaves like a plain vector that is refilled on
reset. -/
theorem C05_clearlist_vector_is_a_plain_vector {α : Type} [DecidableEq α] (d : α) (n : Nat) (ops : List (VecOp α)) :
    runHistory ClearVec.exec (ClearVec.new n d) ops = runHistory (plainExec d) (List.replicate n d) ops := by
  have key : ∀ (ops : List (VecOp α)) (v : ClearVec α) (l : List α), v.Rep l → v.default = d →
      runHistory ClearVec.exec v ops = runHistory (plainExec d) l ops := by
    intro ops
    induction ops with
    | nil => intros; rfl
    | cons op ops ih =>
      intro v l h hd
      have hm : ∀ i f, ¬ i < l.length → v.modify i f = none := by
        intro i f hi
        have : v.data[i]? = none := by rw [h.data]; simp; omega
        simp [ClearVec.modify, this]
      cases op with
      | get i =>
        by_cases hi : i < l.length
        · simp [runHistory, ClearVec.exec, ClearVec.get, h.data, plainExec, hi, ih v l h hd]
        · simp [runHistory, ClearVec.exec, ClearVec.get, h.data, plainExec, hi]
      | set i x =>
        by_cases hi : i < l.length
        · obtain ⟨v', h1, h2, h3⟩ := ClearVec.rep_modify h (fun _ => x) (List.getElem?_eq_getElem hi)
          simp [runHistory, ClearVec.exec, h1, plainExec, hi, ih v' _ h2 (by rw [h3, hd])]
        · simp [runHistory, ClearVec.exec, hm _ _ hi, plainExec, hi]
      | modify i f =>
        by_cases hi : i < l.length
        · obtain ⟨v', h1, h2, h3⟩ := ClearVec.rep_modify h f (List.getElem?_eq_getElem hi)
          simp [runHistory, ClearVec.exec, h1, plainExec, hi, ih v' _ h2 (by rw [h3, hd])]
        · simp [runHistory, ClearVec.exec, hm _ _ hi, plainExec, hi]
      | reset =>
        obtain ⟨v', h1, h2, h3⟩ := ClearVec.rep_reset h
        rw [hd] at h2
        simp [runHistory, ClearVec.exec, h1, plainExec, ih v' _ h2 (by rw [h3, hd])]
  exact key ops _ _ (ClearVec.rep_new d n) rfl

example : runHistory ClearVec.exec (ClearVec.new 2 0) [.set 0 5, .modify 0 (fun _ => 0), .set 0 3, .reset, .get 0] =
  some [none, none, none, none, some 0] := by decide

end Verif
