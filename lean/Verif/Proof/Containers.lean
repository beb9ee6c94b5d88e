import Verif.Model.Containers
import Verif.Spec.Vector
import Mathlib.Data.List.Perm.Subperm
set_option linter.unusedSimpArgs false
/- Helper lemmas for the small containers. -/
namespace Verif

theorem getElem?_replicate_lt {α : Type _} {n i : Nat} (x : α) (h : i < n) : (List.replicate n x)[i]? = some x := by
  simp [List.getElem?_replicate, h]

/-! ### NodeOrder -/
namespace NodeOrder

theorem invertGo_spec (xs : List Nat) (i : Nat) (inv inv' : List Nat) (h : invertGo xs i inv = some inv') :
    inv'.length = inv.length ∧ (∀ x ∈ xs, x < inv.length) ∧
    ∀ v, (v ∉ xs → inv'[v]? = inv[v]?) ∧ (v ∈ xs → ∃ j, xs[j]? = some v ∧ inv'[v]? = some (i + j)) := by
  induction xs generalizing i inv with
  | nil => simp [invertGo] at h; subst h; simp
  | cons x xs ih =>
    simp only [invertGo, Option.bind_eq_bind, Option.bind_eq_some_iff, upd_eq_some] at h
    obtain ⟨inv1, ⟨hx, rfl⟩, h⟩ := h
    obtain ⟨h1, h2, h3⟩ := ih (i+1) _ h
    simp at h1 h2
    refine ⟨h1, ?_, ?_⟩
    · intro y hy; rcases List.mem_cons.1 hy with hy | hy
      · subst hy; exact hx
      · exact h2 y hy
    · intro v
      obtain ⟨h4, h5⟩ := h3 v
      constructor
      · intro hv
        simp at hv
        rw [h4 hv.2]; simp [Ne.symm hv.1]
      · intro hv
        by_cases hvx : v ∈ xs
        · obtain ⟨j, hj, hj'⟩ := h5 hvx
          exact ⟨j+1, by simpa using hj, by rw [hj']; congr 1; omega⟩
        · have : v = x := by simpa [hvx] using hv
          subst this
          exact ⟨0, by simp, by rw [h4 hvx]; simp [hx]⟩

theorem invertGo_some (xs : List Nat) (i : Nat) (inv : List Nat) (h : ∀ x ∈ xs, x < inv.length) :
    ∃ inv', invertGo xs i inv = some inv' := by
  induction xs generalizing i inv with
  | nil => exact ⟨inv, rfl⟩
  | cons x xs ih =>
    obtain ⟨inv', h'⟩ := ih (i+1) (inv.set x i) (fun y hy => by simpa using h y (by simp [hy]))
    exact ⟨inv', by simp [invertGo, upd_of_lt, h x (by simp), h']⟩

/-- `inv` is the inverse of `xs` -/
structure Inverse (xs inv : List Nat) : Prop where
  perm : xs.Perm (List.range xs.length)
  len : inv.length = xs.length
  inv : ∀ i v : Nat, xs[i]? = some v ↔ inv[v]? = some i

theorem invert_some {xs inv : List Nat} (h : invert xs = some inv) :
    xs.length < U32 - 1 ∧ Inverse xs inv := by
  unfold invert at h
  simp only at h
  split at h
  · rename_i hn
    refine ⟨hn, ?_⟩
    simp only [Option.bind_eq_bind, Option.bind_eq_some_iff] at h
    obtain ⟨inv', hgo, h⟩ := h
    split at h
    · simp at h
    · rename_i hnin
      simp at h; subst h
      obtain ⟨h1, h2, h3⟩ := invertGo_spec _ _ _ _ hgo
      simp at h1 h2
      have hcov : ∀ v, v < xs.length → v ∈ xs := by
        intro v hv
        apply Classical.byContradiction
        intro hvx
        have h4 := (h3 v).1 hvx
        rw [getElem?_replicate_lt _ hv] at h4
        exact hnin (List.mem_of_getElem? h4)
      have hperm : xs.Perm (List.range xs.length) := by
        have hs : (List.range xs.length).Subperm xs :=
          List.Nodup.subperm List.nodup_range (fun v hv => hcov v (by simpa using hv))
        exact (hs.perm_of_length_le (by simp)).symm
      have hnd : xs.Nodup := hperm.nodup_iff.2 List.nodup_range
      refine ⟨hperm, h1, ?_⟩
      intro i v
      constructor
      · intro hi
        obtain ⟨j, hj, hj'⟩ := (h3 v).2 (List.mem_of_getElem? hi)
        rw [hj']
        have hil := (List.getElem?_eq_some_iff.1 hi).1
        have : i = j := (List.getElem?_inj hil hnd).1 (by rw [hi, hj])
        simp [this]
      · intro hv
        have hvl : v < xs.length := by
          rw [← h1]; exact (List.getElem?_eq_some_iff.1 hv).1
        obtain ⟨j, hj, hj'⟩ := (h3 v).2 (hcov v hvl)
        rw [hj'] at hv; simp at hv; subst hv; exact hj
  · simp at h

theorem invert_of_perm {xs : List Nat} (hn : xs.length < U32 - 1) (hp : xs.Perm (List.range xs.length)) :
    ∃ inv, invert xs = some inv := by
  have hlt : ∀ x ∈ xs, x < xs.length := fun x hx => by simpa using hp.mem_iff.1 hx
  obtain ⟨inv, hinv⟩ := invertGo_some xs 0 (List.replicate xs.length xs.length) (by simpa using hlt)
  refine ⟨inv, ?_⟩
  have hnin : xs.length ∉ inv := by
    intro hin
    obtain ⟨h1, h2, h3⟩ := invertGo_spec _ _ _ _ hinv
    obtain ⟨v, hv⟩ := List.mem_iff_getElem?.1 hin
    have hvl : v < xs.length := by
      have := (List.getElem?_eq_some_iff.1 hv).1; simpa [h1] using this
    have hvx : v ∈ xs := hp.mem_iff.2 (by simpa using hvl)
    obtain ⟨j, hj, hj'⟩ := (h3 v).2 hvx
    have := (List.getElem?_eq_some_iff.1 hj).1
    rw [hv] at hj'; simp at hj'; omega
  simp [invert, hn, hinv, hnin]

theorem Inverse.symm {xs inv : List Nat} (h : Inverse xs inv) : Inverse inv xs := by
  have hlt : ∀ v i : Nat, inv[v]? = some i → i < xs.length := by
    intro v i hv
    exact (List.getElem?_eq_some_iff.1 ((h.inv i v).2 hv)).1
  have hnd : inv.Nodup := by
    rw [List.Nodup, List.pairwise_iff_getElem]
    intro i j hi hj hij he
    replace he : inv[i]? = inv[j]? := by rw [List.getElem?_eq_getElem hi, List.getElem?_eq_getElem hj, he]
    have hj' : inv[j]? = some inv[j] := List.getElem?_eq_getElem hj
    rw [hj'] at he
    have h1 := (h.inv _ _).2 hj'
    have h2 := (h.inv _ _).2 he
    rw [h1] at h2; simp at h2; omega
  refine ⟨?_, h.len.symm, fun i v => (h.inv v i).symm⟩
  have hs : inv.Subperm (List.range inv.length) := hnd.subperm (by
    intro i hi
    obtain ⟨v, hv⟩ := List.mem_iff_getElem?.1 hi
    have := hlt v i hv
    simp [h.len, this])
  exact hs.perm_of_length_le (by simp)

theorem Inverse.unique {xs inv inv' : List Nat} (h : Inverse xs inv) (h' : Inverse xs inv') : inv = inv' := by
  apply List.ext_getElem?
  intro v
  apply Option.ext
  intro i
  rw [← h.inv, ← h'.inv]

end NodeOrder

/-! ### TimestampedVector -/
namespace TSVec
variable {α : Type}

/-- `v` represents the plain vector `l`. -/
structure Rep (v : TSVec α) (l : List α) : Prop where
  lenD : v.data.length = l.length
  lenT : v.timestamps.length = l.length
  cur : v.current < U32
  old : ∀ (i t : Nat), v.timestamps[i]? = some t → v.current < t → v.data[i]? = some v.default
  get : ∀ i, v.get i = l[i]?

theorem rep_new (d : α) (n : Nat) : Rep (TSVec.new d n) (List.replicate n d) := by
  refine ⟨by simp [new], by simp [new], by simp [new, U32], ?_, ?_⟩
  · intro i t h1 h2
    simp [new, List.getElem?_replicate] at *; omega
  · intro i
    by_cases hi : i < n
    · simp [TSVec.get, new, List.getElem?_replicate, hi]
    · simp [TSVec.get, new, List.getElem?_replicate, hi]

theorem rep_reset {v : TSVec α} {l : List α} (h : Rep v l) : Rep v.reset (List.replicate l.length v.default) := by
  have hl1 := h.lenD
  have hl2 := h.lenT
  have hcur := h.cur
  by_cases ho : v.current + 1 ≥ U32
  · have hc : (v.current + 1) % U32 = 0 := by
      have : v.current + 1 = U32 := by omega
      rw [this]; simp
    refine ⟨by simp [reset, ho, hl1], by simp [reset, ho, hl2], by show (v.current + 1) % U32 < U32; rw [hc]; decide, ?_, ?_⟩
    · intro i t h1 h2
      have hi : i < v.data.length := by
        have := (List.getElem?_eq_some_iff.1 h1).1; simp [reset] at this; omega
      simp [reset, ho, hi]
    · intro i
      by_cases hi : i < l.length
      · have h1 : i < v.timestamps.length := by omega
        have h2 : i < v.data.length := by omega
        simp [TSVec.get, reset, ho, h1, h2, hi, List.getElem?_replicate]
      · have h1 : v.timestamps[i]? = none := by simp; omega
        simp [TSVec.get, reset, h1, hi, List.getElem?_replicate]
  · have hc : (v.current + 1) % U32 = v.current + 1 := Nat.mod_eq_of_lt (by omega)
    refine ⟨by simp [reset, ho, hl1], by simp [reset, ho, hl2], by simp [reset, hc]; omega, ?_, ?_⟩
    · intro i t h1 h2
      simp [reset, ho, hc] at *
      exact h.old i t h1 (by omega)
    · intro i
      by_cases hi : i < l.length
      · have h1 : v.timestamps[i]? = some v.timestamps[i] := List.getElem?_eq_getElem (by omega)
        simp only [TSVec.get, reset, ho, hc, h1, Option.bind_eq_bind, Option.bind_some, if_false,
          getElem?_replicate_lt _ hi]
        split
        · rename_i he
          exact h.old i _ h1 (by omega)
        · rfl
      · have h1 : v.timestamps[i]? = none := by simp; omega
        simp [TSVec.get, reset, h1, hi, List.getElem?_replicate]

theorem rep_set {v : TSVec α} {l : List α} (h : Rep v l) {i : Nat} (x : α) (hi : i < l.length) :
    ∃ v', v.set i x = some v' ∧ Rep v' (l.set i x) ∧ v'.default = v.default := by
  have hl1 := h.lenD
  have hl2 := h.lenT
  refine ⟨{ v with data := v.data.set i x, timestamps := v.timestamps.set i v.current },
    by simp [set, upd_of_lt, hl1, hl2, hi], ⟨by simp [hl1], by simp [hl2], h.cur, ?_, ?_⟩, rfl⟩
  · intro j t h1 h2
    simp only at h1 h2 ⊢
    by_cases hj : i = j
    · subst hj; simp [hl2, hi] at h1; omega
    · simp [hj] at h1 ⊢; exact h.old j t h1 h2
  · intro j
    by_cases hj : i = j
    · subst hj; simp [TSVec.get, hl1, hl2, hi]
    · have := h.get j
      simp only [TSVec.get] at this ⊢
      simpa [hj] using this

theorem rep_modify {v : TSVec α} {l : List α} (h : Rep v l) {i : Nat} (f : α → α) {y : α} (hy : l[i]? = some y) :
    ∃ v', v.modify i f = some v' ∧ Rep v' (l.set i (f y)) ∧ v'.default = v.default := by
  have hl1 := h.lenD
  have hl2 := h.lenT
  have hi := (List.getElem?_eq_some_iff.1 hy).1
  have h1 : v.timestamps[i]? = some v.timestamps[i] := List.getElem?_eq_getElem (by omega)
  have hg := h.get i
  rw [hy] at hg
  simp only [TSVec.get, h1, Option.bind_eq_bind, Option.bind_some] at hg
  obtain ⟨v', h2, h3, h4⟩ := rep_set h (f y) hi
  refine ⟨v', ?_, h3, h4⟩
  rw [← h2]
  by_cases hc : v.timestamps[i] = v.current
  · simp only [hc, if_true] at hg
    have hs : v.timestamps.set i v.current = v.timestamps := by
      apply List.ext_getElem?
      intro j
      by_cases hj : i = j
      · subst hj; rw [List.getElem?_set_self (by omega), h1, hc]
      · simp [hj]
    rw [hc] at h1
    simp only [modify, set, h1, hg, Option.bind_eq_bind, Option.bind_some]
    simp [upd_of_lt, hl1, hl2, hi, hs]
  · simp only [hc, if_false, Option.some.injEq] at hg
    simp only [modify, set, h1, Option.bind_eq_bind, Option.bind_some]
    simp [upd_of_lt, hl1, hl2, hi, hc, ← hg, List.set_set]

theorem get_oob {v : TSVec α} {l : List α} (h : Rep v l) {i : Nat} (hi : ¬ i < l.length) : v.timestamps[i]? = none := by
  have := h.lenT
  simp; omega

theorem set_oob {v : TSVec α} {l : List α} (h : Rep v l) {i : Nat} (hi : ¬ i < l.length) (x : α) : v.set i x = none := by
  have := h.lenD
  simp [set, upd, show ¬ i < v.data.length by omega]

end TSVec

/-! ### AtomicDists -/
namespace AtomicDists

theorem toPair_fromPair {w ts : Nat} (hw : w < U32) : toPair (fromPair w ts) = (w, ts) := by
  unfold toPair fromPair
  rw [Nat.add_mul_mod_self_left, Nat.mod_eq_of_lt hw, Nat.add_mul_div_left _ _ (by simp [U32]), Nat.div_eq_of_lt hw]
  simp

structure Rep (v : AtomicDists) (l : List Nat) : Prop where
  len : v.data.length = l.length
  cur : v.current < U32
  old : ∀ (i c : Nat), v.data[i]? = some c → (toPair c).2 ≤ v.current
  get : ∀ i, v.get i = l[i]?

theorem rep_new (n : Nat) : Rep (AtomicDists.new n) (List.replicate n INFINITY) := by
  have hinf : INFINITY < U32 := by decide
  refine ⟨by simp [new], by simp [new, U32], ?_, ?_⟩
  · intro i c h
    simp [new, List.getElem?_replicate] at *
    rw [← h.2, toPair_fromPair hinf]
  · intro i
    by_cases hi : i < n
    · simp [AtomicDists.get, new, hi, List.getElem?_replicate, toPair_fromPair hinf]
    · simp [AtomicDists.get, new, hi, List.getElem?_replicate]

theorem rep_reset {v : AtomicDists} {l : List Nat} (h : Rep v l) :
    Rep v.reset (List.replicate l.length INFINITY) := by
  have hinf : INFINITY < U32 := by decide
  have hl := h.len
  have hcur := h.cur
  by_cases ho : v.current + 1 ≥ U32
  · have hc : (v.current + 1) % U32 = 0 := by
      have : v.current + 1 = U32 := by omega
      rw [this]; simp
    refine ⟨by simp [reset, ho, hl], by show (v.current + 1) % U32 < U32; rw [hc]; decide, ?_, ?_⟩
    · intro i c h1
      simp [reset, ho, List.getElem?_replicate] at h1
      rw [← h1.2]
      simp [toPair_fromPair hinf]
    · intro i
      by_cases hi : i < l.length
      · have h2 : i < v.data.length := by omega
        simp [AtomicDists.get, reset, ho, h2, hi, List.getElem?_replicate, toPair_fromPair hinf, hc]
      · have h2 : ¬ i < v.data.length := by omega
        simp [AtomicDists.get, reset, ho, h2, hi, List.getElem?_replicate]
  · have hc : (v.current + 1) % U32 = v.current + 1 := Nat.mod_eq_of_lt (by omega)
    refine ⟨by simp [reset, ho, hl], by simp [reset, hc]; omega, ?_, ?_⟩
    · intro i c h1
      simp [reset, ho, hc] at *
      have := h.old i c h1; omega
    · intro i
      by_cases hi : i < l.length
      · have h1 : v.data[i]? = some v.data[i] := List.getElem?_eq_getElem (by omega)
        have := h.old i _ h1
        simp only [AtomicDists.get, reset, ho, hc, h1, Option.bind_eq_bind, Option.bind_some, if_false,
          getElem?_replicate_lt _ hi]
        rw [if_neg (by omega)]
      · have h1 : ¬ i < v.data.length := by omega
        simp [AtomicDists.get, reset, ho, h1, hi, List.getElem?_replicate]

theorem rep_set {v : AtomicDists} {l : List Nat} (h : Rep v l) {i w : Nat} (hi : i < l.length) (hw : w < U32) :
    ∃ v', v.set i w = some v' ∧ Rep v' (l.set i w) := by
  have hl := h.len
  refine ⟨{ v with data := v.data.set i (fromPair w v.current) }, by simp [set, upd_of_lt, hl, hi],
    by simp [hl], h.cur, ?_, ?_⟩
  · intro j c hj
    by_cases hij : i = j
    · subst hij; simp [hl, hi] at hj; subst hj; simp [toPair_fromPair hw]
    · simp [hij] at hj; exact h.old j c hj
  · intro j
    by_cases hij : i = j
    · subst hij; simp [AtomicDists.get, hl, hi, toPair_fromPair hw]
    · have := h.get j
      simp only [AtomicDists.get] at this ⊢
      simpa [hij] using this

theorem set_oob {v : AtomicDists} {l : List Nat} (h : Rep v l) {i : Nat} (hi : ¬ i < l.length) (w : Nat) :
    v.set i w = none := by
  have := h.len
  simp [set, upd, show ¬ i < v.data.length by omega]

end AtomicDists

/-! ### ClearlistVector -/
namespace ClearVec
variable {α : Type} [DecidableEq α]

structure Rep (v : ClearVec α) (l : List α) : Prop where
  data : v.data = l
  clear : ∀ i x, l[i]? = some x → x ≠ v.default → i ∈ v.clearlist
  bound : ∀ i ∈ v.clearlist, i < l.length

theorem rep_new (d : α) (n : Nat) : Rep (ClearVec.new n d) (List.replicate n d) := by
  refine ⟨by simp [new], ?_, by simp [new]⟩
  intro i x h1 h2
  simp [List.getElem?_replicate, new] at h1 h2
  exact absurd h1.2.symm h2

theorem rep_modify {v : ClearVec α} {l : List α} (h : Rep v l) {i : Nat} (f : α → α) {y : α} (hy : l[i]? = some y) :
    ∃ v', v.modify i f = some v' ∧ Rep v' (l.set i (f y)) ∧ v'.default = v.default := by
  have hd := h.data
  subst hd
  have hi := (List.getElem?_eq_some_iff.1 hy).1
  refine ⟨{ v with data := v.data.set i (f y), clearlist := if y = v.default then v.clearlist ++ [i] else v.clearlist },
    by simp only [modify, hy]; simp [upd_of_lt, hi], ⟨rfl, ?_, ?_⟩, rfl⟩
  · intro j x hj hx
    simp only at hx ⊢
    by_cases hij : i = j
    · subst hij
      by_cases hyd : y = v.default
      · simp [hyd]
      · simp [hyd]; exact h.clear i y hy hyd
    · simp [hij] at hj
      have := h.clear j x hj hx
      split <;> simp [this]
  · intro j hj
    simp only at hj
    simp
    split at hj
    · simp at hj; rcases hj with hj | hj
      · exact h.bound j hj
      · subst hj; exact hi
    · exact h.bound j hj

omit [DecidableEq α] in
theorem resetGo_spec (d : α) (is : List Nat) (l : List α) (h : ∀ i ∈ is, i < l.length) :
    ∃ l', resetGo d is l = some l' ∧ l'.length = l.length ∧
      ∀ j, l'[j]? = if j ∈ is then some d else l[j]? := by
  induction is generalizing l with
  | nil => exact ⟨l, rfl, rfl, by simp⟩
  | cons i is ih =>
    have hi := h i (by simp)
    obtain ⟨l', h1, h2, h3⟩ := ih (l.set i d) (fun j hj => by simpa using h j (by simp [hj]))
    refine ⟨l', by simp [resetGo, upd_of_lt, hi, h1], by simpa using h2, ?_⟩
    intro j
    rw [h3]
    by_cases hij : i = j
    · subst hij; simp [hi]
    · simp [hij, Ne.symm hij]

theorem rep_reset {v : ClearVec α} {l : List α} (h : Rep v l) :
    ∃ v', v.reset = some v' ∧ Rep v' (List.replicate l.length v.default) ∧ v'.default = v.default := by
  have hd := h.data
  subst hd
  obtain ⟨l', h1, h2, h3⟩ := resetGo_spec v.default v.clearlist v.data h.bound
  have hl' : l' = List.replicate v.data.length v.default := by
    apply List.ext_getElem?
    intro j
    rw [h3]
    by_cases hj : j < v.data.length
    · rw [getElem?_replicate_lt _ hj]
      have hx : v.data[j]? = some v.data[j] := List.getElem?_eq_getElem hj
      split
      · rfl
      · rename_i hn
        rw [hx]
        apply Classical.byContradiction
        intro hne
        exact hn (h.clear j _ hx (by simpa using hne))
    · have hn : j ∉ v.clearlist := fun hn => hj (h.bound j hn)
      simp [hn, List.getElem?_replicate, hj]
  subst hl'
  refine ⟨{ v with data := _, clearlist := [] }, by simp [reset, h1], ⟨rfl, ?_, by simp⟩, rfl⟩
  intro i x h4 h5
  simp [List.getElem?_replicate] at h4 h5
  exact absurd h4.2.symm h5

end ClearVec
end Verif
