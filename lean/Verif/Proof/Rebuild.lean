import Verif.Proof.Perfect
import Verif.Proof.CCHSession
set_option linter.unusedSimpArgs false
set_option linter.unusedVariables false
/- The graphs that `rebuild_customized_perfect` builds: the edges that are not modified, in their order. -/
namespace Verif
namespace CCH
open Spec
variable {n : Nat} {c : Cch}

/-! ### The result in closed form -/

/-- the first edge of a node -/
def first (c : Cch) (v : Nat) : Nat := (c.firstOut[v]?).getD 0

theorem Base.first_get (hg : Base n c) {v : Nat} (hv : v ≤ n) : c.firstOut[v]? = some (first c v) := by
  have : v < c.firstOut.length := by
    have h1 : 0 < c.firstOut.length := hg.wf.fo_len; have h2 : c.firstOut.length - 1 = n := hg.nn
    omega
  simp [first, List.getElem?_eq_getElem this]

theorem Base.first_mono (hg : Base n c) {u v : Nat} (h : u ≤ v) (hv : v ≤ n) : first c u ≤ first c v := by
  have := hg.wf.mono' h (hg.first_get (v := u) (by omega)) (hg.first_get hv)
  exact this

theorem Base.first_le (hg : Base n c) {v : Nat} (hv : v ≤ n) : first c v ≤ c.head.length :=
  hg.wf.le_m (hg.first_get hv)

theorem Base.first_zero (hg : Base n c) : first c 0 = 0 := by
  have := hg.wf.first
  simp only [first]
  have e : c.topo.firstOut = c.firstOut := rfl
  rw [e] at this
  cases hc : c.firstOut with
  | nil => rw [hc] at this; simp at this
  | cons a l => rw [hc] at this; simp at this; simp [this]

theorem Base.first_last (hg : Base n c) : first c n = c.head.length := by
  have h1 := hg.wf.last
  have h2 := hg.first_get (Nat.le_refl n)
  have h3 : c.firstOut.length - 1 = n := hg.nn
  have e : c.topo.firstOut = c.firstOut := rfl
  rw [e, List.getLast?_eq_getElem?, h3, h2] at h1
  exact Option.some.inj h1

theorem Base.tail_iff (hg : Base n c) {e x : Nat} (hx : x < n) : c.tail[e]? = some x ↔ first c x ≤ e ∧ e < first c (x + 1) := by
  rw [hg.range, hg.first_get (by omega), hg.first_get (by omega)]
  constructor
  · rintro ⟨a, b, h1, h2, h3, h4⟩
    simp at h1 h2; omega
  · rintro ⟨h1, h2⟩; exact ⟨_, _, rfl, rfl, h1, h2⟩

/-- the edge is kept -/
def kp (i : SideIn) (e : Nat) : Bool := !((i.modified[e]?).getD true)
/-- number of kept edges before `e` -/
def kcount (i : SideIn) (e : Nat) : Nat := ((List.range e).filter (kp i)).length
/-- new id of an edge -/
def kmap (i : SideIn) (m e : Nat) : Nat := if kp i e then kcount i e else m

theorem kcount_succ (i : SideIn) (e : Nat) : kcount i (e + 1) = kcount i e + if kp i e then 1 else 0 := by
  unfold kcount
  rw [List.range_succ, List.filter_append, List.length_append]
  congr 1
  cases h : kp i e <;> simp [h]

theorem kcount_mono (i : SideIn) {a b : Nat} (h : a ≤ b) : kcount i a ≤ kcount i b := by
  induction h with
  | refl => exact Nat.le_refl _
  | step _ ih => rw [kcount_succ]; omega

/-- The record of an edge before its unpacking information is translated. -/
def recOf (c : Cch) (i : SideIn) (e : Nat) : EdgeRec :=
  ⟨(c.head[e]?).getD 0, (c.tail[e]?).getD 0, (i.weight[e]?).getD 0, (i.unpack[e]?).getD (none, none)⟩

/-- translated unpacking information -/
def mp (d u : Nat → Nat) (p : Option Nat × Option Nat) : Option Nat × Option Nat := (p.1.map d, p.2.map u)

/-- The arrays of direction `i` when the edges below `j` and the nodes below `v` have been processed. -/
def sideAt (c : Cch) (fw bw i : SideIn) (v j : Nat) : Side :=
  let K := (List.range j).filter (kp i)
  let m := c.head.length
  ⟨(List.range (v + 1)).map (fun x => kcount i (first c x)), K.map (fun e => (recOf c i e).head), K.map (fun e => (recOf c i e).tail),
    K.map (fun e => (recOf c i e).weight), K.map (fun e => mp (kmap bw m) (kmap fw m) (recOf c i e).unp),
    (List.range m).map (fun e => if e < j then kmap i m e else m)⟩

/-- Arrays of the right size; the parts of an edge belong to lower nodes. -/
structure InOK (c : Cch) (i : SideIn) : Prop where
  wl : i.weight.length = c.head.length
  ml : i.modified.length = c.head.length
  ul : i.unpack.length = c.head.length
  low : ∀ e x : Nat, c.tail[e]? = some x → ∀ u : Option Nat × Option Nat, i.unpack[e]? = some u → (∀ a, u.1 = some a → a < first c x) ∧ (∀ b, u.2 = some b → b < first c x)

theorem filter_range_succ (i : SideIn) (j : Nat) : (List.range (j + 1)).filter (kp i) = (List.range j).filter (kp i) ++ if kp i j then [j] else [] := by
  rw [List.range_succ, List.filter_append]
  cases h : kp i j <;> simp [h]

theorem mapId_spec {i : SideIn} {m j : Nat} (hj : j ≤ m) {x : Option Nat} (hx : ∀ a, x = some a → a < j) :
    mapId ((List.range m).map (fun e => if e < j then kmap i m e else m)) x = some (x.map (kmap i m)) := by
  cases x with
  | none => rfl
  | some a =>
    have := hx a rfl
    simp only [mapId, List.getElem?_map, List.getElem?_range (show a < m by omega), Option.map_some, this, if_true]

theorem mapPair_spec {fw bw : SideIn} {m j j' : Nat} (hj : j ≤ m) (hj' : j' ≤ m) {u : Option Nat × Option Nat} (h1 : ∀ a, u.1 = some a → a < j')
    (h2 : ∀ a, u.2 = some a → a < j) :
    mapPair ((List.range m).map (fun e => if e < j' then kmap bw m e else m)) ((List.range m).map (fun e => if e < j then kmap fw m e else m)) u =
      some (mp (kmap bw m) (kmap fw m) u) := by
  simp only [mapPair, mapId_spec hj' h1, mapId_spec hj h2, Option.bind_eq_bind, Option.bind_some, Option.pure_def, mp]

theorem map_set (i : SideIn) (m j : Nat) (hj : j < m) (hk : kp i j = true) :
    ((List.range m).map (fun e => if e < j then kmap i m e else m)).set j (kcount i j) = (List.range m).map (fun e => if e < j + 1 then kmap i m e else m) := by
  apply List.ext_getElem?
  intro e
  by_cases he : e = j
  · subst he
    rw [List.getElem?_set_self (by simpa using hj), List.getElem?_map, List.getElem?_range hj]
    simp [kmap, hk]
  · rw [List.getElem?_set_ne (Ne.symm he), List.getElem?_map, List.getElem?_map]
    by_cases hm : e < m
    · rw [List.getElem?_range hm]
      simp only [Option.map_some]
      congr 1
      by_cases h2 : e < j
      · simp [h2, show e < j + 1 by omega]
      · simp [h2, show ¬ e < j + 1 by omega]
    · rw [List.getElem?_eq_none (by simpa using hm)]; rfl

theorem map_skip (i : SideIn) (m j : Nat) (hk : kp i j = false) :
    ((List.range m).map (fun e => if e < j then kmap i m e else m)) = (List.range m).map (fun e => if e < j + 1 then kmap i m e else m) := by
  apply List.map_congr_left
  intro e _
  by_cases he : e = j
  · subst he; simp [kmap, hk]
  · by_cases h2 : e < j
    · simp [h2, show e < j + 1 by omega]
    · simp [h2, show ¬ e < j + 1 by omega]

theorem InOK.gets {i : SideIn} (h : InOK c i) (hg : Base n c) {e : Nat} (he : e < c.head.length) :
    c.head[e]? = some (recOf c i e).head ∧ c.tail[e]? = some (recOf c i e).tail ∧ i.weight[e]? = some (recOf c i e).weight ∧
      i.unpack[e]? = some (recOf c i e).unp ∧ ∃ b, i.modified[e]? = some b ∧ kp i e = !b := by
  have h1 : e < c.tail.length := by rw [hg.tailLen]; exact he
  have h2 : e < i.weight.length := by rw [h.wl]; exact he
  have h3 : e < i.modified.length := by rw [h.ml]; exact he
  have h4 : e < i.unpack.length := by rw [h.ul]; exact he
  simp [recOf, kp, List.getElem?_eq_getElem he, List.getElem?_eq_getElem h1, List.getElem?_eq_getElem h2, List.getElem?_eq_getElem h3,
    List.getElem?_eq_getElem h4]

theorem keepFw_spec (hg : Base n c) {fw bw : SideIn} (h : InOK c fw) {v j j' x : Nat} (hx : c.tail[j]? = some x) (hj : j < c.head.length)
    (hj' : j' ≤ c.head.length) (h1 : first c x ≤ j) (h2 : first c x ≤ j') :
    keepFw c fw x (sideAt c fw bw fw v j, sideAt c fw bw bw v j') j = some (sideAt c fw bw fw v (j + 1), sideAt c fw bw bw v j') := by
  obtain ⟨g1, g2, g3, g4, b, g5, g6⟩ := h.gets hg hj
  have hxt : x = (recOf c fw j).tail := by rw [hx] at g2; simpa using g2
  simp only [keepFw, g1, g3, g4, g5, Option.bind_eq_bind, Option.bind_some, Option.pure_def]
  cases b with
  | true =>
    have hk : kp fw j = false := by simp [g6]
    have : sideAt c fw bw fw v (j + 1) = sideAt c fw bw fw v j := by
      simp only [sideAt, filter_range_succ, hk, map_skip fw _ j hk]; simp
    simp [this]
  | false =>
    have hk : kp fw j = true := by simp [g6]
    have hmap : ((sideAt c fw bw fw v j).map).set j (sideAt c fw bw fw v j).head.length = (sideAt c fw bw fw v (j + 1)).map := by
      have := map_set fw c.head.length j hj hk
      simpa [sideAt, kcount] using this
    have hlen : j < (sideAt c fw bw fw v j).map.length := by simpa [sideAt] using hj
    simp only [Side.push, upd_of_lt _ hlen, hmap, Option.bind_eq_bind, Option.bind_some, Option.pure_def, Bool.false_eq_true, if_false]
    have hpair := mapPair_spec (fw := fw) (bw := bw) (m := c.head.length) (j := j + 1) (j' := j') (by omega) hj' (u := (recOf c fw j).unp)
      (fun a ha => by have := (h.low j x hx _ g4).1 a ha; omega) (fun a ha => by have := (h.low j x hx _ g4).2 a ha; omega)
    have e1 : (sideAt c fw bw bw v j').map = (List.range c.head.length).map (fun e => if e < j' then kmap bw c.head.length e else c.head.length) := rfl
    have e2 : (sideAt c fw bw fw v (j + 1)).map = (List.range c.head.length).map (fun e => if e < j + 1 then kmap fw c.head.length e else c.head.length) := rfl
    rw [e1, e2, hpair]
    simp only [Option.bind_some, sideAt, filter_range_succ, hk, if_true, List.map_append, List.map_cons, List.map_nil, ← hxt]

theorem keepBw_spec (hg : Base n c) {fw bw : SideIn} (h : InOK c bw) {v j j' x : Nat} (hx : c.tail[j]? = some x) (hj : j < c.head.length)
    (hj' : j' ≤ c.head.length) (h1 : first c x ≤ j) (h2 : first c x ≤ j') :
    keepBw c bw x (sideAt c fw bw fw v j', sideAt c fw bw bw v j) j = some (sideAt c fw bw fw v j', sideAt c fw bw bw v (j + 1)) := by
  obtain ⟨g1, g2, g3, g4, b, g5, g6⟩ := h.gets hg hj
  have hxt : x = (recOf c bw j).tail := by rw [hx] at g2; simpa using g2
  simp only [keepBw, g1, g3, g4, g5, Option.bind_eq_bind, Option.bind_some, Option.pure_def]
  cases b with
  | true =>
    have hk : kp bw j = false := by simp [g6]
    have : sideAt c fw bw bw v (j + 1) = sideAt c fw bw bw v j := by
      simp only [sideAt, filter_range_succ, hk, map_skip bw _ j hk]; simp
    simp [this]
  | false =>
    have hk : kp bw j = true := by simp [g6]
    have hmap : ((sideAt c fw bw bw v j).map).set j (sideAt c fw bw bw v j).head.length = (sideAt c fw bw bw v (j + 1)).map := by
      have := map_set bw c.head.length j hj hk
      simpa [sideAt, kcount] using this
    have hlen : j < (sideAt c fw bw bw v j).map.length := by simpa [sideAt] using hj
    simp only [Side.push, upd_of_lt _ hlen, hmap, Option.bind_eq_bind, Option.bind_some, Option.pure_def, Bool.false_eq_true, if_false]
    have hpair := mapPair_spec (fw := fw) (bw := bw) (m := c.head.length) (j := j') (j' := j + 1) hj' (by omega) (u := (recOf c bw j).unp)
      (fun a ha => by have := (h.low j x hx _ g4).1 a ha; omega) (fun a ha => by have := (h.low j x hx _ g4).2 a ha; omega)
    have e1 : (sideAt c fw bw fw v j').map = (List.range c.head.length).map (fun e => if e < j' then kmap fw c.head.length e else c.head.length) := rfl
    have e2 : (sideAt c fw bw bw v (j + 1)).map = (List.range c.head.length).map (fun e => if e < j + 1 then kmap bw c.head.length e else c.head.length) := rfl
    rw [e1, e2, hpair]
    simp only [Option.bind_some, sideAt, filter_range_succ, hk, if_true, List.map_append, List.map_cons, List.map_nil, ← hxt]

/-- A loop over consecutive numbers. -/
theorem foldlM_range' {σ : Type} (body : σ → Nat → Option σ) (st : Nat → σ) : ∀ (k a : Nat), (∀ j, a ≤ j → j < a + k → body (st j) j = some (st (j + 1))) →
    (List.range' a k).foldlM body (st a) = some (st (a + k))
  | 0, a, _ => rfl
  | k + 1, a, h => by
    rw [List.range'_succ, List.foldlM_cons, h a (by omega) (by omega)]
    simp only [Option.bind_eq_bind, Option.bind_some]
    rw [foldlM_range' body st k (a + 1) (fun j h1 h2 => h j (by omega) (by omega))]
    congr 2; omega

theorem rebuildNode_spec (hg : Base n c) {fw bw : SideIn} (hf : InOK c fw) (hb : InOK c bw) {v : Nat} (hv : v < n) :
    rebuildNode c fw bw (sideAt c fw bw fw v (first c v), sideAt c fw bw bw v (first c v)) v =
      some (sideAt c fw bw fw (v + 1) (first c (v + 1)), sideAt c fw bw bw (v + 1) (first c (v + 1))) := by
  have hr : c.topo.range v = some (first c v, first c (v + 1)) := by
    have h1 := hg.first_get (v := v) (by omega)
    have h2 := hg.first_get (v := v + 1) (by omega)
    simp [FOGraph.range, Cch.topo, h1, h2]
  have hm := hg.first_mono (u := v) (v := v + 1) (by omega) (by omega)
  have hl := hg.first_le (v := v + 1) (by omega)
  have l1 := foldlM_range' (keepFw c fw v) (fun j => (sideAt c fw bw fw v j, sideAt c fw bw bw v (first c v))) (first c (v + 1) - first c v) (first c v) (by
    intro j h1 h2
    exact keepFw_spec hg hf ((hg.tail_iff hv).2 ⟨h1, by omega⟩) (by omega) (by omega) h1 (Nat.le_refl _))
  have l2 := foldlM_range' (keepBw c bw v) (fun j => (sideAt c fw bw fw v (first c (v + 1)), sideAt c fw bw bw v j)) (first c (v + 1) - first c v) (first c v) (by
    intro j h1 h2
    exact keepBw_spec hg hb ((hg.tail_iff hv).2 ⟨h1, by omega⟩) (by omega) (by omega) h1 hm)
  rw [show first c v + (first c (v + 1) - first c v) = first c (v + 1) by omega] at l1 l2
  simp only [rebuildNode, hr, l1, l2, Option.bind_eq_bind, Option.bind_some, Option.pure_def]
  have : ∀ i, { sideAt c fw bw i v (first c (v + 1)) with fo := (sideAt c fw bw i v (first c (v + 1))).fo ++ [(sideAt c fw bw i v (first c (v + 1))).head.length] } =
      sideAt c fw bw i (v + 1) (first c (v + 1)) := by
    intro i
    simp only [sideAt, List.range_succ (n := v + 1), List.map_append, List.map_cons, List.map_nil, List.length_map, kcount]
  rw [this, this]

/-- The sequential rebuild. -/
theorem rebuildSeq_spec (hg : Base n c) {fw bw : SideIn} (hf : InOK c fw) (hb : InOK c bw) :
    rebuildSeq c fw bw = some (sideAt c fw bw fw n c.head.length, sideAt c fw bw bw n c.head.length) := by
  have h := foldlM_range' (rebuildNode c fw bw) (fun v => (sideAt c fw bw fw v (first c v), sideAt c fw bw bw v (first c v))) n 0 (by
    intro j _ h2; exact rebuildNode_spec hg hf hb (by omega))
  simp only [Nat.zero_add, ← List.range_eq_range', hg.first_last] at h
  have hinit : ∀ i, sideAt c fw bw i 0 (first c 0) = Side.init c.head.length := by
    intro i
    simp only [sideAt, hg.first_zero, Side.init]
    congr 1
    · simp [hg.first_zero, kcount]
    · apply List.ext_getElem?
      intro e
      rw [List.getElem?_map, List.getElem?_replicate]
      by_cases he : e < c.head.length
      · simp [List.getElem?_range he, he]
      · rw [List.getElem?_eq_none (by simpa using he)]; simp [he]
  rw [hinit, hinit] at h
  rw [rebuildSeq, show c.numNodes = n from hg.nn]
  exact h

/-! ### The parallel version -/

theorem kcount_split (i : SideIn) : ∀ (k a : Nat), kcount i (a + k) = kcount i a + ((List.range' a k).filter (kp i)).length
  | 0, a => by simp
  | k + 1, a => by
    rw [show a + (k + 1) = (a + 1) + k by omega, kcount_split i k (a + 1), kcount_succ, List.range'_succ]
    cases h : kp i a <;> simp [h] <;> omega

theorem filter_range'_snoc (i : SideIn) {a j : Nat} (h : a ≤ j) : (List.range' a (j + 1 - a)).filter (kp i) = (List.range' a (j - a)).filter (kp i) ++ if kp i j then [j] else [] := by
  rw [show j + 1 - a = (j - a) + 1 by omega, List.range'_concat, List.filter_append]
  rw [show a + 1 * (j - a) = j by omega]
  cases h : kp i j <;> simp [h]

/-- The arrays of a task for the nodes from `a` with edges `A..B`, when the edges below `j` and the nodes below `v` have been processed. -/
def partAt (c : Cch) (i : SideIn) (a A B v j : Nat) : Part :=
  ⟨(List.range' a (v - a)).map (fun x => kcount i (first c x)), ((List.range' A (j - A)).filter (kp i)).map (recOf c i),
    (List.range' A (B - A)).map (fun e => if e < j then kmap i c.head.length e else c.head.length)⟩

theorem partAt_len (i : SideIn) {a A B v j : Nat} (h : A ≤ j) : kcount i A + (partAt c i a A B v j).recs.length = kcount i j := by
  have := kcount_split i (j - A) A
  rw [show A + (j - A) = j by omega] at this
  simp [partAt, this]

theorem partEdge_spec (hg : Base n c) {i : SideIn} (h : InOK c i) {a A B v j x : Nat} (hx : c.tail[j]? = some x) (hj : j < c.head.length) (h1 : A ≤ j) (h2 : j < B) :
    partEdge c i (kcount i A) A x (partAt c i a A B v j) j = some (partAt c i a A B v (j + 1)) := by
  obtain ⟨g1, g2, g3, g4, b, g5, g6⟩ := h.gets hg hj
  have hxt : x = (recOf c i j).tail := by rw [hx] at g2; simpa using g2
  simp only [partEdge, g1, g3, g4, g5, Option.bind_eq_bind, Option.bind_some, Option.pure_def]
  cases b with
  | true =>
    have hk : kp i j = false := by simp [g6]
    simp only [if_true, Option.some.injEq, partAt, filter_range'_snoc i h1, hk, Bool.false_eq_true, if_false, List.append_nil, Part.mk.injEq, true_and]
    apply List.map_congr_left
    intro e _
    by_cases he : e = j
    · subst he; simp [kmap, hk]
    · by_cases h3 : e < j
      · simp [h3, show e < j + 1 by omega]
      · simp [h3, show ¬ e < j + 1 by omega]
  | false =>
    have hk : kp i j = true := by simp [g6]
    have hlen : j - A < (partAt c i a A B v j).map.length := by simp [partAt]; omega
    simp only [Bool.false_eq_true, if_false, upd_of_lt _ hlen, Option.bind_some, partAt_len i h1]
    have hmap : (partAt c i a A B v j).map.set (j - A) (kcount i j) = (partAt c i a A B v (j + 1)).map := by
      apply List.ext_getElem?
      intro e
      by_cases he : e = j - A
      · subst he
        rw [List.getElem?_set_self hlen]
        simp only [partAt, List.getElem?_map, List.getElem?_range' (show j - A < B - A by omega), Option.map_some]
        rw [show A + 1 * (j - A) = j by omega]
        simp [kmap, hk]
      · rw [List.getElem?_set_ne (Ne.symm he)]
        simp only [partAt, List.getElem?_map]
        by_cases hm : e < B - A
        · rw [List.getElem?_range' hm]
          simp only [Option.map_some]
          congr 1
          by_cases h3 : A + 1 * e < j
          · rw [if_pos h3, if_pos (by omega)]
          · rw [if_neg h3, if_neg (by omega)]
        · rw [List.getElem?_eq_none (by simpa using hm)]; rfl
    rw [hmap]
    simp only [Option.some.injEq, partAt, filter_range'_snoc i h1, hk, if_true, List.map_append, List.map_cons, List.map_nil, Part.mk.injEq, true_and, and_true]
    congr 2
    rw [hxt]

theorem part_spec (hg : Base n c) {i : SideIn} (h : InOK c i) {a b : Nat} (hab : a ≤ b) (hb : b ≤ n) :
    part c i a b (kcount i (first c a)) (kcount i (first c b) - kcount i (first c a)) =
      some ⟨(List.range' a (b - a)).map (fun x => kcount i (first c x)), ((List.range' (first c a) (first c b - first c a)).filter (kp i)).map (recOf c i),
        (List.range' (first c a) (first c b - first c a)).map (kmap i c.head.length)⟩ := by
  have hA := hg.first_get (v := a) (by omega)
  have hB := hg.first_get hb
  have hloop := foldlM_range' (partNode c i (kcount i (first c a)) (first c a)) (fun v => partAt c i a (first c a) (first c b) v (first c v)) (b - a) a (by
    intro v h1 h2
    have hv : v < n := by omega
    have hr : c.topo.range v = some (first c v, first c (v + 1)) := by
      have h1 := hg.first_get (v := v) (by omega)
      have h2 := hg.first_get (v := v + 1) (by omega)
      simp [FOGraph.range, Cch.topo, h1, h2]
    have hm := hg.first_mono (u := v) (v := v + 1) (by omega) (by omega)
    have hm2 := hg.first_mono (u := a) (v := v) (by omega) (by omega)
    have hm3 := hg.first_mono (u := v + 1) (v := b) (by omega) (by omega)
    have hl := hg.first_le (v := v + 1) (by omega)
    have l1 := foldlM_range' (partEdge c i (kcount i (first c a)) (first c a) v) (fun j => partAt c i a (first c a) (first c b) (v + 1) j) (first c (v + 1) - first c v) (first c v) (by
      intro j h3 h4
      exact partEdge_spec hg h ((hg.tail_iff hv).2 ⟨h3, by omega⟩) (by omega) (by omega) (by omega))
    rw [show first c v + (first c (v + 1) - first c v) = first c (v + 1) by omega] at l1
    simp only [partNode, hr, Option.bind_eq_bind, Option.bind_some]
    rw [← l1]
    congr 1
    rw [partAt_len i hm2]
    simp only [partAt, Part.mk.injEq, and_true]
    rw [show v + 1 - a = (v - a) + 1 by omega, List.range'_concat, show a + 1 * (v - a) = v by omega]
    simp)
  rw [show a + (b - a) = b by omega] at hloop
  have hinit : partAt c i a (first c a) (first c b) a (first c a) = ⟨[], [], List.replicate (first c b - first c a) c.head.length⟩ := by
    simp only [partAt, Nat.sub_self, List.range'_zero, List.map_nil, List.filter_nil, Part.mk.injEq, true_and]
    apply List.ext_getElem?
    intro e
    rw [List.getElem?_map, List.getElem?_replicate]
    by_cases he : e < first c b - first c a
    · rw [List.getElem?_range' he, if_pos he]; simp only [Option.map_some]; rw [if_neg (by omega)]
    · rw [List.getElem?_eq_none (by simpa using he)]; simp [he]
  rw [hinit] at hloop
  have hm2 := hg.first_mono hab hb
  have hlen := partAt_len (c := c) i (a := a) (B := first c b) (v := b) hm2
  have hlen' : (partAt c i a (first c a) (first c b) b (first c b)).recs.length = kcount i (first c b) - kcount i (first c a) := by omega
  simp only [part, hA, hB, hloop, Option.bind_eq_bind, Option.bind_some, Option.pure_def, hlen', Nat.le_refl, if_true, Nat.sub_self, List.replicate_zero, List.append_nil]
  simp only [Option.some.injEq, partAt, Part.mk.injEq, true_and]
  apply List.map_congr_left
  intro e he
  rw [List.mem_range'] at he
  obtain ⟨k, hk, rfl⟩ := he
  rw [if_pos (by omega)]

theorem partCount_spec (hg : Base n c) {i : SideIn} (h : InOK c i) {a b : Nat} (hab : a ≤ b) (hb : b ≤ n) :
    partCount c i a b = some (kcount i (first c b) - kcount i (first c a)) := by
  have hA := hg.first_get (v := a) (by omega)
  have hB := hg.first_get hb
  have hm := hg.first_mono hab hb
  have hl := hg.first_le hb
  have hs := slice_eq (l := i.modified) hm (by rw [h.ml]; exact hl)
  simp only [partCount, hA, hB, hs, Option.bind_eq_bind, Option.bind_some, Option.pure_def, Option.some.injEq]
  have hk := kcount_split i (first c b - first c a) (first c a)
  rw [show first c a + (first c b - first c a) = first c b by omega] at hk
  have : (i.modified.drop (first c a)).take (first c b - first c a) = (List.range' (first c a) (first c b - first c a)).map (fun e => !(kp i e)) := by
    apply List.ext_getElem?
    intro e
    by_cases he : e < first c b - first c a
    · rw [List.getElem?_take, if_pos he, List.getElem?_drop, List.getElem?_map, List.getElem?_range' he]
      have : first c a + e < i.modified.length := by rw [h.ml]; omega
      simp only [Option.map_some, kp, Nat.one_mul, List.getElem?_eq_getElem this]
      simp
    · rw [List.getElem?_eq_none (by simp; omega), List.getElem?_eq_none (by simp; omega)]
  rw [this, List.filter_map, List.length_map]
  have e2 : ((fun m => !m) ∘ fun e => !(kp i e)) = kp i := by funext e; simp
  rw [e2]; omega

/-- Consecutive ranges, one after the other. -/
theorem flatten_ranges {β : Type} (g : List Nat → List β) (h0 : g [] = []) (ha : ∀ l l', g (l ++ l') = g l ++ g l') (a : Nat → Nat) : ∀ (k : Nat),
    (∀ i, i < k → a i ≤ a (i + 1)) → a 0 ≤ a k ∧ ((List.range k).map (fun i => g (List.range' (a i) (a (i + 1) - a i)))).flatten = g (List.range' (a 0) (a k - a 0))
  | 0, _ => by simp [h0]
  | k + 1, h => by
    obtain ⟨h1, h2⟩ := flatten_ranges g h0 ha a k (fun i hi => h i (by omega))
    have h3 := h k (by omega)
    refine ⟨by omega, ?_⟩
    rw [List.range_succ, List.map_append, List.flatten_append, h2]
    simp only [List.map_cons, List.map_nil, List.flatten_cons, List.flatten_nil, List.append_nil]
    rw [← ha]
    congr 1
    have := List.range'_append (s := a 0) (m := a k - a 0) (n := a (k + 1) - a k) (step := 1)
    rw [show a 0 + 1 * (a k - a 0) = a k by omega] at this
    rw [this]; congr 1; omega

theorem sum_telescope (f : Nat → Nat) : ∀ (k : Nat), (∀ i, i < k → f i ≤ f (i + 1)) → f 0 ≤ f k ∧ ((List.range k).map (fun i => f (i + 1) - f i)).sum = f k - f 0
  | 0, _ => by simp
  | k + 1, h => by
    obtain ⟨h1, h2⟩ := sum_telescope f k (fun i hi => h i (by omega))
    have h3 := h k (by omega)
    refine ⟨by omega, ?_⟩
    rw [List.range_succ, List.map_append, List.sum_append, h2]
    simp; omega

theorem splitInto_le {α : Type} {len : Nat} {x : α} {l : List α} (h : l.length ≤ len) : splitInto len x l = some (l ++ List.replicate (len - l.length) x) := by
  simp [splitInto, h]

/-- One direction of the parallel rebuild, for tasks that cover all nodes. -/
theorem rebuildSide_spec (hg : Base n c) {i : SideIn} (h : InOK c i) {k : Nat} {firsts : List Nat} {a : Nat → Nat} (hf : ∀ j, j ≤ k → firsts[j]? = some (a j))
    (hmono : ∀ j, j < k → a j ≤ a (j + 1)) (h0 : a 0 = 0) (hk : a k = n) :
    rebuildSide c i k firsts = some ⟨(List.range (n + 1)).map (fun x => kcount i (first c x)), ((List.range c.head.length).filter (kp i)).map (recOf c i),
      (List.range c.head.length).map (kmap i c.head.length)⟩ := by
  have hle : ∀ j, j ≤ k → a j ≤ n := by
    have : ∀ d j, j + d = k → a j ≤ n := by
      intro d
      induction d with
      | zero => intro j hj; rw [show j = k by omega, hk]
      | succ d ih => intro j hj; have := ih (j + 1) (by omega); have := hmono j (by omega); omega
    intro j hj; exact this (k - j) j (by omega)
  let f : Nat → Nat := fun j => kcount i (first c (a j))
  have hfm : ∀ j, j < k → f j ≤ f (j + 1) := fun j hj => kcount_mono i (hg.first_mono (hmono j hj) (hle _ (by omega)))
  have f0 : f 0 = 0 := by simp [f, h0, hg.first_zero, kcount]
  have hcounts : (List.range k).mapM (fun j => do
      let x ← firsts[j]?
      let y ← firsts[j + 1]?
      partCount c i x y) = some ((List.range k).map (fun j => f (j + 1) - f j)) := by
    apply Verif.mapM_some
    intro j hj
    rw [List.mem_range] at hj
    simp only [hf j (by omega), hf (j + 1) (by omega), Option.bind_eq_bind, Option.bind_some]
    exact partCount_spec hg h (hmono j hj) (hle _ (by omega))
  have hparts : (List.range k).mapM (fun j => do
      let x ← firsts[j]?
      let y ← firsts[j + 1]?
      let cnt ← ((List.range k).map (fun j => f (j + 1) - f j))[j]?
      part c i x y (((List.range k).map (fun j => f (j + 1) - f j)).take j).sum cnt) =
      some ((List.range k).map (fun j => ⟨(List.range' (a j) (a (j + 1) - a j)).map (fun x => kcount i (first c x)),
        ((List.range' (first c (a j)) (first c (a (j + 1)) - first c (a j))).filter (kp i)).map (recOf c i),
        (List.range' (first c (a j)) (first c (a (j + 1)) - first c (a j))).map (kmap i c.head.length)⟩)) := by
    apply Verif.mapM_some
    intro j hj
    rw [List.mem_range] at hj
    have e1 : ((List.range k).map (fun j => f (j + 1) - f j))[j]? = some (f (j + 1) - f j) := by
      rw [List.getElem?_map, List.getElem?_range hj]; rfl
    have e2 : (((List.range k).map (fun j => f (j + 1) - f j)).take j).sum = f j := by
      rw [← List.map_take, List.take_range, Nat.min_eq_left (by omega)]
      have := (sum_telescope f j (fun i hi => hfm i (by omega))).2
      rw [this, f0]; omega
    simp only [hf j (by omega), hf (j + 1) (by omega), e1, e2, Option.bind_eq_bind, Option.bind_some]
    exact part_spec hg h (hmono j hj) (hle _ (by omega))
  have hsum : ((List.range k).map (fun j => f (j + 1) - f j)).sum = kcount i c.head.length := by
    have := (sum_telescope f k hfm).2
    rw [this, f0]; simp [f, hk, hg.first_last]
  have hl0 : c.firstOut.length = n + 1 := by
    have h1 : 0 < c.firstOut.length := hg.wf.fo_len; have h2 : c.firstOut.length - 1 = n := hg.nn
    omega
  have c1 := (flatten_ranges (fun l => l.map (fun x => kcount i (first c x))) rfl (fun l l' => List.map_append) a k hmono).2
  have hmono' : ∀ j, j < k → first c (a j) ≤ first c (a (j + 1)) := fun j hj => hg.first_mono (hmono j hj) (hle _ (by omega))
  have c2 := (flatten_ranges (fun l => (l.filter (kp i)).map (recOf c i)) rfl (fun l l' => by simp) (fun j => first c (a j)) k hmono').2
  have c3 := (flatten_ranges (fun l => l.map (kmap i c.head.length)) rfl (fun l l' => List.map_append) (fun j => first c (a j)) k hmono').2
  rw [h0, hk, Nat.sub_zero, ← List.range_eq_range'] at c1
  simp only [h0, hk, hg.first_zero, hg.first_last, Nat.sub_zero, ← List.range_eq_range'] at c2 c3
  have hrl : ((List.range c.head.length).filter (kp i)).length ≤ c.head.length := by
    have := List.length_filter_le (kp i) (List.range c.head.length); simpa using this
  unfold rebuildSide
  rw [hcounts, Option.bind_eq_bind, Option.bind_some, hparts]
  simp only [Option.bind_eq_bind, Option.bind_some, Option.pure_def, List.map_map, Function.comp_def, c1, c2, c3, hsum]
  rw [splitInto_le (by simp; omega), splitInto_le (by simpa using hrl), splitInto_le (by simp)]
  simp only [Option.bind_some, List.length_map, List.length_range, hl0, Nat.sub_self, List.replicate_zero, List.append_nil, Nat.add_sub_cancel_left, List.replicate_one]
  have e3 : ((List.range c.head.length).filter (kp i)).length = kcount i c.head.length := rfl
  rw [List.take_append_of_le_length (by simp [e3]), List.take_of_length_le (by simp [e3])]
  rw [show c.numNodes = n from hg.nn, upd_of_lt _ (by simp)]
  simp only [Option.bind_some, Option.some.injEq, Part.mk.injEq, and_true, List.length_map, e3]
  rw [List.range_succ, List.map_append, List.set_append_right _ _ (by simp)]
  simp [hg.first_last]

theorem map_all (i : SideIn) (m : Nat) : (List.range m).map (kmap i m) = (List.range m).map (fun e => if e < m then kmap i m e else m) := by
  apply List.map_congr_left
  intro e he
  simp [List.mem_range.1 he]

theorem toSide_spec (hg : Base n c) {fw bw i : SideIn} (h : InOK c i) :
    (⟨(List.range (n + 1)).map (fun x => kcount i (first c x)), ((List.range c.head.length).filter (kp i)).map (recOf c i),
      (List.range c.head.length).map (kmap i c.head.length)⟩ : Part).toSide ((List.range c.head.length).map (kmap bw c.head.length))
      ((List.range c.head.length).map (kmap fw c.head.length)) = some (sideAt c fw bw i n c.head.length) := by
  have hm : (((List.range c.head.length).filter (kp i)).map (recOf c i)).mapM (fun r =>
      mapPair ((List.range c.head.length).map (kmap bw c.head.length)) ((List.range c.head.length).map (kmap fw c.head.length)) r.unp) =
      some ((((List.range c.head.length).filter (kp i)).map (recOf c i)).map (fun r => mp (kmap bw c.head.length) (kmap fw c.head.length) r.unp)) := by
    apply Verif.mapM_some
    intro r hr
    obtain ⟨e, he, rfl⟩ := List.mem_map.1 hr
    have he' : e < c.head.length := by have := (List.mem_filter.1 he).1; simpa using this
    obtain ⟨_, g2, _, g4, _⟩ := h.gets hg he'
    have hlt : (recOf c i e).tail < n := by
      obtain ⟨a, b, h1, h2, _⟩ := (hg.range e _).1 g2
      have h3 : c.firstOut.length - 1 = n := hg.nn
      have h4 : (recOf c i e).tail + 1 < c.firstOut.length := by
        by_contra hc
        rw [List.getElem?_eq_none (by omega)] at h2; simp at h2
      omega
    have hfl := hg.first_le (v := (recOf c i e).tail) (by omega)
    have h5 := h.low e _ g2 _ g4
    rw [map_all bw, map_all fw]
    exact mapPair_spec (Nat.le_refl _) (Nat.le_refl _) (fun a ha => by have := h5.1 a ha; omega) (fun a ha => by have := h5.2 a ha; omega)
  simp only [Part.toSide, hm, Option.bind_eq_bind, Option.bind_some, Option.pure_def, sideAt, List.map_map, Function.comp_def, Option.some.injEq, Side.mk.injEq, true_and]
  exact map_all i _

/-- The parallel rebuild, if every task has an edge and the lowest node has an edge. -/
theorem rebuildPar_spec (hg : Base n c) {fw bw : SideIn} (hf : InOK c fw) (hb : InOK c bw) {k : Nat} (hk : 0 < k)
    (hm : (k - 1) * ((c.head.length + k - 1) / k) < c.head.length) (h0 : c.tail[0]? = some 0) :
    rebuildPar c fw bw k = some (sideAt c fw bw fw n c.head.length, sideAt c fw bw bw n c.head.length) := by
  generalize hsz : (c.head.length + k - 1) / k = size at hm
  have hmpos : 0 < c.head.length := by omega
  have hsize : 0 < size := by
    rw [← hsz]; exact Nat.div_pos (by omega) hk
  have hup : c.head.length ≤ k * size := by
    have h1 := Nat.div_add_mod (c.head.length + k - 1) k
    have h2 := Nat.mod_lt (c.head.length + k - 1) hk
    rw [hsz] at h1; omega
  have hcnt : (c.head.length + size - 1) / size = k := by
    apply Nat.div_eq_of_lt_le
    · have : k * size = (k - 1) * size + size := by
        obtain ⟨j, rfl⟩ : ∃ j, k = j + 1 := ⟨k - 1, by omega⟩
        simp [Nat.add_mul]
      omega
    · rw [Nat.add_mul]; omega
  let a : Nat → Nat := fun j => if j < k then (c.tail[j * size]?).getD 0 else n
  have hidx : ∀ j, j < k → j * size < c.head.length := by
    intro j hj
    have : j * size ≤ (k - 1) * size := Nat.mul_le_mul_right _ (by omega)
    omega
  have htl : ∀ j, j < k → c.tail[j * size]? = some (a j) := by
    intro j hj
    have := hidx j hj
    rw [← hg.tailLen] at this
    simp [a, hj, List.getElem?_eq_getElem this]
  have hltn : ∀ j, j < k → a j < n := by
    intro j hj
    obtain ⟨x, y, h1, h2, _⟩ := (hg.range _ _).1 (htl j hj)
    have h3 : c.firstOut.length - 1 = n := hg.nn
    have h4 : a j + 1 < c.firstOut.length := by
      by_contra hc
      rw [List.getElem?_eq_none (by omega)] at h2; simp at h2
    omega
  have hfirsts : firstNodes c k = some ((List.range k).map a ++ [n]) := by
    have hne : size ≠ 0 := by omega
    have : (List.range k).mapM (fun i => c.tail[i * size]?) = some ((List.range k).map a) := by
      apply Verif.mapM_some
      intro j hj; exact htl j (List.mem_range.1 hj)
    simp only [firstNodes, hsz, hne, if_false, hcnt, this, Option.bind_eq_bind, Option.bind_some, Option.pure_def]
    rw [show c.numNodes = n from hg.nn]
  have hget : ∀ j, j ≤ k → ((List.range k).map a ++ [n])[j]? = some (a j) := by
    intro j hj
    by_cases hjk : j < k
    · rw [List.getElem?_append_left (by simpa using hjk), List.getElem?_map, List.getElem?_range hjk]; rfl
    · have : j = k := by omega
      subst this
      rw [List.getElem?_append_right (by simp)]
      simp [a]
  have hmono : ∀ j, j < k → a j ≤ a (j + 1) := by
    intro j hj
    by_cases hj1 : j + 1 < k
    · have h1 := (hg.tail_iff (hltn j hj)).1 (htl j hj)
      have h2 := (hg.tail_iff (hltn _ hj1)).1 (htl _ hj1)
      by_contra hc
      have h3 := hg.first_mono (u := a (j + 1) + 1) (v := a j) (by omega) (Nat.le_of_lt (hltn j hj))
      have : j * size ≤ (j + 1) * size := Nat.mul_le_mul_right _ (by omega)
      omega
    · have : a (j + 1) = n := by simp [a, hj1]
      rw [this]; exact Nat.le_of_lt (hltn j hj)
  have ha0 : a 0 = 0 := by
    have := htl 0 hk
    rw [Nat.zero_mul, h0] at this; simpa using this.symm
  have hak : a k = n := by simp [a]
  have r1 := rebuildSide_spec hg hf hget hmono ha0 hak
  have r2 := rebuildSide_spec hg hb hget hmono ha0 hak
  simp only [rebuildPar, hfirsts, r1, r2, Option.bind_eq_bind, Option.bind_some, toSide_spec hg hf, toSide_spec hg hb, Option.pure_def]

/-- With too few edges for the number of tasks, the parallel rebuild panics. -/
theorem rebuildPar_none (c : Cch) (fw bw : SideIn) {k : Nat} (hk : 0 < k) (hm : c.head.length ≤ (k - 1) * ((c.head.length + k - 1) / k)) :
    rebuildPar c fw bw k = none := by
  generalize hsz : (c.head.length + k - 1) / k = size at hm
  by_cases h0 : size = 0
  · simp [rebuildPar, firstNodes, hsz, h0]
  have hcnt : (c.head.length + size - 1) / size < k := by
    apply (Nat.div_lt_iff_lt_mul (by omega)).2
    have : k * size = (k - 1) * size + size := by
      obtain ⟨j, rfl⟩ : ∃ j, k = j + 1 := ⟨k - 1, by omega⟩
      simp [Nat.add_mul]
    omega
  simp only [rebuildPar, firstNodes, hsz, h0, if_false]
  cases hl : (List.range ((c.head.length + size - 1) / size)).mapM (fun i => c.tail[i * size]?) with
  | none => rfl
  | some l =>
    have hlen : l.length = (c.head.length + size - 1) / size := by
      have := (mapM_index hl).1; simpa using this
    have hnone : ∀ i, rebuildSide c i k (l ++ [c.numNodes]) = none := by
      intro i
      have : (List.range k).mapM (fun j => do
          let a ← (l ++ [c.numNodes])[j]?
          let b ← (l ++ [c.numNodes])[j + 1]?
          partCount c i a b) = none := by
        cases hq : (List.range k).mapM (fun j => do
          let a ← (l ++ [c.numNodes])[j]?
          let b ← (l ++ [c.numNodes])[j + 1]?
          partCount c i a b) with
        | none => rfl
        | some q =>
          obtain ⟨_, h2⟩ := mapM_index hq
          obtain ⟨y, _, hy⟩ := h2 (k - 1) (k - 1) (by rw [List.getElem?_range (by omega)])
          have : (l ++ [c.numNodes])[k - 1 + 1]? = none := List.getElem?_eq_none (by simp; omega)
          rw [this] at hy
          cases h3 : (l ++ [c.numNodes])[k - 1]? <;> simp [h3] at hy
      unfold rebuildSide
      rw [this]; rfl
    simp [hnone]

end CCH
end Verif
