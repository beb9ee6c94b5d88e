import Verif.Model.FixSubPaths
import Verif.Proof.PathPotRanks
import Verif.Proof.CCHPath
set_option linter.unusedSimpArgs false
set_option linter.unusedVariables false
/- Replacing violating subpaths by shortest paths. -/
namespace Verif
namespace UBS
open Spec CCH

variable {n : Nat} {A : Nat → Nat → Nat → Prop} {order : NodeOrder}

theorem rank_nd (ho : order.OK n) {x : Nat} (hx : x < n) : order.rank (nd order x) = some x := (ho.inv.inv _ _).1 (node_nd ho hx)

theorem followTree_spec (ho : order.OK n) {parents : List (Nat × Nat)} {root v d k : Nat} (hv : v < n)
    (hA : ∀ u v w, A u v w → u < n ∧ v < n)
    (h : Up (fun v => (parents[v]?).map Prod.fst) (InRanks A order.node) root v d k) :
    ∀ fuel, k ≤ fuel → ∃ seg, followTree order parents (nd order root) fuel (nd order v) = some seg ∧ PathOf A (nd order v :: seg) d ∧
      (nd order v :: seg).getLast? = some (nd order root) := by
  induction h with
  | nil =>
    intro fuel _
    exact ⟨[], by cases fuel <;> simp [followTree], .single _, rfl⟩
  | @cons v p w d k hne hp ha hu ih =>
    intro fuel hk
    obtain ⟨a, b, e1, e2, hab⟩ := ha
    have hpn : p < n := by
      rcases Nat.lt_or_ge p n with h | h
      · exact h
      · have := ho.len
        simp only [NodeOrder.node] at e2
        have := (List.getElem?_eq_some_iff.1 e2).1
        omega
    have ea : a = nd order v := by simp [nd, e1]
    have eb : b = nd order p := by simp [nd, e2]
    subst ea eb
    cases fuel with
    | zero => omega
    | succ fuel =>
      rw [Option.map_eq_some_iff] at hp
      obtain ⟨q, hq, rfl⟩ := hp
      by_cases hg : nd order v = nd order root
      · exfalso
        have hrn : root < n := by
          clear ih
          cases hu with
          | nil => exact hpn
          | cons _ _ _ hu' =>
            have : ∀ {x d k}, Up (fun v => (parents[v]?).map Prod.fst) (InRanks A order.node) root x d k → x < n → root < n := by
              intro x d k h
              induction h with
              | nil => exact id
              | cons _ _ ha _ ih =>
                intro _
                apply ih
                obtain ⟨_, _, _, e2, _⟩ := ha
                have := ho.len
                simp only [NodeOrder.node] at e2
                have := (List.getElem?_eq_some_iff.1 e2).1
                omega
            exact this (.cons ‹_› ‹_› ‹_› hu') hpn
        exact hne (nd_inj ho hv hrn hg)
      · obtain ⟨seg, h1, h2, h3⟩ := ih hpn fuel (by omega)
        refine ⟨nd order q.1 :: seg, ?_, .cons hab h2, by simpa using h3⟩
        simp only [followTree, hg, if_false, rank_nd ho hv, hq, e2, h1, Option.bind_eq_bind, Option.bind_some, Option.pure_def]

/-! ### Joining -/

/-- `q` can replace `p` and saves at least `k` -/
def Saves (A : Nat → Nat → Nat → Prop) (k : Nat) (p q : List Nat) : Prop := ∀ len, PathOf A p len → ∃ len', PathOf A q len' ∧ len' + k ≤ len

theorem Saves.refl (p : List Nat) : Saves A 0 p p := fun len h => ⟨len, h, by omega⟩

theorem Saves.weaken {k k' : Nat} {p q : List Nat} (h : Saves A k p q) (hk : k' ≤ k) : Saves A k' p q := by
  intro len hl
  obtain ⟨len', h1, h2⟩ := h len hl
  exact ⟨len', h1, by omega⟩

theorem Saves.join {k l : Nat} {p1 p2 q1 q2 : List Nat} {v : Nat} (h1 : Saves A k (p1 ++ [v]) (q1 ++ [v])) (h2 : Saves A l (v :: p2) (v :: q2)) :
    Saves A (k + l) (p1 ++ v :: p2) (q1 ++ v :: q2) := by
  intro len hl
  obtain ⟨d1, d2, e1, e2, rfl⟩ := PathOf.split hl
  obtain ⟨d1', f1, g1⟩ := h1 _ e1
  obtain ⟨d2', f2, g2⟩ := h2 _ e2
  exact ⟨d1' + d2', PathOf.join f2 f1, by omega⟩

/-- the range ends at known nodes and is longer than a shortest path -/
def Longer (A : Nat → Nat → Nat → Prop) (path : List Nat) (r : Rng) : Prop :=
  r.start < r.stop ∧ ∃ s t d, path[r.start]? = some s ∧ path[r.stop]? = some t ∧ IsDist A s t d ∧ d < INFINITY ∧
    ∀ len, PathOf A (subPath path r) len → d < len

theorem take_succ {path : List Nat} {i v : Nat} (h : path[i]? = some v) : path.take (i + 1) = path.take i ++ [v] := by
  rw [List.take_succ, h]; rfl

/-- what has been pushed replaces the first part of the path -/
structure FInv (A : Nat → Nat → Nat → Prop) (path : List Nat) (k : Nat) (fixed : List Nat) (pushed : Nat) : Prop where
  le : pushed ≤ path.length
  nil : pushed = 0 → fixed = [] ∧ k = 0
  step : ∀ i, pushed = i + 1 → ∃ x f0, path[i]? = some x ∧ fixed = f0 ++ [x] ∧ fixed.head? = path.head? ∧ Saves A k (path.take pushed) fixed

theorem FInv.init (path : List Nat) : FInv A path 0 [] 0 := ⟨by omega, by simp, by simp⟩

/-- pushing nodes of the path up to position `j` -/
theorem FInv.push {path : List Nat} {k : Nat} {fixed : List Nat} {pushed : Nat} (h : FInv A path k fixed pushed) {j : Nat} (hj : pushed ≤ j + 1) (hlen : j < path.length) :
    ∃ part, slice path pushed (j + 1) = some part ∧ FInv A path k (fixed ++ part) (j + 1) := by
  refine ⟨(path.drop pushed).take (j + 1 - pushed), by simp [slice, hj, show j + 1 ≤ path.length by omega], by omega, by simp, ?_⟩
  intro i hi
  have : i = j := by omega
  subst this
  have hx : path[i]? = some path[i] := List.getElem?_eq_getElem hlen
  cases hp : pushed with
  | zero =>
    obtain ⟨rfl, rfl⟩ := h.nil hp
    refine ⟨path[i], path.take i, hx, ?_, ?_, ?_⟩
    · simpa using take_succ hx
    · cases path with
      | nil => simp at hlen
      | cons a l => simp
    · simpa using Saves.refl _
  | succ q =>
    subst hp
    obtain ⟨x, f0, e1, rfl, e3, e4⟩ := h.step q rfl
    rcases Nat.lt_or_ge q i with hqi | hqi
    · have hpart : (path.drop (q + 1)).take (i + 1 - (q + 1)) = (path.drop (q + 1)).take (i - (q + 1)) ++ [path[i]] := by
        rw [show i + 1 - (q + 1) = (i - (q + 1)) + 1 by omega]
        apply take_succ
        rw [List.getElem?_drop, show q + 1 + (i - (q + 1)) = i by omega]
        exact hx
      have htake : path.take (i + 1) = path.take q ++ x :: (path.drop (q + 1)).take (i + 1 - (q + 1)) := by
        rw [show i + 1 = (q + 1) + (i + 1 - (q + 1)) by omega, List.take_add, take_succ e1]
        simp
      refine ⟨path[i], f0 ++ [x] ++ (path.drop (q + 1)).take (i - (q + 1)), hx, by rw [hpart]; simp, ?_, ?_⟩
      · cases f0 with
        | nil => simpa using e3
        | cons a l => simpa using e3
      · rw [htake]
        have := Saves.join (p1 := path.take q) (q1 := f0) (v := x) (k := k) (l := 0) (by rw [← take_succ e1]; exact e4)
          (Saves.refl (x :: (path.drop (q + 1)).take (i + 1 - (q + 1))))
        simpa using this
    · have : q = i := by omega
      subst this
      refine ⟨x, f0, e1, by simp, ?_, by simpa using e4⟩
      simpa using e3

/-- replacing a range by a shortest path -/
theorem FInv.replace {path : List Nat} {k : Nat} {fixed : List Nat} {r : Rng} (h : FInv A path k fixed (r.start + 1)) {s t d : Nat} (hr : r.start < r.stop)
    (hs : path[r.start]? = some s) (ht : path[r.stop]? = some t) (hlong : ∀ len, PathOf A (subPath path r) len → d < len) {seg : List Nat}
    (hp : PathOf A (s :: seg) d) (hl : (s :: seg).getLast? = some t) : FInv A path (k + 1) (fixed ++ seg) (r.stop + 1) := by
  have htl := (List.getElem?_eq_some_iff.1 ht).1
  refine ⟨by omega, by simp, ?_⟩
  intro i hi
  have : i = r.stop := by omega
  subst this
  obtain ⟨x, f0, e1, rfl, e3, e4⟩ := h.step _ rfl
  have : x = s := by rw [hs] at e1; simpa using e1.symm
  subst this
  have hsub : subPath path r = x :: (path.drop (r.start + 1)).take (r.stop - r.start) := by
    unfold subPath
    rw [← List.getElem_cons_drop (h := (List.getElem?_eq_some_iff.1 hs).1)]
    simp [(List.getElem?_eq_some_iff.1 hs).2]
  have htake : path.take (r.stop + 1) = path.take r.start ++ x :: (path.drop (r.start + 1)).take (r.stop - r.start) := by
    rw [show r.stop + 1 = (r.start + 1) + (r.stop - r.start) by omega, List.take_add, take_succ hs]
    simp
  refine ⟨t, (f0 ++ x :: seg).dropLast, ht, ?_, ?_, ?_⟩
  · have h1 : (f0 ++ x :: seg).getLast? = some t := by rw [List.getLast?_append, hl]; rfl
    have := List.dropLast_append_getLast? t h1
    simp only [List.append_assoc, List.singleton_append]
    exact this.symm
  · cases f0 with
    | nil => simpa using e3
    | cons a l => simpa using e3
  · rw [htake]
    have := Saves.join (p1 := path.take r.start) (q1 := f0) (v := x) (k := k) (l := 1) (p2 := (path.drop (r.start + 1)).take (r.stop - r.start)) (q2 := seg)
      (by rw [← take_succ hs]; exact e4) (fun len hlen => ⟨d, hp, by have := hlong len (by rw [hsub]; exact hlen); omega⟩)
    simpa using this

/-! ### One range -/

theorem fixRange_spec {c : Cch} {w : Weights} {p : PW} {g : FOGraph} (ho : c.order.OK n) (hA : ∀ u v w, g.Arc u v w → u < n ∧ v < n)
    (hP : HOK n (forwardPathPot c (perfSides n c w p)) (InRanks g.Arc c.order.node)) (dbg : Bool) {path : List Nat} {st : Fix} {k : Nat} {r : Rng}
    (hpn : ∀ v ∈ path, v < n)
    (hst : PReady n st.tgt) (hi : FInv g.Arc path k st.fixed st.pushed) (hle : st.pushed ≤ r.start + 1) (hr : Longer g.Arc path r) :
    ∃ st', fixRange dbg (CchServer.new c (perfSides n c w p) g).1 n path st r = some st' ∧ PReady n st'.tgt ∧
      FInv g.Arc path (k + 1) st'.fixed st'.pushed ∧ st'.pushed = r.stop + 1 := by
  obtain ⟨hlt, s, t, d, hs, ht, hd, hfin, hlong⟩ := hr
  have hsl := (List.getElem?_eq_some_iff.1 hs).1
  obtain ⟨part, e1, e2⟩ := hi.push hle hsl
  obtain ⟨rs, f1, f2, f3⟩ := ho.rank_lt (hpn s (List.mem_of_getElem? hs))
  obtain ⟨rt, g1, g2, g3⟩ := ho.rank_lt (hpn t (List.mem_of_getElem? ht))
  have es : s = nd c.order rs := by simp [nd, f3]
  have et : t = nd c.order rt := by simp [nd, g3]
  obtain ⟨s1, b, i1, i2⟩ := init_spec hP hst.stack hst.pots hst.bwd hst.unp hst.len g1
  have hd' : IsDist (InRanks g.Arc c.order.node) rs rt d := by rw [isDist_iff ho hA f1 g1, ← es, ← et]; exact hd
  obtain ⟨s2, f, u, j1, j2, j3, _, _⟩ := unpack_spec hP dbg ((n + 1) * (n + 1)) s1 _ _ rs d n i2 f1 hd' hfin (.inl (Nat.le_refl n)) (by
    have := nearer_lt_n (A := InRanks g.Arc c.order.node) (t := rt) f1
    have : nearer (InRanks g.Arc c.order.node) n rt rs * (n + 1) ≤ n * (n + 1) := Nat.mul_le_mul_right _ (by omega)
    rw [Nat.add_mul]; omega)
  obtain ⟨d2, k2, l1, l2, l3⟩ := PInv.up hP j2 _ rs (Nat.le_refl _) f1 j3
  have : d2 = d := l3.unique hd'
  subst this
  obtain ⟨seg, m1, m2, m3⟩ := followTree_spec ho f1 hA l2 n (by
    have := nearer_lt_n (A := InRanks g.Arc c.order.node) (t := rt) f1
    omega)
  rw [← es, ← et] at m1
  rw [← es] at m2 m3
  rw [← et] at m3
  obtain ⟨x, f0, y1, y2, _, _⟩ := e2.step _ rfl
  have hx : x = s := by rw [hs] at y1; simpa using y1.symm
  subst hx
  have hlast : (st.fixed ++ part).getLast? = some x := by rw [y2]; simp
  refine ⟨⟨st.fixed ++ part ++ seg, r.stop + 1, s2⟩, ?_, j2.ready, e2.replace hlt hs ht hlong m2 m3, rfl⟩
  simp only [fixRange, CchServer.new, e1, hs, ht, f2, g2, i1, j1, hlast, m1, Option.bind_eq_bind, Option.bind_some, Option.pure_def]

/-! ### All ranges -/

theorem foldRanges_spec {c : Cch} {w : Weights} {p : PW} {g : FOGraph} (ho : c.order.OK n) (hA : ∀ u v w, g.Arc u v w → u < n ∧ v < n)
    (hP : HOK n (forwardPathPot c (perfSides n c w p)) (InRanks g.Arc c.order.node)) (dbg : Bool) {path : List Nat} (hpn : ∀ v ∈ path, v < n) :
    ∀ (l : List Rng) (cov : Nat) (st : Fix) (k : Nat), (∀ r ∈ l, Longer g.Arc path r) → PReady n st.tgt → FInv g.Arc path k st.fixed st.pushed →
      st.pushed ≤ cov + 1 →
      ∃ st' k', (retainDisjoint cov l).foldlM (fixRange dbg (CchServer.new c (perfSides n c w p) g).1 n path) st = some st' ∧ PReady n st'.tgt ∧
        FInv g.Arc path k' st'.fixed st'.pushed ∧ k + (retainDisjoint cov l).length ≤ k' := by
  intro l
  induction l with
  | nil => intro cov st k _ h1 h2 _; exact ⟨st, k, rfl, h1, h2, by simp [retainDisjoint]⟩
  | cons r l ih =>
    intro cov st k hl h1 h2 h3
    unfold retainDisjoint
    split
    · rename_i hr
      obtain ⟨st1, e1, e2, e3, e4⟩ := fixRange_spec ho hA hP dbg hpn h1 h2 (r := r) (by omega) (hl r (by simp))
      obtain ⟨st2, k2, f1, f2, f3, f4⟩ := ih r.stop st1 (k + 1) (fun x hx => hl x (by simp [hx])) e2 e3 (by omega)
      exact ⟨st2, k2, by simp only [List.foldlM_cons, e1, Option.bind_eq_bind, Option.bind_some]; exact f1, f2, f3, by simp; omega⟩
    · exact ih cov st k (fun x hx => hl x (by simp [hx])) h1 h2 h3

theorem retainDisjoint_ne {l : List Rng} (h : l ≠ []) : 0 < (retainDisjoint 0 l).length := by
  cases l with
  | nil => exact absurd rfl h
  | cons r l => simp [retainDisjoint]

end UBS
end Verif
