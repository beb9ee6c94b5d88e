import Verif.Proof.Here
set_option linter.unusedSimpArgs false
set_option linter.unusedVariables false
/- The import of HERE data: the graph and the mapping between its arcs and the links. -/
namespace Verif
open Spec Bits Here

/-- **C79.** The imported graph has one node for each end of a link that can be driven within the region, at its place, and exactly one arc for each such link
and each direction in which it may be driven: between the right nodes and with the weight of the link in that direction. The mapping leads from link and
direction to this arc, from what cannot be driven to nothing, and from the arc back to link and direction. Nothing panics. -/
theorem C79_import (wt : Here.Link → Dir → Nat) (i : Input) (h : HereOK i) :
    ∃ g iv M n loc, readGraph wt i = some g ∧ InvMap.new g.mapping = some iv ∧ Mapper.new iv g.table g.head.length = some M ∧
      AdjacencyArray g n ∧ Places i g n loc ∧
      (∀ l d, Drivable i l d → ∃ e, M.toLocal l.id d = some (some e) ∧ IsArc g e (loc (driveFrom l d)) (loc (driveTo l d)) (wt l d) ∧
        M.toHere false stdSearch e = some (l.id, d)) ∧
      (∀ id d, (¬ ∃ l, Drivable i l d ∧ l.id = id) → M.toLocal id d = some none) ∧
      ∀ e, e < g.head.length → ∃ l d, Drivable i l d ∧ M.toLocal l.id d = some (some e) := by
  obtain ⟨g, L, K, ids, nav, A, T, n, size, hg, R⟩ := result (wt := wt) h
  obtain ⟨iv, M, h1, h2, h3, h4, h5⟩ := R.mapper
  have hends : ∀ l d, Drivable i l d → driveFrom l d ∈ ids ∧ driveTo l d ∈ ids := by
    intro l d hd
    refine ⟨(R.ofIds _).2 ⟨l, d, hd, ?_⟩, (R.ofIds _).2 ⟨l, d, hd, ?_⟩⟩ <;> cases d <;> simp [driveFrom, driveTo]
  have hAt : ∀ a ∈ A, a.tail < n ∧ a.head < n := by
    intro a ha
    obtain ⟨l, d, hd, rfl⟩ := (R.ofA a).1 ha
    exact ⟨R.nodes _ (hends l d hd).1, R.nodes _ (hends l d hd).2⟩
  have hfo : ∀ v, v ≤ n → g.firstOut[v]? = some (pre (cntT A) v) := by
    intro v hv
    rw [R.firstOut, List.getElem?_map, List.getElem?_range (by omega)]; rfl
  have hfl : g.firstOut.length = n + 1 := by rw [R.firstOut]; simp
  have hpre : pre (cntT A) n = A.length := pre_length A (fun a ha => (hAt a ha).1)
  refine ⟨g, iv, M, n, rk ids, hg, h1, h2, ⟨hfl, ?_, ?_, ?_, ?_, ?_⟩, ⟨?_, ?_, ?_, ?_⟩, ?_, h4, ?_⟩
  · rw [hfo 0 (by omega)]; rfl
  · rw [hfo n (by omega), hpre, R.len.1]
  · intro v a b ha hb
    have hv := (List.getElem?_eq_some_iff.1 hb).1
    rw [hfl] at hv
    rw [hfo v (by omega)] at ha
    rw [hfo (v + 1) (by omega)] at hb
    cases ha; cases hb
    exact pre_mono _ (by omega)
  · rw [R.len.1, R.len.2]
  · intro v hv
    obtain ⟨e, he⟩ := List.mem_iff_getElem?.1 hv
    have hel := (List.getElem?_eq_some_iff.1 he).1
    rw [R.len.1] at hel
    obtain ⟨j, a, hj, hs⟩ := slot_surj (fun a ha => (hAt a ha).1) hel
    have := (R.arc j a hj).1
    rw [hs, he] at this
    cases this
    exact (hAt a (List.mem_iff_getElem?.2 ⟨j, hj⟩)).2
  · intro x hx; exact R.nodes x ((R.ofIds x).2 hx)
  · intro x y hx hy e; exact R.inj x ((R.ofIds x).2 hx) y ((R.ofIds y).2 hy) e
  · intro v hv
    obtain ⟨x, hx, e⟩ := R.onto v hv
    exact ⟨x, (R.ofIds x).1 hx, e⟩
  · intro x hx hu; exact R.coords x hx ((R.ofIds _).2 hu)
  · intro l d hd
    obtain ⟨j, hj⟩ := List.mem_iff_getElem?.1 ((R.ofA _).2 ⟨l, d, hd, rfl⟩)
    obtain ⟨a1, a2, a3⟩ := R.arc j _ hj
    have ht := (hAt _ (List.mem_iff_getElem?.2 ⟨j, hj⟩)).1
    refine ⟨_, (h3 l d hd).trans (congrArg some a3), ⟨_, _, hfo _ ?_, hfo _ ?_, ?_, slot_lt hj, a1, a2⟩, (h5 l d _ hd a3).1⟩
    · exact Nat.le_of_lt ht
    · exact ht
    · exact Nat.le_add_right _ _
  · intro e he
    rw [R.len.1] at he
    obtain ⟨j, a, hj, rfl⟩ := slot_surj (fun a ha => (hAt a ha).1) he
    obtain ⟨l, d, hd, rfl⟩ := (R.ofA _).1 (List.mem_iff_getElem?.2 ⟨j, hj⟩)
    exact ⟨l, d, hd, (h3 l d hd).trans (congrArg some (R.arc j _ hj).2.2)⟩

/-- **C79, negative part.** With debug assertions, asking for the link of an arc panics for every arc that leads to the reference node: the assertion compares with
the arc of the other direction. -/
theorem C79_debug_panics (wt : Here.Link → Dir → Nat) (i : Input) (h : HereOK i) (g : Data) (iv : InvMap) (M : Mapper) (hg : readGraph wt i = some g)
    (hiv : InvMap.new g.mapping = some iv) (hM : Mapper.new iv g.table g.head.length = some M) (l : Here.Link) (hl : Drivable i l .toRef) (e : Nat)
    (he : M.toLocal l.id .toRef = some (some e)) : M.toHere true stdSearch e = none := by
  obtain ⟨g', L, K, ids, nav, A, T, n, size, hg', R⟩ := result (wt := wt) h
  rw [hg] at hg'; cases hg'
  obtain ⟨iv', M', h1, h2, h3, h4, h5⟩ := R.mapper
  rw [hiv] at h1; cases h1
  rw [hM] at h2; cases h2
  have := (h5 l .toRef e hl (Option.some.inj ((h3 l .toRef hl).symm.trans he))).2
  simpa using this

namespace HereExample

/-- Five nodes, one of them outside; a road that can be driven both ways, two one-way roads, one link without navigation, one that leaves the region. -/
def input : Input where
  nodes := [⟨7, 10, 10⟩, ⟨3, 20, 10⟩, ⟨12, 20, 30⟩, ⟨4, 90, 10⟩, ⟨5, 11, 11⟩]
  links := [⟨100, 7, 3⟩, ⟨30, 12, 3⟩, ⟨50, 3, 4⟩, ⟨64, 7, 12⟩, ⟨65, 5, 7⟩]
  navs := [⟨64, .fromRef⟩, ⟨50, .both⟩, ⟨100, .both⟩, ⟨30, .toRef⟩, ⟨999, .both⟩]
  lo := (0, 0)
  hi := (50, 50)

def weight (l : Here.Link) : Dir → Nat
  | .fromRef => l.id
  | .toRef => l.id + 1

theorem ok : HereOK input where
  nodes := by decide
  links := by decide
  navs := by decide
  ends := by decide
  some := ⟨⟨100, 7, 3⟩, by decide, ⟨⟨7, 10, 10⟩, by decide⟩, ⟨⟨3, 20, 10⟩, by decide⟩⟩
  small := by decide

end HereExample

open HereExample in
example : ∃ g iv M n loc, readGraph weight input = some g ∧ InvMap.new g.mapping = some iv ∧ Mapper.new iv g.table g.head.length = some M ∧
    AdjacencyArray g n ∧ Places input g n loc := by
  obtain ⟨g, iv, M, n, loc, h1, h2, h3, h4, h5, _⟩ := C79_import weight input ok
  exact ⟨g, iv, M, n, loc, h1, h2, h3, h4, h5⟩

open HereExample in
example : (readGraph weight input).map (fun g => (g.firstOut, g.head, g.weight, g.coords)) =
    some ([0, 2, 4, 4], [1, 2, 0, 2], [101, 31, 100, 64], [(20, 10), (10, 10), (20, 30)]) := by decide +kernel

open HereExample in
example : ((readGraph weight input).bind (fun g => (InvMap.new g.mapping).bind (fun iv => Mapper.new iv g.table g.head.length))).map
    (fun M => ([M.toLocal 100 .fromRef, M.toLocal 100 .toRef, M.toLocal 64 .toRef], M.toHere false stdSearch 0)) =
    some ([some (some 2), some (some 0), some none], some (100, .toRef)) := by decide +kernel

open HereExample in
example : ((readGraph weight input).bind (fun g => (InvMap.new g.mapping).bind (fun iv => Mapper.new iv g.table g.head.length))).map
    (fun M => (M.toHere true stdSearch 0, M.toHere true stdSearch 2)) = some (none, some (100, .fromRef)) := by decide +kernel

end Verif
