import Verif.Proof.CHContract
import Verif.Proof.CHQuery
import Verif.Proof.CCHContraction
import Verif.Proof.CCHSession
import Verif.Proof.GraphOps3
import Verif.Spec.CH
import Verif.Props.Graph
set_option linter.unusedSimpArgs false
set_option linter.unusedVariables false
/- The ends of the contraction: the graph before and after. -/
namespace Verif
open Spec DData
namespace CH
open CCH (mapM_index mapM_exists mem_of_mapM)

/-- The heads of the links of `v`, other than `v`, are distinct. -/
def Distinct (v : Nat) (ls : List Link) : Prop := ((ls.filter (fun l => decide (l.node ≠ v))).map Link.node).Nodup

theorem mapM_map_nodup {α β : Type} {f : α → Option β} {ka : α → Nat} {kb : β → Nat} (hinj : ∀ a b x y, f a = some x → f b = some y → kb x = kb y → ka a = ka b) :
    ∀ {l : List α} {r : List β}, l.mapM f = some r → (l.map ka).Nodup → (r.map kb).Nodup
  | [], r, h, _ => by simp at h; subst h; simp
  | a :: l, r, h, hn => by
    simp only [List.mapM_cons, Option.bind_eq_bind, Option.bind_eq_some_iff, Option.pure_def, Option.some.injEq] at h
    obtain ⟨b, hb, r', hr', rfl⟩ := h
    rw [List.map_cons, List.nodup_cons] at hn ⊢
    refine ⟨?_, mapM_map_nodup hinj hr' hn.2⟩
    intro hm
    obtain ⟨y, hy, he⟩ := List.mem_map.1 hm
    obtain ⟨x, hx, hfx⟩ := (mem_of_mapM hr' y).1 hy
    exact hn.1 (List.mem_map.2 ⟨x, hx, hinj _ _ _ _ hfx hb he⟩)

theorem newSide_spec {n : Nat} {o : NodeOrder} (ho : o.OK n) {links : Nat → Option (List Link)} (ht : ∀ v, v < n → ∃ ls, links v = some ls)
    (hh : ∀ v ls l, links v = some ls → l ∈ ls → l.node < n) (hs : ∀ v ls, links v = some ls → Distinct v ls) :
    ∃ sides, newSide n o links = some sides ∧ sides.length = n ∧ ∀ r : Nat, r < n → ∃ v ls es, o.node r = some v ∧ links v = some ls ∧ sides[r]? = some es ∧ ND es ∧
      ∀ h w, (∃ m, ((⟨h, w⟩, m) : Entry) ∈ es) ↔ ∃ x, o.rank x = some h ∧ (⟨x, w⟩ : Link) ∈ ls ∧ x ≠ v := by
  have hex : ∀ r ∈ List.range n, ∃ es, (do
      let v ← o.node r
      let ls ← links v
      (ls.filter (fun l => l.node ≠ v)).mapM (fun l => do
        let h ← o.rank l.node
        return ((⟨h, l.weight⟩, n) : Entry)) : Option (List Entry)) = some es := by
    intro r hr
    obtain ⟨v, hv, h1, h2⟩ := ho.node_lt (List.mem_range.1 hr)
    obtain ⟨ls, h3⟩ := ht v hv
    simp only [h1, h3, Option.bind_eq_bind, Option.bind_some]
    apply mapM_exists
    intro l hl
    obtain ⟨y, _, h4, _⟩ := ho.rank_lt (hh v ls l h3 (List.mem_filter.1 hl).1)
    exact ⟨_, by rw [h4]; rfl⟩
  obtain ⟨sides, hsides⟩ := mapM_exists hex
  obtain ⟨hlen, hidx⟩ := mapM_index hsides
  refine ⟨sides, hsides, by simpa using hlen, ?_⟩
  intro r hr
  obtain ⟨es, h1, h2⟩ := hidx r r (by simp [hr])
  obtain ⟨v, hv, h3, h4⟩ := ho.node_lt hr
  obtain ⟨ls, h5⟩ := ht v hv
  simp only [h3, h5, Option.bind_eq_bind, Option.bind_some] at h2
  refine ⟨v, ls, es, h3, h5, h1, ?_, ?_⟩
  · refine mapM_map_nodup (ka := Link.node) (kb := fun e : Entry => e.1.node) ?_ h2 (hs v ls h5)
    intro a b x y ha hb he
    simp only [Option.bind_eq_some_iff, Option.pure_def, Option.some.injEq] at ha hb
    obtain ⟨x1, p1, rfl⟩ := ha
    obtain ⟨y1, p2, rfl⟩ := hb
    simp only at he
    subst he
    exact ho.rank_inj p1 p2
  · intro h w
    constructor
    · rintro ⟨m, hm⟩
      obtain ⟨l, hl, he⟩ := (mem_of_mapM h2 _).1 hm
      simp only [Option.bind_eq_some_iff, Option.pure_def, Option.some.injEq, Prod.mk.injEq, Link.mk.injEq] at he
      obtain ⟨h', p1, ⟨rfl, rfl⟩, _⟩ := he
      rw [List.mem_filter] at hl
      exact ⟨l.node, p1, hl.1, by simpa using hl.2⟩
    · rintro ⟨x, p1, p2, p3⟩
      refine ⟨n, (mem_of_mapM h2 _).2 ⟨⟨x, w⟩, List.mem_filter.2 ⟨p2, by simpa using p3⟩, ?_⟩⟩
      simp [p1]

theorem two_le_count {α : Type} [DecidableEq α] {l : List α} {i j : Nat} {x : α} (hij : i < j) (hi : l[i]? = some x) (hj : l[j]? = some x) :
    2 ≤ l.count x := by
  induction l generalizing i j with
  | nil => simp at hi
  | cons a l ih =>
    cases j with
    | zero => omega
    | succ j =>
      simp only [List.getElem?_cons_succ] at hj
      cases i with
      | zero =>
        simp at hi; subst hi
        rw [List.count_cons_self]
        have : 0 < l.count a := List.count_pos_iff.2 (List.mem_of_getElem? hj)
        omega
      | succ i =>
        simp only [List.getElem?_cons_succ] at hi
        have := ih (by omega) hi hj
        have h2 := List.count_le_count_cons (a := x) (b := a) (l := l)
        omega

/-- Distinctness, by counting. -/
theorem distinct_iff {v : Nat} {ls : List Link} : Distinct v ls ↔ (∀ x w, x ≠ v → ls.count ⟨x, w⟩ ≤ 1) ∧
    (∀ x w w', x ≠ v → (⟨x, w⟩ : Link) ∈ ls → (⟨x, w'⟩ : Link) ∈ ls → w = w') := by
  unfold Distinct
  induction ls with
  | nil => simp
  | cons a ls ih =>
    by_cases ha : a.node = v
    · rw [List.filter_cons_of_neg (by simp [ha]), ih]
      constructor
      · rintro ⟨h1, h2⟩
        refine ⟨fun x w hx => ?_, fun x w w' hx hm hm' => ?_⟩
        · rw [List.count_cons_of_ne (by rintro rfl; exact hx ha)]; exact h1 x w hx
        · rcases List.mem_cons.1 hm with rfl | hm
          · exact absurd ha hx
          · rcases List.mem_cons.1 hm' with rfl | hm'
            · exact absurd ha hx
            · exact h2 x w w' hx hm hm'
      · rintro ⟨h1, h2⟩
        refine ⟨fun x w hx => ?_, fun x w w' hx hm hm' => h2 x w w' hx (List.mem_cons_of_mem _ hm) (List.mem_cons_of_mem _ hm')⟩
        have := h1 x w hx
        have h3 := List.count_le_count_cons (a := (⟨x, w⟩ : Link)) (b := a) (l := ls)
        omega
    · rw [List.filter_cons_of_pos (by simp [ha]), List.map_cons, List.nodup_cons, ih]
      have hmem : a.node ∈ (ls.filter (fun l => decide (l.node ≠ v))).map Link.node ↔ ∃ w, (⟨a.node, w⟩ : Link) ∈ ls := by
        constructor
        · intro h
          obtain ⟨⟨x, w⟩, h1, h2⟩ := List.mem_map.1 h
          simp only at h2; subst h2
          exact ⟨w, (List.mem_filter.1 h1).1⟩
        · rintro ⟨w, hw⟩
          exact List.mem_map.2 ⟨_, List.mem_filter.2 ⟨hw, by simpa using ha⟩, rfl⟩
      rw [hmem]
      constructor
      · rintro ⟨h0, h1, h2⟩
        refine ⟨fun x w hx => ?_, fun x w w' hx hm hm' => ?_⟩
        · by_cases he : a = ⟨x, w⟩
          · subst he
            rw [List.count_cons_self]
            have : ls.count (⟨x, w⟩ : Link) = 0 := List.count_eq_zero.2 (fun hm => h0 ⟨w, hm⟩)
            omega
          · rw [List.count_cons_of_ne he]; exact h1 x w hx
        · rcases List.mem_cons.1 hm with he | hm
          · rcases List.mem_cons.1 hm' with he' | hm'
            · rw [← he'] at he; simp at he; exact he
            · exact absurd ⟨w', by rw [← he]; exact hm'⟩ h0
          · rcases List.mem_cons.1 hm' with he' | hm'
            · exact absurd ⟨w, by rw [← he']; exact hm⟩ h0
            · exact h2 x w w' hx hm hm'
      · rintro ⟨h1, h2⟩
        refine ⟨?_, fun x w hx => ?_, fun x w w' hx hm hm' => h2 x w w' hx (List.mem_cons_of_mem _ hm) (List.mem_cons_of_mem _ hm')⟩
        · rintro ⟨w, hw⟩
          have he : w = a.weight := h2 a.node w a.weight ha (List.mem_cons_of_mem _ hw) (List.mem_cons_self)
          have hc := h1 a.node a.weight ha
          rw [he] at hw
          have : 0 < ls.count a := List.count_pos_iff.2 hw
          have h3 : (a :: ls).count (⟨a.node, a.weight⟩ : Link) = ls.count a + 1 := List.count_cons_self
          omega
        · have := h1 x w hx
          have h3 := List.count_le_count_cons (a := (⟨x, w⟩ : Link)) (b := a) (l := ls)
          omega

/-- No parallel arcs, except for loops. -/
abbrev Simple (g : FOGraph) : Prop := NoParallelArcs g.linkIter

/-- The weights of the arcs between ranks. -/
def IsW (g : FOGraph) (o : NodeOrder) (W : Nat → Nat → Option Nat) : Prop :=
  ∀ x y w, W x y = some w ↔ ∃ u v, o.rank u = some x ∧ o.rank v = some y ∧ g.Arc u v w ∧ u ≠ v

theorem newGraph_spec {g : FOGraph} (hg : g.WF) (hs : Simple g) {o : NodeOrder} (ho : o.OK g.numNodes) :
    ∃ nodes W, newGraph g.numNodes g.numArcs o g.linkIter = some nodes ∧ Mir g.numNodes 0 nodes W ∧ IsW g o W := by
  obtain ⟨r, h1, h2, h3, _, h5⟩ := GraphOps.reversed_spec hg
  have hmem : ∀ u v w ls rs, g.linkIter u = some ls → r.linkIter v = some rs → ((⟨u, w⟩ : Link) ∈ rs ↔ (⟨v, w⟩ : Link) ∈ ls) := by
    intro u v w ls rs hl hr
    have := h5 u v w
    simp only [GraphOps.linkCount, hl, hr, Option.getD_some] at this
    rw [← List.count_pos_iff, ← List.count_pos_iff, this]
  have hsr : ∀ v rs, r.linkIter v = some rs → Distinct v rs := by
    intro v rs hr
    rw [distinct_iff]
    constructor
    · intro u w huv
      have := h5 u v w
      simp only [GraphOps.linkCount, hr, Option.getD_some] at this
      rw [this]
      cases hl : g.linkIter u with
      | none => simp
      | some ls => exact (distinct_iff.1 (hs u ls hl)).1 v w (Ne.symm huv)
    · intro u w w' huv hm hm'
      have hun : u < g.numNodes := by rw [← h3]; exact h2.mem_heads hr hm
      obtain ⟨ls, hl⟩ := hg.total hun
      exact (distinct_iff.1 (hs u ls hl)).2 v w w' (Ne.symm huv) ((hmem u v w ls rs hl hr).1 hm) ((hmem u v w' ls rs hl hr).1 hm')
  obtain ⟨outs, o1, o2, o3⟩ := newSide_spec ho (fun v hv => hg.total hv) (fun v ls l hl hm => hg.mem_heads hl hm) hs
  obtain ⟨ins, i1, i2, i3⟩ := newSide_spec (n := g.numNodes) ho (fun v hv => h2.total (by rw [h3]; exact hv))
    (fun v ls l hl hm => by rw [← h3]; exact h2.mem_heads hl hm) hsr
  refine ⟨List.zipWith CNode.mk outs ins, fun x y => (outs[x]?).bind (fun es => look es y), ?_, ?_, ?_⟩
  · simp only [newGraph, o1, h1, i1, Option.bind_eq_bind, Option.bind_some]; rfl
  · have hW : ∀ x y w, (outs[x]?).bind (fun es => look es y) = some w ↔ ∃ u v, o.rank u = some x ∧ o.rank v = some y ∧ g.Arc u v w ∧ u ≠ v := by
      intro x y w
      constructor
      · intro h
        rw [Option.bind_eq_some_iff] at h
        obtain ⟨es, he, hl⟩ := h
        have hx : x < g.numNodes := by rw [← o2]; exact (List.getElem?_eq_some_iff.1 he).1
        obtain ⟨u, ls, es', q1, q2, q3, q4, q5⟩ := o3 x hx
        rw [he] at q3; simp at q3; subst q3
        obtain ⟨v, p1, p2, p3⟩ := (q5 y w).1 ((mem_look q4).2 hl)
        exact ⟨u, v, (ho.inv.inv _ _).1 q1, p1, ⟨ls, q2, p2⟩, Ne.symm p3⟩
      · rintro ⟨u, v, p1, p2, ⟨ls, p3, p4⟩, p5⟩
        obtain ⟨u', ls', es, q1, q2, q3, q4, q5⟩ := o3 x (ho.rank_range p1)
        have : u' = u := ho.rank_inj ((ho.inv.inv _ _).1 q1) p1
        subst this
        rw [p3] at q2; simp at q2; subst q2
        rw [q3]
        simp only [Option.bind_some]
        exact (mem_look q4).1 ((q5 y w).2 ⟨v, p2, p4, Ne.symm p5⟩)
    refine ⟨⟨by simp [o2, i2], ?_⟩, ?_⟩
    · intro x _ hx
      obtain ⟨u, ls, es, q1, q2, q3, q4, q5⟩ := o3 x hx
      obtain ⟨u', rs, fs, k1, k2, k3, k4, k5⟩ := i3 x hx
      rw [q1] at k1; simp at k1; subst k1
      refine ⟨⟨es, fs⟩, by rw [List.getElem?_zipWith]; simp [q3, k3], q4, k4, ?_, ?_⟩
      · intro y; rw [q3]; rfl
      · intro y
        apply Option.ext
        intro w
        rw [hW y x w, ← mem_look k4, k5 y w]
        constructor
        · rintro ⟨z, p1, p2, p3⟩
          have hz : z < g.numNodes := ho.rank_dom p1
          obtain ⟨zs, hzs⟩ := hg.total hz
          exact ⟨z, u, p1, (ho.inv.inv _ _).1 q1, ⟨zs, hzs, (hmem z u w zs rs hzs k2).1 p2⟩, p3⟩
        · rintro ⟨z, v, p1, p2, ⟨zs, hzs, p4⟩, p5⟩
          have : v = u := ho.rank_inj p2 ((ho.inv.inv _ _).1 q1)
          subst this
          exact ⟨z, p1, (hmem z v w zs rs hzs k2).2 p4, p5⟩
    · intro x y w hw
      obtain ⟨u, v, p1, p2, p3, p4⟩ := (hW x y w).1 hw
      refine ⟨Nat.zero_le _, Nat.zero_le _, ho.rank_range p1, ho.rank_range p2, ?_⟩
      rintro rfl
      exact p4 (ho.rank_inj p1 p2)
  · intro x y w
    constructor
    · intro h
      simp only [Option.bind_eq_some_iff] at h
      obtain ⟨es, he, hl⟩ := h
      have hx : x < g.numNodes := by rw [← o2]; exact (List.getElem?_eq_some_iff.1 he).1
      obtain ⟨u, ls, es', q1, q2, q3, q4, q5⟩ := o3 x hx
      rw [he] at q3; simp at q3; subst q3
      obtain ⟨v, p1, p2, p3⟩ := (q5 y w).1 ((mem_look q4).2 hl)
      exact ⟨u, v, (ho.inv.inv _ _).1 q1, p1, ⟨ls, q2, p2⟩, Ne.symm p3⟩
    · rintro ⟨u, v, p1, p2, ⟨ls, p3, p4⟩, p5⟩
      obtain ⟨u', ls', es, q1, q2, q3, q4, q5⟩ := o3 x (ho.rank_range p1)
      have : u' = u := ho.rank_inj ((ho.inv.inv _ _).1 q1) p1
      subst this
      rw [p3] at q2; simp at q2; subst q2
      show (outs[x]?).bind (fun es => look es y) = some w
      rw [q3]
      simp only [Option.bind_some]
      exact (mem_look q4).1 ((q5 y w).2 ⟨v, p2, p4, Ne.symm p5⟩)

/-- Walks of the graph and of the weights between ranks. -/
theorem isW_walk {g : FOGraph} (hg : g.WF) {o : NodeOrder} (ho : o.OK g.numNodes) {W : Nat → Nat → Option Nat} (hW : IsW g o W) {s t x y d : Nat}
    (hs : o.rank s = some x) (ht : o.rank t = some y) :
    (Walk (WA W) x y d → Walk g.Arc s t d) ∧ (Walk g.Arc s t d → ∃ d', d' ≤ d ∧ Walk (WA W) x y d') := by
  constructor
  · intro h
    induction h generalizing s with
    | nil x => have := ho.rank_inj hs ht; subst this; exact .nil _
    | cons ha _ ih =>
      obtain ⟨u, v, p1, p2, p3, _⟩ := (hW _ _ _).1 ha
      have := ho.rank_inj hs p1
      subst this
      exact .cons p3 (ih p2 ht)
  · intro h
    induction h generalizing x with
    | nil s => rw [hs] at ht; simp at ht; subst ht; exact ⟨0, Nat.le_refl _, .nil _⟩
    | @cons u v t w d ha _ ih =>
      have hv : v < g.numNodes := by obtain ⟨ls, q1, q2⟩ := ha; exact hg.mem_heads q1 q2
      obtain ⟨z, _, hz, _⟩ := ho.rank_lt hv
      obtain ⟨d', h1, h2⟩ := ih hz ht
      by_cases huv : u = v
      · subst huv
        rw [hs] at hz; simp at hz; subst hz
        exact ⟨d', by omega, h2⟩
      · exact ⟨w + d', by omega, .cons ((hW _ _ _).2 ⟨u, v, hs, hz, ha, huv⟩) h2⟩

/-! ### the result -/

theorem side_graph {n : Nat} {lists : List (List Entry)} {g : FOGraph} (hl : lists.length = n) (hnd : ∀ es ∈ lists, ND es)
    (hh : ∀ es ∈ lists, ∀ e ∈ es, e.1.node < n) (hg : FOGraph.fromAdjacencyLists (lists.map (List.map Prod.fst)) = some g) :
    g.WF ∧ g.numNodes = n ∧ ∀ u v w, g.Arc u v w ↔ ∃ es, lists[u]? = some es ∧ look es v = some w := by
  have hsz : (lists.map (List.map Prod.fst)).length + 1 < U32 - 1 ∧ (lists.map (List.map (Prod.fst : Entry → Link))).flatten.length < U32 - 1 := by
    apply Classical.byContradiction
    intro hc
    rw [C13_too_large_rejected _ hc] at hg
    simp at hg
  obtain ⟨g', h1, h2⟩ := FOGraph.fromAdjacencyLists_spec _ hsz.1 hsz.2
  rw [hg] at h1; simp at h1; subst h1
  refine ⟨h2.wf hsz.1 hsz.2 ?_, by rw [h2.numNodes]; simpa using hl, ?_⟩
  · intro ls hls l hlm
    obtain ⟨es, he, rfl⟩ := List.mem_map.1 hls
    obtain ⟨e, he2, rfl⟩ := List.mem_map.1 hlm
    have := hh es he e he2
    simp only [List.length_map, hl]
    exact this
  · intro u v w
    constructor
    · rintro ⟨ls, p1, p2⟩
      rw [h2.linkIter, List.getElem?_map, Option.map_eq_some_iff] at p1
      obtain ⟨es, p3, rfl⟩ := p1
      refine ⟨es, p3, ?_⟩
      obtain ⟨e, p4, p5⟩ := List.mem_map.1 p2
      apply (mem_look (hnd es (List.mem_of_getElem? p3))).1
      exact ⟨e.2, by rw [← p5]; exact p4⟩
    · rintro ⟨es, p1, p2⟩
      obtain ⟨m, p3⟩ := (mem_look (hnd es (List.mem_of_getElem? p1))).2 p2
      exact ⟨es.map Prod.fst, by rw [h2.linkIter, List.getElem?_map, p1]; rfl, List.mem_map.2 ⟨_, p3, rfl⟩⟩

theorem intoGraphs_spec {n : Nat} {W : Nat → Nat → Option Nat} {base nodes : List CNode} (h : Part n 0 W base nodes) {ch : Hierarchy}
    (hr : intoGraphs nodes = some ch) : ch.forward.WF ∧ ch.backward.WF ∧ ch.forward.numNodes = n ∧ ch.backward.numNodes = n ∧
      (∀ u v w, ch.forward.Arc u v w ↔ FA nodes u v w) ∧ (∀ u v w, ch.backward.Arc u v w ↔ BA nodes u v w) := by
  unfold intoGraphs at hr
  simp only [Option.bind_eq_bind, Option.bind_eq_some_iff, Option.pure_def, Option.some.injEq] at hr
  obtain ⟨fw, h1, bw, h2, rfl⟩ := hr
  have hnd : ∀ nd ∈ nodes, ND nd.out ∧ ND nd.inc := by
    intro nd hm
    obtain ⟨i, hi⟩ := List.mem_iff_getElem?.1 hm
    exact h.nd i nd (Nat.zero_le _) hi
  have e1 : nodes.map (fun nd => nd.out.map Prod.fst) = (nodes.map CNode.out).map (List.map Prod.fst) := by rw [List.map_map]; rfl
  have e2 : nodes.map (fun nd => nd.inc.map Prod.fst) = (nodes.map CNode.inc).map (List.map Prod.fst) := by rw [List.map_map]; rfl
  rw [e1] at h1
  rw [e2] at h2
  obtain ⟨f1, f2, f3⟩ := side_graph (n := n) (by simp [h.len]) (by
      intro es he
      obtain ⟨nd, hm, rfl⟩ := List.mem_map.1 he
      exact (hnd nd hm).1) (by
      intro es he e hem
      obtain ⟨nd, hm, rfl⟩ := List.mem_map.1 he
      obtain ⟨i, hi⟩ := List.mem_iff_getElem?.1 hm
      exact (h.fw i e.1.node e.1.weight (Nat.zero_le _) ⟨nd, hi, look_mem (hnd nd hm).1 hem⟩).1) h1
  obtain ⟨b1, b2, b3⟩ := side_graph (n := n) (by simp [h.len]) (by
      intro es he
      obtain ⟨nd, hm, rfl⟩ := List.mem_map.1 he
      exact (hnd nd hm).2) (by
      intro es he e hem
      obtain ⟨nd, hm, rfl⟩ := List.mem_map.1 he
      obtain ⟨i, hi⟩ := List.mem_iff_getElem?.1 hm
      exact (h.bw i e.1.node e.1.weight (Nat.zero_le _) ⟨nd, hi, look_mem (hnd nd hm).2 hem⟩).1) h2
  refine ⟨f1, b1, f2, b2, ?_, ?_⟩
  · intro u v w
    rw [f3]
    constructor
    · rintro ⟨es, p1, p2⟩
      rw [List.getElem?_map, Option.map_eq_some_iff] at p1
      obtain ⟨nd, p3, rfl⟩ := p1
      exact ⟨nd, p3, p2⟩
    · rintro ⟨nd, p1, p2⟩
      exact ⟨nd.out, by rw [List.getElem?_map, p1]; rfl, p2⟩
  · intro u v w
    rw [b3]
    constructor
    · rintro ⟨es, p1, p2⟩
      rw [List.getElem?_map, Option.map_eq_some_iff] at p1
      obtain ⟨nd, p3, rfl⟩ := p1
      exact ⟨nd, p3, p2⟩
    · rintro ⟨nd, p1, p2⟩
      exact ⟨nd.inc, by rw [List.getElem?_map, p1]; rfl, p2⟩

/-- The contraction, if it succeeds. -/
theorem contract_spec {g : FOGraph} (hg : g.WF) (hs : Simple g) {o : NodeOrder} (ho : o.OK g.numNodes) {ch : Hierarchy}
    (hc : contract g o = some ch) : ch.forward.WF ∧ ch.backward.WF ∧ ch.forward.numNodes = g.numNodes ∧ ch.backward.numNodes = g.numNodes ∧
      ExactHierarchyOf g.Arc o.rank ch.forward.Arc ch.backward.Arc := by
  obtain ⟨nodes, W, h1, h2, h3⟩ := newGraph_spec hg hs ho
  unfold contract contractPartially at hc
  simp only [h1, Option.bind_eq_bind, Option.bind_some, h2.st.len, Option.bind_eq_some_iff] at hc
  obtain ⟨nodes', ⟨st, h4, h5⟩, h6⟩ := hc
  simp only [Option.pure_def, Option.some.injEq] at h5
  subst h5
  have hd := loop_done (n := g.numNodes) g.numNodes 0 (by omega) h2 ⟨_, refines_new _ _⟩ ⟨_, refines_new _ _⟩ h4
  obtain ⟨g1, g2, g3, g4, g5, g6⟩ := intoGraphs_spec hd.part h6
  refine ⟨g1, g2, g3, g4, ?_⟩
  have eF : ch.forward.Arc = FA st.nodes := by funext u v w; exact propext (g5 u v w)
  have eB : ch.backward.Arc = BA st.nodes := by funext u v w; exact propext (g6 u v w)
  rw [eF, eB]
  refine ⟨fun u v w h => (hd.fw u v w (Nat.zero_le _) h).1, fun u v w h => (hd.bw u v w (Nat.zero_le _) h).1, ?_, ?_⟩
  · intro s t x y d hx hy hw
    obtain ⟨d1, e1, e2⟩ := (isW_walk hg ho h3 hx hy).2 hw
    obtain ⟨d2, e3, e4⟩ := hd.cov x y d1 (Nat.zero_le _) (Nat.zero_le _) e2
    exact ⟨d2, by omega, e4⟩
  · rintro s t x y d hx hy ⟨m, a, b, h7, h8, rfl⟩
    apply (isW_walk hg ho h3 hx hy).1
    have q1 : Walk (WA W) x m a := by
      clear h8 hx
      induction h7 with
      | nil u => exact .nil u
      | @cons u v t w d ha hlt _ ih =>
        exact ((hd.fw u v w (Nat.zero_le _) ha).2.2).append ih
    have q2 : Walk (WA W) m y b := by
      clear h7 q1 hy
      induction h8 with
      | nil u => exact .nil u
      | @cons u v t w d ha hlt _ ih =>
        rw [Nat.add_comm]
        exact ih.append ((hd.bw u v w (Nat.zero_le _) ha).2.2)
    exact q1.append q2

theorem flatten_le {α : Type} (ls : List (List α)) (b : Nat) (h : ∀ l ∈ ls, l.length ≤ b) : ls.flatten.length ≤ ls.length * b := by
  induction ls with
  | nil => simp
  | cons l ls ih =>
    have h1 := ih (fun x hx => h x (List.mem_cons_of_mem _ hx))
    have h2 := h l (by simp)
    simp only [List.flatten_cons, List.length_append, List.length_cons]
    rw [Nat.add_mul]
    omega

theorem nd_length {n : Nat} {es : List Entry} (h : ND es) (hh : ∀ e ∈ es, e.1.node < n) : es.length ≤ n := by
  have := (List.subperm_of_subset h (l₂ := List.range n) (by
    intro x hx
    obtain ⟨e, he, rfl⟩ := List.mem_map.1 hx
    exact List.mem_range.2 (hh e he))).length_le
  simpa using this

/-- The contraction succeeds if every arc is a shortest path and no finite distance reaches `INFINITY`. -/
theorem contract_total {g : FOGraph} (hg : g.WF) (hs : Simple g) {o : NodeOrder} (ho : o.OK g.numNodes) (hn : g.numNodes * g.numNodes < U32 - 1)
    (ht : ∀ u v w d, g.Arc u v w → u ≠ v → Walk g.Arc u v d → w ≤ d) (hf : ∀ u v d, Walk g.Arc u v d → ∃ d', d' < INFINITY ∧ Walk g.Arc u v d') :
    ∃ ch, contract g o = some ch ∧ (∀ u v w, ch.forward.Arc u v w → w < INFINITY) ∧ (∀ u v w, ch.backward.Arc u v w → w < INFINITY) := by
  obtain ⟨nodes, W, h1, h2, h3⟩ := newGraph_spec hg hs ho
  have hnode : ∀ {x y w}, W x y = some w → ∃ u v, o.rank u = some x ∧ o.rank v = some y ∧ g.Arc u v w ∧ u ≠ v := fun h => (h3 _ _ _).1 h
  have hTight : Tight W := by
    constructor
    · intro x y w d hw hd
      obtain ⟨u, v, p1, p2, p3, p4⟩ := hnode hw
      exact ht u v w d p3 p4 ((isW_walk hg ho h3 p1 p2).1 hd)
    · intro x y d hd
      by_cases hxy : x = y
      · subst hxy; exact ⟨0, by simp [INFINITY], .nil _⟩
      have hx : ∃ u, o.rank u = some x := by
        cases hd with
        | nil => exact absurd rfl hxy
        | cons ha _ => obtain ⟨u, v, p1, _⟩ := hnode ha; exact ⟨u, p1⟩
      have hy : ∃ u, o.rank u = some y := by
        obtain ⟨z, a, w, _, ha, _⟩ := walk_last hd hxy
        obtain ⟨u, v, _, p2, _⟩ := hnode ha; exact ⟨v, p2⟩
      obtain ⟨u, p1⟩ := hx
      obtain ⟨v, p2⟩ := hy
      obtain ⟨d1, e1, e2⟩ := hf u v d ((isW_walk hg ho h3 p1 p2).1 hd)
      obtain ⟨d2, e3, e4⟩ := (isW_walk hg ho h3 p1 p2).2 e2
      exact ⟨d2, by omega, e4⟩
  obtain ⟨st, h4, h5⟩ := loop_total (n := g.numNodes) g.numNodes 0 (st := ⟨nodes, DData.new g.numNodes (), DData.new g.numNodes ()⟩) (by omega) h2 hTight
    ⟨_, refines_new _ _⟩ ⟨_, refines_new _ _⟩
  have hd := loop_done (n := g.numNodes) g.numNodes 0 (st := ⟨nodes, DData.new g.numNodes (), DData.new g.numNodes ()⟩) (by omega) h2
    ⟨_, refines_new _ _⟩ ⟨_, refines_new _ _⟩ h4
  have hsm : g.numNodes + 1 < U32 - 1 := by
    have := hg.small.1
    have h0 := hg.fo_len
    have h6 : g.firstOut.length = g.numNodes + 1 := by simp only [FOGraph.numNodes]; omega
    omega
  have hsz1 : (st.nodes.map (fun nd => nd.out.map Prod.fst)).flatten.length < U32 - 1 := by
    have := flatten_le (st.nodes.map (fun nd => nd.out.map (Prod.fst : Entry → Link))) g.numNodes (by
      intro l hl
      obtain ⟨nd, hm, rfl⟩ := List.mem_map.1 hl
      obtain ⟨i, hi⟩ := List.mem_iff_getElem?.1 hm
      have hnd := (hd.nd i nd (Nat.zero_le _) hi).1
      rw [List.length_map]
      exact nd_length hnd (fun e he => (hd.fw i e.1.node e.1.weight (Nat.zero_le _) ⟨nd, hi, look_mem hnd he⟩).2.1))
    rw [List.length_map, hd.len] at this
    omega
  have hsz2 : (st.nodes.map (fun nd => nd.inc.map Prod.fst)).flatten.length < U32 - 1 := by
    have := flatten_le (st.nodes.map (fun nd => nd.inc.map (Prod.fst : Entry → Link))) g.numNodes (by
      intro l hl
      obtain ⟨nd, hm, rfl⟩ := List.mem_map.1 hl
      obtain ⟨i, hi⟩ := List.mem_iff_getElem?.1 hm
      have hnd := (hd.nd i nd (Nat.zero_le _) hi).2
      rw [List.length_map]
      exact nd_length hnd (fun e he => (hd.bw i e.1.node e.1.weight (Nat.zero_le _) ⟨nd, hi, look_mem hnd he⟩).2.1))
    rw [List.length_map, hd.len] at this
    omega
  obtain ⟨fw, f1, _⟩ := FOGraph.fromAdjacencyLists_spec (st.nodes.map (fun nd => nd.out.map Prod.fst)) (by rw [List.length_map, hd.len]; exact hsm) hsz1
  obtain ⟨bw, b1, _⟩ := FOGraph.fromAdjacencyLists_spec (st.nodes.map (fun nd => nd.inc.map Prod.fst)) (by rw [List.length_map, hd.len]; exact hsm) hsz2
  obtain ⟨ch, hch⟩ : ∃ ch, intoGraphs st.nodes = some ch := by
    simp only [intoGraphs, f1, b1, Option.bind_eq_bind, Option.bind_some]; exact ⟨_, rfl⟩
  obtain ⟨_, _, _, _, g5, g6⟩ := intoGraphs_spec hd.part hch
  refine ⟨ch, ?_, ?_, ?_⟩
  · simp only [contract, contractPartially, h1, h2.st.len, h4, Option.bind_eq_bind, Option.bind_some, Option.pure_def, hch]
  · intro u v w hw
    obtain ⟨nd, p1, p2⟩ := (g5 u v w).1 hw
    exact (h5 u nd (Nat.zero_le _) p1).1 v w p2
  · intro u v w hw
    obtain ⟨nd, p1, p2⟩ := (g6 u v w).1 hw
    exact (h5 u nd (Nat.zero_le _) p1).2 v w p2

/-- Arcs of an overlay are walks. -/
theorem overlay_spec {g : FOGraph} (hg : g.WF) (hs : Simple g) {o : NodeOrder} (ho : o.OK g.numNodes) {count : Nat} {fw bw : FOGraph}
    (hc : overlay g o count = some (fw, bw)) : fw.WF ∧ bw.WF ∧ fw.numNodes = g.numNodes ∧ bw.numNodes = g.numNodes ∧
      (∀ s t x y w, o.rank s = some x → o.rank t = some y → fw.Arc x y w → Walk g.Arc s t w) ∧
      (∀ s t x y w, o.rank s = some x → o.rank t = some y → bw.Arc y x w → Walk g.Arc s t w) := by
  obtain ⟨nodes, W, h1, h2, h3⟩ := newGraph_spec hg hs ho
  unfold overlay contractPartially at hc
  simp only [h1, Option.bind_eq_bind, Option.bind_some, h2.st.len, Option.bind_eq_some_iff] at hc
  obtain ⟨nodes', ⟨st, h4, h5⟩, ch, h6, h7⟩ := hc
  simp only [Option.pure_def, Option.some.injEq, Prod.mk.injEq] at h5 h7
  subst h5
  obtain ⟨rfl, rfl⟩ := h7
  have hd : Part g.numNodes 0 W nodes st.nodes := by
    by_cases hn : 0 < g.numNodes
    · exact loop_part count 0 hn h2 ⟨_, refines_new _ _⟩ ⟨_, refines_new _ _⟩ h4
    · have hn0 : g.numNodes = 0 := by omega
      have hnil : nodes = [] := List.length_eq_zero_iff.1 (by rw [h2.st.len]; exact hn0)
      have : st.nodes = [] := by
        subst hnil
        cases count with
        | zero =>
          simp [contractLoop, removeLowest] at h4
          rw [← h4]
        | succ c =>
          simp [contractLoop, removeLowest] at h4
          rw [← h4]
      rw [this]
      exact ⟨by simp [hn0], fun u hu => by omega, fun u x _ hx => by simp at hx, fun u v w _ ⟨x, hx, _⟩ => by simp at hx, fun u v w _ ⟨x, hx, _⟩ => by simp at hx⟩
  obtain ⟨g1, g2, g3, g4, g5, g6⟩ := intoGraphs_spec hd h6
  refine ⟨g1, g2, g3, g4, ?_, ?_⟩
  · intro s t x y w hx hy hw
    exact (isW_walk hg ho h3 hx hy).1 (hd.fw x y w (Nat.zero_le _) ((g5 x y w).1 hw)).2
  · intro s t x y w hx hy hw
    exact (isW_walk hg ho h3 hx hy).1 (hd.bw y x w (Nat.zero_le _) ((g6 y x w).1 hw)).2

end CH
end Verif
