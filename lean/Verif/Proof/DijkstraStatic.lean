import Verif.Proof.Dijkstra
import Verif.Proof.Graph
set_option linter.unusedSimpArgs false
set_option linter.unusedVariables false
/- The generic search on graphs with fixed weights. -/
namespace Verif
open Spec

/-- arcs of a graph given by its link iterator -/
def LArc (links : Nat → Option (List Link)) (u v w : Nat) : Prop := ∃ ls, links u = some ls ∧ (⟨v, w⟩ : Link) ∈ ls

/-- Links are defined for all nodes, lead to nodes, and weights are at most `INFINITY`. -/
structure LinksOK (n : Nat) (links : Nat → Option (List Link)) : Prop where
  total : ∀ v, v < n → ∃ ls, links v = some ls
  heads : ∀ v ls l, links v = some ls → l ∈ ls → l.node < n
  weights : ∀ v ls l, links v = some ls → l ∈ ls → l.weight ≤ INFINITY

theorem FOGraph.WF.linksOK {g : FOGraph} (h : g.WF) (hw : ∀ w ∈ g.weight, w ≤ INFINITY) : LinksOK g.numNodes g.linkIter where
  total := fun v hv => h.total hv
  heads := fun v ls l h1 h2 => h.mem_heads h1 h2
  weights := fun v ls l h1 h2 => hw _ (h.mem_weights h1 h2)

def staticProb (n : Nat) (links : Nat → Option (List Link)) (pi : Nat → Nat) : Prob Link Unit :=
  ⟨n, links, defaultOps, fun l x => x + l.weight, pi⟩

/-- feasibility of a potential in terms of arcs -/
def FeasibleArc (A : Nat → Nat → Nat → Prop) (pi : Nat → Nat) : Prop :=
  ∀ u v w, A u v w → pi u < INFINITY → pi u ≤ w + pi v

theorem staticProb_ok {n : Nat} {links : Nat → Option (List Link)} {pi : Nat → Nat} (h : LinksOK n links)
    (hf : FeasibleArc (LArc links) pi) : (staticProb n links pi).OK where
  total := h.total
  heads := h.heads
  link := by
    intro v ls b l h1 h2 h3
    have := h.weights v ls b h1 h2
    simp only [staticProb, defaultOps]
    apply add32_of_lt
    simp only [INFINITY, U32] at *; omega
  mono := by intro v ls b l l' _ _ h _; simp only [staticProb]; omega
  ge := by intro v ls b l _ _; simp only [staticProb]; omega
  feas := by
    intro v ls b l h1 h2 _ h4
    have := hf v b.node b.weight ⟨ls, h1, h2⟩ h4
    simp only [staticProb, defaultOps] at *; omega

theorem static_walk {n : Nat} {links : Nat → Option (List Link)} {pi : Nat → Nat} {s τ v x : Nat} :
    TWalk (staticProb n links pi).F s τ v x ↔ ∃ d, Walk (LArc links) s v d ∧ x = τ + d := by
  constructor
  · intro h
    induction h with
    | nil => exact ⟨0, .nil s, rfl⟩
    | snoc _ ha ih =>
      obtain ⟨d, h1, h2⟩ := ih
      obtain ⟨ls, b, h3, h4, h5, rfl⟩ := ha
      simp only [staticProb, defaultOps] at h3 h5
      subst h5
      refine ⟨d + b.weight, h1.snoc ⟨ls, h3, h4⟩, ?_⟩
      simp only [staticProb]; omega
  · rintro ⟨d, h, rfl⟩
    induction h generalizing τ with
    | nil => exact .nil
    | @cons u v t w d ha _ ih =>
      obtain ⟨ls, h1, h2⟩ := ha
      have := ih (τ := τ + w)
      rw [Nat.add_assoc] at this
      exact TWalk.cons (f := fun x => x + w) ⟨ls, ⟨v, w⟩, h1, h2, rfl, rfl⟩ this

theorem static_earliest {n : Nat} {links : Nat → Option (List Link)} {pi : Nat → Nat} {s τ t x : Nat} :
    IsEarliest (staticProb n links pi).F s τ t (τ + x) ↔ IsDist (LArc links) s t x := by
  unfold IsEarliest IsDist
  rw [static_walk]
  constructor
  · rintro ⟨⟨d, h1, h2⟩, h3⟩
    have : d = x := by omega
    subst this
    refine ⟨h1, fun d' hd' => ?_⟩
    have := h3 (τ + d') (static_walk.2 ⟨d', hd', rfl⟩)
    omega
  · rintro ⟨h1, h2⟩
    refine ⟨⟨x, h1, rfl⟩, fun a' ha' => ?_⟩
    obtain ⟨d, h3, rfl⟩ := static_walk.1 ha'
    have := h2 d h3
    omega

theorem static_answer {n : Nat} {links : Nat → Option (List Link)} {pi : Nat → Nat} {s t : Nat} {r : Option Nat}
    (h : ∀ x, r = some x ↔ IsEarliest (staticProb n links pi).F s 0 t x ∧ x < INFINITY) : Answer (LArc links) s t r := by
  intro d
  rw [h]
  have := static_earliest (n := n) (links := links) (pi := pi) (s := s) (τ := 0) (t := t) (x := d)
  rw [Nat.zero_add] at this
  rw [this]

theorem walk_feasible {A : Nat → Nat → Nat → Prop} {pi : Nat → Nat} (hf : ∀ u v w, A u v w → pi u ≤ w + pi v) {u t d : Nat}
    (h : Walk A u t d) : pi u ≤ d + pi t := by
  induction h with
  | nil => omega
  | cons ha _ ih => have := hf _ _ _ ha; omega

/-- zero potential -/
theorem zero_feasible (A : Nat → Nat → Nat → Prop) : FeasibleArc A (fun _ => 0) := by
  intro u v w _ _; simp

theorem apath_static {n : Nat} {links : Nat → Option (List Link)} {pi : Nat → Nat} {s τ : Nat} {ns : List Nat} {as : List Link}
    {x : Nat} (h : DData.APath (staticProb n links pi) s τ ns as x) :
    ns.head? = some s ∧ ∃ d, x = τ + d ∧ PathOf (LArc links) ns d := by
  have key : ∀ (ns : List Nat) (u v w d : Nat), PathOf (LArc links) (ns ++ [u]) d → LArc links u v w →
      PathOf (LArc links) (ns ++ [u] ++ [v]) (d + w) := by
    intro ns
    induction ns with
    | nil =>
      intro u v w d h1 h2
      cases h1
      simpa using PathOf.cons h2 (.single v)
    | cons a ns ih =>
      intro u v w d h1 h2
      cases hns : ns with
      | nil =>
        subst hns
        simp only [List.nil_append, List.cons_append] at h1 ⊢
        cases h1 with
        | cons ha h1 =>
          rename_i d' w'
          rw [Nat.add_assoc]
          exact .cons ha (by simpa using ih u v w _ h1 h2)
      | cons b ns' =>
        subst hns
        simp only [List.cons_append] at h1 ⊢
        cases h1 with
        | cons ha h1 =>
          rw [Nat.add_assoc]
          exact .cons ha (by simpa using ih u v w _ h1 h2)
  induction h with
  | nil => exact ⟨rfl, 0, rfl, .single s⟩
  | @snoc ns as u x ls b h1 h2 h3 ih =>
    obtain ⟨ih1, d, ih2, ih3⟩ := ih
    refine ⟨?_, d + b.weight, ?_, ?_⟩
    · cases ns with
      | nil => simpa using ih1
      | cons a ns => simpa using ih1
    · simp only [staticProb]; omega
    · exact key ns u _ _ d ih3 ⟨ls, h2, h3⟩

namespace DData

theorem zeroCb_ok {n : Nat} {links : Nat → Option (List Link)} {s τ : Nat} :
    CbOK (staticProb n links (fun _ => 0)) s τ (potCb zeroPot) (fun _ _ => True) := by
  intro c D v l _ hv hl hinf _
  refine ⟨(), ?_, trivial⟩
  have h1 : add32 0 l = some l := by
    rw [add32_of_lt (by simp only [INFINITY, U32] at *; omega)]; simp
  have h2 : (0 : Nat) < INFINITY := by decide
  simp [potCb, zeroPot, h1, staticProb, h2]

theorem plainCb_ok {n : Nat} {links : Nat → Option (List Link)} {s τ : Nat} :
    CbOK (staticProb n links (fun _ => 0)) s τ plainCb (fun _ _ => True) := by
  intro c D v l _ hv hl hinf _
  have h2 : (0 : Nat) < INFINITY := by decide
  exact ⟨(), by simp [plainCb, staticProb, h2], trivial⟩

/-- A query on any data the server may hold. -/
theorem query_done {g : FOGraph} (hg : g.WF) (hw : ∀ w ∈ g.weight, w ≤ INFINITY) {d0 : DData Unit} {a0 : Abs Unit}
    (hr : Refines g.numNodes d0 a0) {s : Nat} (hs : s < g.numNodes) (t : Nat) :
    ∃ r d a S, query g d0 s t = some (r, d) ∧
      Done (staticProb g.numNodes g.linkIter (fun _ => 0)) s 0 t (fun (_ : Unit) _ => True) r d () a S := by
  have hp := staticProb_ok (hg.linksOK hw) (zero_feasible _)
  obtain ⟨r, d, c, a, S, h1, h2⟩ := search_spec (t := t) (τ := 0) (c := ()) hp zeroCb_ok hr hs (by simp [INFINITY]) trivial
  refine ⟨r, d, a, S, ?_, h2⟩
  simp only [query, distance]
  simp only [staticProb] at h1
  rw [h1]; rfl

theorem query_answer {g : FOGraph} {s t : Nat} {r : Option Nat} {d : DData Unit} {a : Abs Unit} {S : List Nat}
    (hg : g.WF) (hw : ∀ w ∈ g.weight, w ≤ INFINITY)
    (h : Done (staticProb g.numNodes g.linkIter (fun _ => 0)) s 0 t (fun (_ : Unit) _ => True) r d () a S) :
    Answer g.Arc s t r := by
  have hp := staticProb_ok (hg.linksOK hw) (zero_feasible _)
  exact static_answer (h.earliest hp (by intro u a x _ _; show (0:Nat) < INFINITY; decide))

end DData
end Verif

/-! ### The variant with edge ids -/
namespace Verif
open Spec

def idProb (g : FOGraph) : Prob (Link × Nat) Nat :=
  ⟨g.numNodes, g.linkIterIds, linkPathOps, fun l x => x + l.1.weight, fun _ => 0⟩

theorem FOGraph.WF.linkIterIds {g : FOGraph} (h : g.WF) {v : Nat} {ls : List (Link × Nat)} :
    g.linkIterIds v = some ls → ∃ (hv : v < g.adj.length), ls = g.adj[v].zip ((List.range g.adj[v].length).map (· + (g.adj.take v).flatten.length)) := by
  intro hls
  by_cases hv : v < g.adj.length
  · refine ⟨hv, ?_⟩
    rw [h.reps.linkIterIds hv] at hls
    exact (Option.some.inj hls).symm
  · exfalso
    have h2 : g.firstOut[v + 1]? = none := List.getElem?_eq_none (by rw [h.reps.csr.len]; omega)
    cases h1 : g.firstOut[v]? <;> simp [FOGraph.linkIterIds, FOGraph.range, h1, h2] at hls

/-- what membership in the links with ids means -/
theorem FOGraph.WF.mem_linkIterIds {g : FOGraph} (h : g.WF) {v : Nat} {ls : List (Link × Nat)} {l : Link} {e : Nat}
    (hls : g.linkIterIds v = some ls) (hl : (l, e) ∈ ls) :
    (∃ lks, g.linkIter v = some lks ∧ l ∈ lks) ∧
    ∃ a b, g.firstOut[v]? = some a ∧ g.firstOut[v + 1]? = some b ∧ a ≤ e ∧ e < b ∧ g.head[e]? = some l.node ∧ g.weight[e]? = some l.weight := by
  obtain ⟨hv, rfl⟩ := h.linkIterIds hls
  obtain ⟨i, hi⟩ := List.mem_iff_getElem?.1 hl
  rw [List.getElem?_zip_eq_some] at hi
  obtain ⟨h1, h2⟩ := hi
  have hil := (List.getElem?_eq_some_iff.1 h1).1
  simp only [List.getElem?_map, List.getElem?_range hil, Option.map_some, Option.some.injEq] at h2
  refine ⟨⟨_, by rw [h.linkIter]; exact List.getElem?_eq_getElem hv, List.mem_of_getElem? h1⟩, ?_⟩
  have hflat : g.adj.flatten[e]? = some l := by
    have hsp : g.adj.flatten = (g.adj.take v).flatten ++ (g.adj[v] ++ (g.adj.drop (v + 1)).flatten) := by
      have h1 : g.adj = g.adj.take v ++ g.adj[v] :: g.adj.drop (v + 1) := by
        rw [List.getElem_cons_drop]; simp
      conv => lhs; rw [h1]
      simp only [List.flatten_append, List.flatten_cons]
    rw [hsp, List.getElem?_append_right (by omega), List.getElem?_append_left (by omega)]
    rw [← h2]; simpa using h1
  refine ⟨_, _, h.reps.csr.get v (by omega), h.reps.csr.get (v + 1) (by omega), by omega, ?_, ?_, ?_⟩
  · rw [flatten_take_succ _ hv]; simp only [List.length_append]; omega
  · rw [h.reps.head, List.getElem?_map, hflat]; rfl
  · rw [h.reps.weight, List.getElem?_map, hflat]; rfl

theorem idProb_total {g : FOGraph} (h : g.WF) {v : Nat} (hv : v < g.numNodes) : ∃ ls, g.linkIterIds v = some ls :=
  ⟨_, h.reps.linkIterIds (by rw [FOGraph.adj_length]; exact hv)⟩

theorem idProb_ok {g : FOGraph} (h : g.WF) (hw : ∀ w ∈ g.weight, w ≤ INFINITY) : (idProb g).OK where
  total := fun v hv => idProb_total h hv
  heads := by
    intro v ls b h1 h2
    obtain ⟨⟨lks, h3, h4⟩, _⟩ := h.mem_linkIterIds (l := b.1) (e := b.2) h1 h2
    exact h.mem_heads h3 h4
  link := by
    intro v ls b l h1 h2 h3
    obtain ⟨⟨lks, h4, h5⟩, _⟩ := h.mem_linkIterIds (l := b.1) (e := b.2) h1 h2
    have := hw _ (h.mem_weights h4 h5)
    simp only [idProb, linkPathOps]
    apply add32_of_lt
    simp only [INFINITY, U32] at *; omega
  mono := by intro v ls b l l' _ _ h _; simp only [idProb]; omega
  ge := by intro v ls b l _ _; simp only [idProb]; omega
  feas := by intro v ls b l h1 h2 _ h4; simp only [idProb]; omega

theorem idProb_F {g : FOGraph} (h : g.WF) : (idProb g).F = (staticProb g.numNodes g.linkIter (fun _ => 0)).F := by
  funext u v f
  apply propext
  constructor
  · rintro ⟨ls, b, h1, h2, h3, h4⟩
    obtain ⟨⟨lks, h5, h6⟩, _⟩ := h.mem_linkIterIds (l := b.1) (e := b.2) h1 h2
    exact ⟨lks, b.1, h5, h6, h3, h4⟩
  · rintro ⟨ls, b, h1, h2, h3, h4⟩
    simp only [staticProb] at h1
    have hv := h.tail_lt h1
    rw [← FOGraph.adj_length] at hv
    rw [h.linkIter, List.getElem?_eq_getElem hv] at h1
    simp at h1; subst h1
    obtain ⟨i, hi⟩ := List.mem_iff_getElem?.1 h2
    have hil := (List.getElem?_eq_some_iff.1 hi).1
    refine ⟨_, (b, i + (g.adj.take u).flatten.length), h.reps.linkIterIds hv, ?_, h3, h4⟩
    apply List.mem_of_getElem? (i := i)
    rw [List.getElem?_zip_eq_some]
    exact ⟨hi, by simp only [List.getElem?_map, List.getElem?_range hil, Option.map_some]⟩

namespace DData

theorem idCb_ok {g : FOGraph} {s τ : Nat} : CbOK (idProb g) s τ (potCb zeroPot) (fun _ _ => True) := by
  intro c D v l _ hv hl hinf _
  refine ⟨(), ?_, trivial⟩
  have h1 : add32 0 l = some l := by
    rw [add32_of_lt (by simp only [INFINITY, U32] at *; omega)]; simp
  have h2 : (0 : Nat) < INFINITY := by decide
  simp [potCb, zeroPot, h1, idProb, h2]

theorem idQuery_done {g : FOGraph} (hg : g.WF) (hw : ∀ w ∈ g.weight, w ≤ INFINITY) {d0 : DData Nat} {a0 : Abs Nat}
    (hr : Refines g.numNodes d0 a0) {s : Nat} (hs : s < g.numNodes) (t : Nat) :
    ∃ r d a S, queryWithLinkPath g d0 s t = some (r, d) ∧
      Done (idProb g) s 0 t (fun (_ : Unit) _ => True) r d () a S := by
  obtain ⟨r, d, c, a, S, h1, h2⟩ := search_spec (t := t) (τ := 0) (c := ()) (idProb_ok hg hw) idCb_ok hr hs (by simp [INFINITY]) trivial
  refine ⟨r, d, a, S, ?_, h2⟩
  simp only [queryWithLinkPath, distance]
  simp only [idProb] at h1
  rw [h1]; rfl

theorem idQuery_answer {g : FOGraph} {s t : Nat} {r : Option Nat} {d : DData Nat} {a : Abs Nat} {S : List Nat}
    (hg : g.WF) (hw : ∀ w ∈ g.weight, w ≤ INFINITY)
    (h : Done (idProb g) s 0 t (fun (_ : Unit) _ => True) r d () a S) : Answer g.Arc s t r := by
  have := h.earliest (idProb_ok hg hw) (by intro u a x _ _; show (0:Nat) < INFINITY; decide)
  rw [idProb_F hg] at this
  exact static_answer this

end DData
end Verif
