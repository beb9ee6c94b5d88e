import Verif.Proof.TailMapper
import Verif.Props.Dijkstra
set_option linter.unusedSimpArgs false
set_option linter.unusedVariables false
/- Property C48: from an edge id to its tail. -/
namespace Verif
open Spec Bits

/-- `e` is one of the outgoing arcs of `v` -/
def FOGraph.HasTail (g : FOGraph) (e v : Nat) : Prop := ∃ ids, g.neighborEdgeIndices v = some ids ∧ e ∈ ids

private theorem hasTail_iff {g : FOGraph} (hg : g.WF) {e v : Nat} :
    g.HasTail e v ↔ v < g.numNodes ∧ Tail.fo g v ≤ e ∧ e < Tail.fo g (v + 1) := by
  constructor
  · rintro ⟨ids, h1, h2⟩; exact (Tail.mem_edges hg h1).1 h2
  · intro h
    have h1 : g.neighborEdgeIndices v = some ((List.range (Tail.fo g (v + 1) - Tail.fo g v)).map (· + Tail.fo g v)) := by
      simp only [FOGraph.neighborEdgeIndices, FOGraph.range, Tail.fo_get hg (show v ≤ _ by omega), Tail.fo_get hg (show v + 1 ≤ _ by omega),
        Option.bind_eq_bind, Option.bind_some, Option.pure_def]
    exact ⟨_, h1, (Tail.mem_edges hg h1).2 h⟩

/-- **C48.** For every graph, also one with nodes without outgoing arcs, and every binary search that meets its documentation: every
arc has exactly one tail, the mapper can be built, and both lookups return it. -/
theorem C48_tail_lookup (g : FOGraph) (hg : g.WF) :
    ∃ m, Tail.Mapper.new g = some m ∧ ∀ bs, BinarySearch bs → ∀ e, e < g.numArcs →
      ∃ v, g.HasTail e v ∧ (∀ u, g.HasTail e u → u = v) ∧ m.tail bs e = some v ∧ Tail.tailOf bs g.firstOut e = some v := by
  obtain ⟨m, h1, h2⟩ := Tail.mapper_spec hg
  refine ⟨m, h1, ?_⟩
  intro bs hbs e he
  obtain ⟨v, hv, hlo, hhi⟩ := Tail.exists_tail hg he
  refine ⟨v, (hasTail_iff hg).2 ⟨hv, hlo, hhi⟩, ?_, h2 bs hbs v e hv hlo hhi, Tail.tailOf_spec hg hbs hv hlo hhi⟩
  intro u hu
  obtain ⟨a, b, c⟩ := (hasTail_iff hg).1 hu
  rcases Nat.lt_trichotomy u v with h | h | h
  · have := Tail.fo_mono hg (show u + 1 ≤ v by omega) (by omega); omega
  · exact h
  · have := Tail.fo_mono hg (show v + 1 ≤ u by omega) (by omega); omega

/-- nodes 0, 2, 3 and 5 have no outgoing arcs -/
def gapGraph : FOGraph := ⟨[0, 0, 2, 2, 2, 3, 3], [0, 5, 1], [1, 1, 1]⟩

theorem gapGraph_wf : gapGraph.WF := by
  refine ⟨by decide, rfl, rfl, rfl, ?_, by decide⟩
  intro i a b h1 h2
  have hi : i < 6 := by have := (List.getElem?_eq_some_iff.1 h2).1; simp [gapGraph] at this; omega
  have : i = 0 ∨ i = 1 ∨ i = 2 ∨ i = 3 ∨ i = 4 ∨ i = 5 := by omega
  rcases this with rfl | rfl | rfl | rfl | rfl | rfl <;> simp [gapGraph] at h1 h2 <;> omega

example : (Tail.Mapper.new gapGraph).map (fun m => (List.range 3).map (fun e => (m.tail stdSearch e, m.tail oldSearch e, Tail.tailOf stdSearch gapGraph.firstOut e))) =
    some [(some 1, some 1, some 1), (some 1, some 1, some 1), (some 4, some 4, some 4)] := by decide +kernel
example : BinarySearch stdSearch ∧ BinarySearch oldSearch := ⟨stdSearch_spec.1, oldSearch_spec⟩

end Verif
