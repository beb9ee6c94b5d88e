import Verif.Proof.Alt
set_option linter.unusedSimpArgs false
set_option linter.unusedVariables false
/- Property C27: landmark potentials. -/
namespace Verif
open Spec DData

/-- What a potential for target `t` has to satisfy (`INFINITY` stands for "no potential"): consistent along arcs, zero at the
target, and at most the distance to the target. -/
structure FeasiblePotential (A : Nat → Nat → Nat → Prop) (t : Nat) (π : Nat → Nat) : Prop where
  arcs : ∀ u v w, A u v w → π u ≤ w + π v
  target : π t = 0
  bound : ∀ v d, Walk A v t d → π v ≤ d

private theorem rev_walk {A B : Nat → Nat → Nat → Prop} (h : ∀ u v w, B v u w ↔ A u v w) {s t d : Nat} (hw : Walk B t s d) : Walk A s t d := by
  induction hw with
  | nil => exact .nil _
  | cons ha _ ih => rw [Nat.add_comm]; exact ih.snoc ((h _ _ _).1 ha)

private theorem rev_capped {A B : Nat → Nat → Nat → Prop} (h : ∀ u v w, B v u w ↔ A u v w) {s t x : Nat} :
    (CappedDist B s t x ↔ x ≤ INFINITY ∧ ∀ d, (if x < INFINITY then some x else none) = some d ↔ IsDist A t s d ∧ d < INFINITY) := by
  unfold CappedDist Answer IsDist
  have hw : ∀ d, Walk B s t d ↔ Walk A t s d := fun d => ⟨rev_walk h, rev_walk (fun u v w => (h v u w).symm)⟩
  simp only [hw]

private theorem alt_tables {g : FOGraph} (hg : g.WF) (hw : g.Bounded) {landmarks : List Nat} (hne : landmarks ≠ [])
    (hl : ∀ l ∈ landmarks, l < g.numNodes) : ∃ data r, Alt.new g landmarks = some data ∧ data.k = landmarks.length ∧
      (∀ u v w, r v u w ↔ g.Arc u v w) ∧
      (∀ v, v < g.numNodes → ∃ row, Alt.dists data.fw landmarks.length v = some row ∧ row.length = landmarks.length ∧
        ∀ (i l : Nat), landmarks[i]? = some l → ∃ x, row[i]? = some x ∧ CappedDist g.Arc l v x) ∧
      (∀ v, v < g.numNodes → ∃ row, Alt.dists data.bw landmarks.length v = some row ∧ row.length = landmarks.length ∧
        ∀ (i l : Nat), landmarks[i]? = some l → ∃ x, row[i]? = some x ∧ CappedDist r l v x) := by
  obtain ⟨r, h1, h2, h3, h4, h5⟩ := GraphOps.reversed_spec hg
  have hrev : ∀ u v w, r.Arc v u w ↔ g.Arc u v w := by
    intro u v w
    have harc : ∀ (g : FOGraph) u v w, g.Arc u v w ↔ 0 < GraphOps.linkCount g.linkIter u v w := by
      intro g u v w
      unfold FOGraph.Arc GraphOps.linkCount
      rw [List.count_pos_iff]
      cases g.linkIter u <;> simp
    rw [harc, harc, h5]
  have hwr : r.Bounded := by
    intro w hw'
    obtain ⟨u, ls, l, e1, e2, e3⟩ := h2.weight_link hw'
    obtain ⟨ls', g1, g2⟩ := (hrev l.node u l.weight).1 ⟨ls, e1, e2⟩
    rw [← e3]
    have := hg.mem_weights g1 g2
    exact hw _ this
  obtain ⟨f, f1, f2⟩ := Alt.runs_spec hg hw landmarks (DData.new g.numNodes ()) hl ⟨[], [], by simp [ValidQueries], rfl⟩
  obtain ⟨b, b1, b2⟩ := Alt.runs_spec h2 hwr landmarks (DData.new r.numNodes ()) (by rw [h3]; exact hl) ⟨[], [], by simp [ValidQueries], rfl⟩
  obtain ⟨fa, f3, f4⟩ := Alt.nodeMajor_spec f2
  obtain ⟨ba, b3, b4⟩ := Alt.nodeMajor_spec b2
  rw [h3] at b3 b4
  have h0 : 0 < landmarks.length := List.length_pos_iff.2 hne
  obtain ⟨row, e1, e2, _⟩ := f2.2 0 landmarks[0] (List.getElem?_eq_getElem h0)
  refine ⟨⟨fa, ba, f.length⟩, r.Arc, ?_, f2.1, hrev, f4, b4⟩
  simp [Alt.new, Alt.newWithLandmarkDistances, h1, f1, b1, e1, e2, f3, b3]

/-- **C27.** For every non-empty list of landmarks the data is computed, and for every target the forward potential is a
feasible potential that is at least the bound of each landmark. -/
theorem C27_alt_forward (g : FOGraph) (hg : g.WF) (hw : g.Bounded) (landmarks : List Nat) (hne : landmarks ≠ [])
    (hl : ∀ l ∈ landmarks, l < g.numNodes) : ∃ data, Alt.new g landmarks = some data ∧ ∀ t, t < g.numNodes →
      ∃ π, (∀ v, v < g.numNodes → Alt.potential (data.forward t) v = some (if π v < INFINITY then some (π v) else none)) ∧
        FeasiblePotential g.Arc t π ∧
        (∀ l ∈ landmarks, ∀ v, v < g.numNodes → ∀ x y, CappedDist g.Arc l t x → CappedDist g.Arc l v y → x - y ≤ π v) ∧
        (∀ l ∈ landmarks, ∀ v, v < g.numNodes → ∀ x y, CappedDist g.Arc t l x → CappedDist g.Arc v l y → y - x ≤ π v) := by
  obtain ⟨data, B, h1, h2, h3, h4, h5⟩ := alt_tables hg hw hne hl
  refine ⟨data, h1, ?_⟩
  intro t ht
  obtain ⟨π, p1, p2, p3, p4, p5, p6⟩ := Alt.potential_spec h3 ht hne (p := data.forward t) h2 rfl h4 h5
  have harcs : ∀ u v w, g.Arc u v w → π u ≤ w + π v := by
    rintro u v w ⟨ls, e1, e2⟩
    exact p3 u v w (hg.tail_lt e1) (hg.mem_heads e1 e2) ⟨ls, e1, e2⟩
  refine ⟨π, p1, ⟨harcs, p4, ?_⟩, p5, ?_⟩
  · intro v d hd
    have := walk_feasible harcs hd
    omega
  · intro l hl v hv x y hx hy
    refine p6 l hl v hv x y ?_ ?_
    · exact (rev_capped h3).2 hx
    · exact (rev_capped h3).2 hy

/-- **C27**, for `backward_potential`: the same for the reversed arcs, so bounds on the distance from `t`. -/
theorem C27_alt_backward (g : FOGraph) (hg : g.WF) (hw : g.Bounded) (landmarks : List Nat) (hne : landmarks ≠ [])
    (hl : ∀ l ∈ landmarks, l < g.numNodes) : ∃ data, Alt.new g landmarks = some data ∧ ∀ t, t < g.numNodes →
      ∃ π, (∀ v, v < g.numNodes → Alt.potential (data.backward t) v = some (if π v < INFINITY then some (π v) else none)) ∧
        FeasiblePotential (fun u v w => g.Arc v u w) t π ∧
        (∀ l ∈ landmarks, ∀ v, v < g.numNodes → ∀ x y, CappedDist g.Arc t l x → CappedDist g.Arc v l y → x - y ≤ π v) ∧
        (∀ l ∈ landmarks, ∀ v, v < g.numNodes → ∀ x y, CappedDist g.Arc l t x → CappedDist g.Arc l v y → y - x ≤ π v) := by
  obtain ⟨data, B, h1, h2, h3, h4, h5⟩ := alt_tables hg hw hne hl
  refine ⟨data, h1, ?_⟩
  intro t ht
  obtain ⟨π, p1, p2, p3, p4, p5, p6⟩ := Alt.potential_spec (A := B) (B := g.Arc) (fun u v w => (h3 v u w).symm) ht hne
    (p := data.backward t) h2 rfl h5 h4
  have harcs : ∀ u v w, g.Arc v u w → π u ≤ w + π v := by
    rintro u v w ⟨ls, e1, e2⟩
    exact p3 u v w (hg.mem_heads e1 e2) (hg.tail_lt e1) ((h3 v u w).2 ⟨ls, e1, e2⟩)
  refine ⟨π, p1, ⟨harcs, p4, ?_⟩, ?_, p6⟩
  · intro v d hd
    have := walk_feasible (A := fun u v w => g.Arc v u w) harcs hd
    omega
  · intro l hl v hv x y hx hy
    refine p5 l hl v hv x y ?_ ?_
    · exact (rev_capped h3).2 hx
    · exact (rev_capped h3).2 hy

/-- **C27**, the consequence: A* with the landmark potential is exact. -/
theorem C27_alt_query_exact (g : FOGraph) (hg : g.WF) (hw : g.Bounded) (landmarks : List Nat) (hne : landmarks ≠ [])
    (hl : ∀ l ∈ landmarks, l < g.numNodes) (s t : Nat) (hs : s < g.numNodes) (ht : t < g.numNodes) :
    ∃ data r d, Alt.new g landmarks = some data ∧
      distance g.numNodes g.linkIter defaultOps (fun (_ : Unit) v => (Alt.potential (data.forward t) v).map (fun p => ((), p)))
        (DData.new g.numNodes ()) () s 0 t = some (r, d, ()) ∧ Answer g.Arc s t r := by
  obtain ⟨data, h1, h2⟩ := C27_alt_forward g hg hw landmarks hne hl
  obtain ⟨π, p1, p2, _⟩ := h2 t ht
  obtain ⟨r, d, c', e1, _, e2⟩ := C25_astar_exact g hg hw
    (fun (_ : Unit) v => (Alt.potential (data.forward t) v).map (fun p => ((), p))) (fun _ => True)
    (fun v => if π v < INFINITY then some (π v) else none)
    (fun c v _ hv => ⟨(), by simp [p1 v hv], trivial⟩)
    (fun v x hx => by by_cases h : π v < INFINITY <;> simp [h] at hx; omega) s t hs
    (fun u v w pu pv ha hu hv => by
      by_cases h : π u < INFINITY <;> simp [h] at hu
      by_cases h' : π v < INFINITY <;> simp [h'] at hv
      have := p2.arcs u v w ha; omega)
    (fun u d hd hdi => by have := p2.bound u d hd; simp; omega)
    () trivial (DData.new g.numNodes ()) ⟨[], [], by simp [ValidQueries], rfl⟩
  exact ⟨data, r, d, h1, e1, e2⟩

example : (Alt.new exGraph [3, 0]).map (fun d => (d.fw, d.bw, d.k)) =
    some ([INFINITY, 0, INFINITY, 3, INFINITY, 1, 0, 8, INFINITY, INFINITY],
      [8, 0, 5, INFINITY, 7, INFINITY, 0, INFINITY, INFINITY, INFINITY], 2) := by decide +kernel
example : (Alt.new exGraph [3, 0]).bind (fun d => (List.range 5).mapM (Alt.potential (d.forward 3))) =
    some [some 8, some 5, some 7, some 0, none] := by decide +kernel
example : Alt.new exGraph [] = none := by decide +kernel

end Verif
