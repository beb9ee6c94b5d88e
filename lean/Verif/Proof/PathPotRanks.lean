import Verif.Proof.PathPotOracle
import Verif.Proof.SubPathsLen
import Verif.Proof.CCHExact
set_option linter.unusedSimpArgs false
set_option linter.unusedVariables false
/- Answers of the search for violating subpaths do not depend on the names of the nodes. -/
namespace Verif
namespace UBS
open Spec

variable {n : Nat} {A : Nat → Nat → Nat → Prop} {order : NodeOrder}

/-- node of a rank -/
def nd (order : NodeOrder) (x : Nat) : Nat := (order.node x).getD 0

theorem node_nd (ho : order.OK n) {x : Nat} (hx : x < n) : order.node x = some (nd order x) := by
  obtain ⟨v, _, h, _⟩ := ho.node_lt hx
  simp [nd, h]

theorem nd_inj (ho : order.OK n) {x y : Nat} (hx : x < n) (hy : y < n) (h : nd order x = nd order y) : x = y := by
  have h1 := (ho.inv.inv _ _).1 (node_nd ho hx)
  have h2 := (ho.inv.inv _ _).1 (node_nd ho hy)
  rw [h, h2] at h1
  simpa using h1.symm

theorem inRanks_iff (ho : order.OK n) {x y w : Nat} (hx : x < n) (hy : y < n) : InRanks A order.node x y w ↔ A (nd order x) (nd order y) w := by
  unfold InRanks
  rw [node_nd ho hx, node_nd ho hy]
  simp

theorem pathOf_iff (ho : order.OK n) : ∀ (p : List Nat) (d : Nat), (∀ x ∈ p, x < n) → (PathOf (InRanks A order.node) p d ↔ PathOf A (p.map (nd order)) d)
  | [], d, _ => ⟨fun h => (nomatch h), fun h => (nomatch h)⟩
  | [x], d, _ => by
    constructor
    · intro h; cases h; exact .single _
    · intro h; cases h; exact .single _
  | x :: y :: p, d, hp => by
    have ih := pathOf_iff ho (y :: p)
    constructor
    · intro h
      cases h with
      | cons h1 h2 =>
        exact .cons ((inRanks_iff ho (hp x (by simp)) (hp y (by simp))).1 h1) ((ih _ (fun z hz => hp z (by simp [hz]))).1 h2)
    · intro h
      simp only [List.map_cons] at h
      cases h with
      | cons h1 h2 =>
        exact .cons ((inRanks_iff ho (hp x (by simp)) (hp y (by simp))).2 h1) ((ih _ (fun z hz => hp z (by simp [hz]))).2 (by simpa using h2))

theorem isDist_iff (ho : order.OK n) (hA : ∀ u v w, A u v w → u < n ∧ v < n) {x y d : Nat} (hx : x < n) (hy : y < n) :
    IsDist (InRanks A order.node) x y d ↔ IsDist A (nd order x) (nd order y) d := by
  have key : ∀ d, Walk (InRanks A order.node) x y d ↔ Walk A (nd order x) (nd order y) d := fun d =>
    ⟨fun h => CCH.walk_inRanks h (node_nd ho hx) (node_nd ho hy), fun h => CCH.inRanks_walk ho hA h (node_nd ho hx) (node_nd ho hy)⟩
  unfold IsDist
  simp only [key]

theorem subPath_mem {p : List Nat} {r : Rng} {x : Nat} (h : x ∈ subPath p r) : x ∈ p := List.mem_of_mem_drop (List.mem_of_mem_take h)

theorem tooLong_iff (ho : order.OK n) (hA : ∀ u v w, A u v w → u < n ∧ v < n) {p : List Nat} (hp : ∀ x ∈ p, x < n) {thr : Nat → Nat} {r : Rng} :
    TooLong (InRanks A order.node) thr p r ↔ TooLong A thr (p.map (nd order)) r := by
  have hsub : ∀ d, PathOf (InRanks A order.node) (subPath p r) d ↔ PathOf A (subPath (p.map (nd order)) r) d := by
    intro d
    rw [pathOf_iff ho _ _ (fun x hx => hp x (subPath_mem hx))]
    simp [subPath, List.map_take, List.map_drop]
  have hch : ∀ d, CheapestLen (InRanks A order.node) (subPath p r) d ↔ CheapestLen A (subPath (p.map (nd order)) r) d := by
    intro d; unfold CheapestLen; simp only [hsub]
  unfold TooLong
  simp only [hch]
  refine and_congr_right fun _ => ?_
  constructor
  · rintro ⟨s, t, len, d, h1, h2, h3, h4, h5⟩
    exact ⟨_, _, len, d, by rw [List.getElem?_map, h1]; rfl, by rw [List.getElem?_map, h2]; rfl, h3,
      (isDist_iff ho hA (hp s (List.mem_of_getElem? h1)) (hp t (List.mem_of_getElem? h2))).1 h4, h5⟩
  · rintro ⟨s, t, len, d, h1, h2, h3, h4, h5⟩
    rw [List.getElem?_map, Option.map_eq_some_iff] at h1 h2
    obtain ⟨x, h1, rfl⟩ := h1
    obtain ⟨y, h2, rfl⟩ := h2
    exact ⟨x, y, len, d, h1, h2, h3, (isDist_iff ho hA (hp x (List.mem_of_getElem? h1)) (hp y (List.mem_of_getElem? h2))).2 h4, h5⟩

theorem loop_iff (ho : order.OK n) {p : List Nat} (hp : ∀ x ∈ p, x < n) {r : Rng} : Loop p r ↔ Loop (p.map (nd order)) r := by
  unfold Loop
  refine and_congr_right fun _ => ?_
  constructor
  · rintro ⟨v, h1, h2, h3⟩
    refine ⟨nd order v, by rw [List.getElem?_map, h1]; rfl, by rw [List.getElem?_map, h2]; rfl, ?_⟩
    intro i h4 h5 h6
    rw [List.getElem?_map, Option.map_eq_some_iff] at h6
    obtain ⟨y, h6, h7⟩ := h6
    have := nd_inj ho (hp y (List.mem_of_getElem? h6)) (hp v (List.mem_of_getElem? h1)) h7
    subst this
    exact h3 i h4 h5 h6
  · rintro ⟨v, h1, h2, h3⟩
    rw [List.getElem?_map, Option.map_eq_some_iff] at h1 h2
    obtain ⟨x, h1, rfl⟩ := h1
    obtain ⟨y, h2, h2'⟩ := h2
    have := nd_inj ho (hp y (List.mem_of_getElem? h2)) (hp x (List.mem_of_getElem? h1)) h2'
    subst this
    exact ⟨y, h1, h2, fun i h4 h5 h6 => h3 i h4 h5 (by rw [List.getElem?_map, h6]; rfl)⟩

theorem nodup_iff (ho : order.OK n) {p : List Nat} (hp : ∀ x ∈ p, x < n) : p.Nodup ↔ (p.map (nd order)).Nodup := by
  constructor
  · intro h
    exact h.map_on (fun x hx y hy he => nd_inj ho (hp x hx) (hp y hy) he)
  · intro h; exact h.of_map

theorem ubsAnswer_iff (ho : order.OK n) (hA : ∀ u v w, A u v w → u < n ∧ v < n) {p : List Nat} (hp : ∀ x ∈ p, x < n) {thr : Nat → Nat} {out : List Rng} :
    UbsAnswer (InRanks A order.node) thr p out ↔ UbsAnswer A thr (p.map (nd order)) out := by
  unfold UbsAnswer MinimalTooLong
  simp only [nodup_iff ho hp, loop_iff ho hp, tooLong_iff ho hA hp]

theorem steps_ranks (ho : order.OK n) {p dists : List Nat} (hp : ∀ x ∈ p, x < n) (h : Steps A (p.map (nd order)) dists) : Steps (InRanks A order.node) p dists := by
  refine ⟨by simpa using h.len, ?_, fun i x hi => h.fin i x (by simpa using hi)⟩
  intro i u v x y h1 h2 h3 h4
  have hu := hp u (List.mem_of_getElem? h1)
  have hv := hp v (List.mem_of_getElem? h2)
  have := h.step i _ _ x y (by rw [List.getElem?_map, h1]; rfl) (by rw [List.getElem?_map, h2]; rfl) h3 h4
  simp only [inRanks_iff ho hu hv]
  exact this

/-- the path in ranks -/
theorem ranks_of (ho : order.OK n) : ∀ (path : List Nat), (∀ v ∈ path, v < n) → ∃ nodes, path.mapM order.rank = some nodes ∧ (∀ x ∈ nodes, x < n) ∧ nodes.map (nd order) = path
  | [], _ => ⟨[], rfl, by simp, rfl⟩
  | v :: path, h => by
    obtain ⟨nodes, h1, h2, h3⟩ := ranks_of ho path (fun x hx => h x (by simp [hx]))
    obtain ⟨r, e1, e2, e3⟩ := ho.rank_lt (h v (by simp))
    refine ⟨r :: nodes, by simp [List.mapM_cons, e2, h1], ?_, by simp [nd, e3, h3]⟩
    intro x hx
    rcases List.mem_cons.1 hx with rfl | hx
    · exact e1
    · exact h2 x hx

end UBS
end Verif
