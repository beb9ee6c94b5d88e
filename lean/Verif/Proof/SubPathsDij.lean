import Verif.Proof.SubPathsFind
import Verif.Proof.Reversed
set_option linter.unusedSimpArgs false
set_option linter.unusedVariables false
/- Shortest path trees from Dijkstra's algorithm. -/
namespace Verif.UBS
open Spec DData CCH

section
variable {g : FOGraph}

/-- a search whose settled nodes contain the path -/
def DOn (g : FOGraph) (root : Nat) (path : List Nat) (d : DData Unit) : Prop :=
  ∃ a S, Refines g.numNodes d a ∧ DInv (staticProb g.numNodes g.linkIter (fun _ => 0)) root 0 (fun _ _ => False) a S ∧
    (∀ v ∈ S, IsDist (Rev g.Arc) v root (a.D v)) ∧ ∀ v ∈ path, v ∈ S

def DGood (g : FOGraph) (root : Nat) (d : DData Unit) (v : Nat) : Prop :=
  v < g.numNodes ∧ ∃ x k, k < g.numNodes ∧ Up ((dijOracle g).parent d) (Rev g.Arc) root v x k ∧ IsDist (Rev g.Arc) v root x

theorem up_of_inv {root : Nat} {d : DData Unit} {a : Abs Unit} {S : List Nat} (hr : Refines g.numNodes d a)
    (hi : DInv (staticProb g.numNodes g.linkIter (fun _ => 0)) root 0 (fun _ _ => False) a S) :
    ∀ (m : Nat) (A B : List Nat) (v : Nat), B.length ≤ m → S = A ++ v :: B →
      ∃ k, k ≤ B.length ∧ Up ((dijOracle g).parent d) (Rev g.Arc) root v (a.D v) k := by
  intro m
  induction m with
  | zero =>
    intro A B v hm hS
    have hB : B = [] := by simpa using hm
    have hvs : v = root := by
      apply Classical.byContradiction
      intro hne
      have := hi.order A v B hS hne
      simp [hB] at this
    subst hvs
    exact ⟨0, by omega, by rw [hi.src]; exact .nil⟩
  | succ m ih =>
    intro A B v hm hS
    have hvS : v ∈ S := by rw [hS]; simp
    obtain ⟨hvn, hvD, _⟩ := hi.sett v hvS
    by_cases hvs : v = root
    · subst hvs
      exact ⟨0, by omega, by rw [hi.src]; exact .nil⟩
    · have hu := hi.order A v B hS hvs
      obtain ⟨_, ls, b, h1, h2, h3, h4, h5⟩ := hi.pred v hvD hvs
      obtain ⟨B1, B2, hB⟩ := List.append_of_mem hu
      have hlen : B.length = B1.length + B2.length + 1 := by rw [hB]; simp; omega
      obtain ⟨k, h6, h7⟩ := ih (A ++ v :: B1) B2 (a.P v).1 (by omega) (by rw [hS, hB]; simp)
      refine ⟨k + 1, by omega, ?_⟩
      simp only [staticProb, defaultOps] at h1 h3 h5
      subst h3
      rw [h5, Nat.add_comm]
      exact .cons hvs (by simp [dijOracle, hr.pred _ hvn]) ⟨ls, h1, h2⟩ h7

theorem dijOracle_ok (hg : g.WF) (hw : g.Bounded) :
    OracleOK (dijOracle g) g.numNodes (Rev g.Arc) (fun d => ∃ a, Refines g.numNodes d a) (DOn g) (DGood g) where
  init := by
    intro t ranks root path ⟨a0, ht⟩ hreq
    obtain ⟨ra, rb, e1, e2, hon⟩ := hreq.ends
    have hroot := hreq.lt root hreq.rmem
    obtain ⟨δ, hδ⟩ : ∃ δ : Nat → Nat, ∀ v, CapMin (Walk g.Arc root v) (δ v) :=
      ⟨fun v => Classical.choose (exists_capMin (Walk g.Arc root v)), fun v => Classical.choose_spec (exists_capMin _)⟩
    let cnt := fun S : List Nat => (S.filter (fun v => decide (v ∈ path))).length
    have hcnt : ∀ S : List Nat, S.Nodup → cnt S ≤ path.length ∧ (path.length ≤ cnt S → ∀ v ∈ path, v ∈ S) := by
      intro S hS
      have hsub : (S.filter (fun v => decide (v ∈ path))).Subperm path :=
        List.Nodup.subperm (List.Pairwise.filter _ hS) (fun v hv => by simpa using (List.mem_filter.1 hv).2)
      refine ⟨hsub.length_le, fun hle v hv => ?_⟩
      have hp := hsub.perm_of_length_le hle
      exact (List.mem_filter.1 (hp.mem_iff.2 hv)).1
    have hpos : 0 < path.length := List.length_pos_of_mem hreq.rmem
    obtain ⟨d, x, a, S, h1, h2, ⟨h3, h3'⟩, h4, h5, h6, h7⟩ := visit_inv hg hw hroot hδ (vis := countVisit ranks ra rb)
      (K := fun S left => left + cnt S = path.length ∧ 0 < left) (Z := fun S left => S.Nodup → ∀ v ∈ path, v ∈ S)
      (by
        intro S left v d ⟨hk1, hk2⟩ hS hst
        have hnd : (v :: S).Nodup := List.nodup_cons.2 ⟨hst.new, hS⟩
        unfold countVisit
        rw [hon v hst.lt]
        by_cases hv : v ∈ path
        · have hm : minus left 1 = some (left - 1) := by simp [minus]; omega
          have hc : cnt (v :: S) = cnt S + 1 := by simp [cnt, List.filter_cons, hv]
          refine ⟨left - 1, decide (left - 1 = 0), by simp [hv, hm], ?_, ?_⟩
          · intro hz hnd
            simp at hz
            exact (hcnt _ hnd).2 (by omega)
          · intro hz
            simp at hz
            exact ⟨by omega, by omega⟩
        · have hc : cnt (v :: S) = cnt S := by simp [cnt, List.filter_cons, hv]
          refine ⟨left, false, by simp [hv], by simp, fun _ => ⟨by rw [hc]; exact hk1, hk2⟩⟩) ht (x0 := path.length) ⟨by simp [cnt], hpos⟩
    simp only [Option.bind_eq_bind] at h1
    have hmem : ∀ v ∈ path, v ∈ S := by
      rcases h7 with h7 | ⟨_, h7⟩
      · exact h7 h4
      · intro v hv
        obtain ⟨x, hx, hd⟩ := hreq.fin v hv
        apply h7 v
        have := (hδ v).le _ (isDist_rev.1 hd).1
        omega
    refine ⟨d, ?_, a, S, h2, h3, ?_, hmem⟩
    · cases hinit : t.init root 0 with
      | none => simp [hinit] at h1
      | some d1 =>
        simp only [hinit, Option.bind_some] at h1
        simp only [dijOracle, e1, e2, hinit, h1, Option.bind_eq_bind, Option.bind_some, Option.pure_def]
    · intro v hv
      rw [isDist_rev]
      have hf := (h5 v hv).2
      rw [h3' v hv]
      exact ⟨(hδ v).sound hf, fun d' hd' => (hδ v).le d' hd'⟩
  ready := by rintro t root path ⟨a, S, h1, _⟩; exact ⟨a, h1⟩
  dist := by
    rintro t root path v d ⟨a, S, h1, h2, h3, h4⟩ hv hd
    have hvS := h4 v hv
    have hvn := (h2.sett v hvS).1
    refine ⟨t, ?_, ⟨a, S, h1, h2, h3, h4⟩, .refl⟩
    simp [dijOracle, h1.get hvn, (h3 v hvS).unique hd]
  unpack := by
    rintro t root path v ⟨a, S, h1, h2, h3, h4⟩ hv
    have hvS := h4 v hv
    have hvn := (h2.sett v hvS).1
    refine ⟨t, rfl, ⟨a, S, h1, h2, h3, h4⟩, .refl, hvn, a.D v, ?_⟩
    obtain ⟨X, Y, hXY⟩ := List.append_of_mem hvS
    obtain ⟨k, e1, e2⟩ := up_of_inv h1 h2 Y.length X Y v (Nat.le_refl _) hXY
    have hlen := h2.length_le
    have hn : (staticProb g.numNodes g.linkIter (fun _ => 0)).n = g.numNodes := rfl
    have : S.length = X.length + Y.length + 1 := by rw [hXY]; simp; omega
    exact ⟨k, by omega, e2, h3 v hvS⟩
  up := by rintro t root path v _ ⟨h1, h2⟩; exact ⟨h1, h2⟩
  anc := by
    rintro t root path v p _ ⟨h1, x, k, h2, h3, h4⟩ hvr hp
    obtain ⟨q, w, d', k', rfl, rfl, e1, e2, e3⟩ := h3.inv hvr
    rw [hp] at e1; simp at e1; subst e1
    refine ⟨by obtain ⟨ls, h5, _⟩ := e2; exact hg.tail_lt h5, d', k', by omega, e3, ?_⟩
    refine ⟨e3.walk, fun d2 hd2 => ?_⟩
    have := h4.2 _ (.cons e2 hd2)
    omega

end
end Verif.UBS
