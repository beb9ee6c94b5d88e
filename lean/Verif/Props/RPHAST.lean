import Verif.Proof.RPHAST
import Verif.Props.CCHPotential
set_option linter.unusedSimpArgs false
set_option linter.unusedVariables false
/- Property C42: RPHAST. -/
namespace Verif
open Spec CCH DData RPHAST

private theorem run_spec {n : Nat} {A : Nat → Nat → Nat → Prop} {order : NodeOrder} (ho : order.OK n) {fw bw : FOGraph} (hf : UpDir n fw) (hb : UpDir n bw)
    (hh : HierarchyOf A order.rank fw.Arc bw.Arc) : ∀ (cs : List ManyCall) (sel : List Nat) (s : Sel) (q : RPHAST.Query), manyValid n sel cs → SelInv n bw s → QueryOK n q →
    (∀ t ∈ sel, ∃ r j : Nat, order.rank t = some r ∧ s.ids[r]? = some (some j)) →
    ∃ rs, RPHAST.run order fw bw (s, q) cs = some rs ∧ List.Forall₂ (List.Forall₂ (fun p x => CappedDist A p.1 p.2 x)) (manyAsked cs) rs := by
  intro cs
  induction cs with
  | nil => intro sel s q _ _ _ _; exact ⟨[], rfl, .nil⟩
  | cons c cs ih =>
    intro sel s q hv hs hq hk
    cases c with
    | select ts =>
      obtain ⟨s1, h1, h2, h3⟩ := select_spec hb ho hs hv.1
      obtain ⟨rs, h4, h5⟩ := ih ts s1 q hv.2 h2 hq h3
      exact ⟨rs, by simp only [RPHAST.run, h1, Option.bind_eq_bind, Option.bind_some]; exact h4, h5⟩
    | query v ts =>
      obtain ⟨q1, r, h1, h2, h3, h4⟩ := query_spec hf hb ho hs hq hv.1
      obtain ⟨rs, h5, h6⟩ := ih sel s q1 hv.2.2 hs h2 hk
      have hts : ∃ xs, ts.mapM (RPHAST.distance order s q1) = some xs ∧ List.Forall₂ (fun p x => CappedDist A p.1 p.2 x) (ts.map (fun t => (v, t))) xs := by
        have := hv.2.1
        clear h5 h6
        induction ts with
        | nil => exact ⟨[], rfl, .nil⟩
        | cons t ts ih' =>
          obtain ⟨xs, e1, e2⟩ := ih' ⟨hv.1, fun t' ht' => hv.2.1 t' (by simp [ht']), hv.2.2⟩ (fun t' ht' => this t' (by simp [ht']))
          obtain ⟨rt, j, f1, f2⟩ := hk t (this t (by simp))
          obtain ⟨p, f3, f4⟩ := h4 j rt ((hs.iff _ _).1 f2)
          refine ⟨p :: xs, by simp [List.mapM_cons, RPHAST.distance, f1, f2, f3, e1], .cons ⟨f4.ub, hierarchy_answer hh h3 f1 f4⟩ e2⟩
      obtain ⟨xs, e1, e2⟩ := hts
      exact ⟨xs :: rs, by simp only [RPHAST.run, h1, e1, h5, Option.bind_eq_bind, Option.bind_some, Option.pure_def], .cons e2 h6⟩

/-- **C42.** For every hierarchy and every history of selections and queries, no call fails (and no unchecked access is out of bounds), and
every value read for a selected target is the distance from the source, `INFINITY` if there is none below `INFINITY`. -/
theorem C42_rphast (n : Nat) (l : List Nat) (hl : l.length = n) (order : NodeOrder) (hord : NodeOrder.fromNodeOrder l = some order)
    (A : Nat → Nat → Nat → Prop) (fw bw : FOGraph) (hfw : fw.WF) (hbw : bw.WF) (hnf : fw.numNodes = n) (hnb : bw.numNodes = n)
    (hh : HierarchyOf A order.rank fw.Arc bw.Arc) (cs : List ManyCall) (hv : manyValid n [] cs) :
    ∃ rs, RPHAST.run order fw bw (Sel.new n, RPHAST.Query.new n) cs = some rs ∧
      List.Forall₂ (List.Forall₂ (fun p x => CappedDist A p.1 p.2 x)) (manyAsked cs) rs := by
  have hok : order.OK n := by rw [← hl]; exact NodeOrder.ok_of_fromNodeOrder hord
  have hf : UpDir n fw := ⟨hfw, hnf, fun h => (hh.fUp _ _ _ h).1, fun h => (hh.fUp _ _ _ h).2⟩
  have hb : UpDir n bw := ⟨hbw, hnb, fun h => (hh.bUp _ _ _ h).1, fun h => (hh.bUp _ _ _ h).2⟩
  apply run_spec hok hf hb hh cs [] _ _ hv
  · refine ⟨by simp [Sel.new], ?_, by simp [Sel.new], by simp [Sel.new], rfl, rfl, by simp [Sel.new]⟩
    intro v i
    simp only [Sel.new, List.getElem?_replicate, List.getElem?_nil]
    split <;> simp
  · exact ⟨by simp [RPHAST.Query.new], _, refines_new n ()⟩
  · simp

/-- **C42** for a customized CCH. -/
theorem C42_rphast_cch (orig : FOGraph) (ho : orig.WF) (l : List Nat) (hl : l.length = orig.numNodes) (order : NodeOrder)
    (hord : NodeOrder.fromNodeOrder l = some order) (c : Cch) (hc : build orig order = some c)
    (metric : FOGraph) (hm : metric.WF) (hfo : metric.firstOut = orig.firstOut) (hhd : metric.head = orig.head) (cs : List ManyCall) (hv : manyValid orig.numNodes [] cs) :
    ∃ w rs, customize c metric = some w ∧ RPHAST.run order (fwGraph c w) (bwGraph c w) (Sel.new orig.numNodes, RPHAST.Query.new orig.numNodes) cs = some rs ∧
      List.Forall₂ (List.Forall₂ (fun p x => CappedDist metric.Arc p.1 p.2 x)) (manyAsked cs) rs := by
  obtain ⟨w, h1, h2, h3, h4, h5, h6⟩ := cch_hierarchy orig ho l hl order hord c hc metric hm hfo hhd
  obtain ⟨rs, h7, h8⟩ := C42_rphast orig.numNodes l hl order hord metric.Arc _ _ h3.wf h4.wf h3.nn h4.nn h6 cs hv
  exact ⟨w, rs, h1, h7, h8⟩

namespace CCHExample

example : manyValid orig.numNodes [] [.select [2, 5], .query 0 [2, 5], .query 3 [5], .select [1, 1, 4], .query 0 [4, 1, 1]] := by
  simp [manyValid, orig, FOGraph.numNodes]
example : ((build orig order).bind (fun c => (customize c metric).bind (fun w =>
    RPHAST.run order (fwGraph c w) (bwGraph c w) (Sel.new 6, RPHAST.Query.new 6) [.select [2, 5], .query 0 [2, 5], .query 3 [5], .select [1, 1, 4], .query 0 [4, 1, 1]]))) =
    some [[11, 20], [4], [5, INFINITY, INFINITY]] := by
  decide +kernel

end CCHExample
end Verif
