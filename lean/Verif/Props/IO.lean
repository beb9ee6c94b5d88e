import Verif.Proof.IO
import Verif.Proof.CCHBuild
import Verif.Props.Containers
import Verif.Props.Dijkstra
set_option linter.unusedSimpArgs false
set_option linter.unusedVariables false
/- Properties C19 and C54: storing and loading. -/
namespace Verif
open Spec Store

/-- **C19.** A vector of records that is written to a file is loaded again unchanged, for every record type of fixed positive
size whose values can be read back from their bytes; other files are not touched. -/
theorem C19_vector_round_trip {α : Type} (r : Rec α) (valid : α → Prop) (hr : r.OK valid) (xs : List α) (hv : ∀ x ∈ xs, valid x)
    (p : Path) (fs fs' : FS) (h : runSteps fs (writeTo p (dataBytes r xs)) = some fs') :
    loadVec r fs' p = .ok xs ∧ ∀ q, q ≠ p → fs' q = fs q := by
  cases runSteps_writeTo h
  exact ⟨loadVec_file hr xs hv (put_same _ _ _), fun q hq => put_ne _ _ hq⟩

/-- **C19.** Writing succeeds if the directory exists and the name is not that of a directory. -/
theorem C19_writing_succeeds (p : Path) (bytes : List UInt8) (fs : FS) (h1 : fs p.dropLast = some .dir) (h2 : fs p ≠ some .dir) :
    ∃ fs', runSteps fs (writeTo p bytes) = some fs' := ⟨_, writeTo_succeeds bytes h1 h2⟩

/-- **C19.** Such record types are `u32`, `u64` and pairs of them. -/
theorem C19_record_types : u32.OK (· < 2 ^ 32) ∧ u64.OK (· < 2 ^ 64) ∧
    (pair u32 u32).OK (fun x => x.1 < 2 ^ 32 ∧ x.2 < 2 ^ 32) := ⟨u32_ok, u64_ok, pair_ok u32_ok u32_ok⟩

/-- **C19.** A file whose length is not a multiple of the record size is rejected, a missing file is an error, and any other
file gives one record for each `size` bytes. -/
theorem C19_length_checked {α : Type} (r : Rec α) (hr : 0 < r.size) (p : Path) (fs : FS) :
    (fs p = none → loadVec r fs p = .err) ∧
    ∀ bytes, fs p = some (.file bytes) →
      (bytes.length % r.size ≠ 0 → loadVec r fs p = .panic) ∧
      (bytes.length % r.size = 0 → ∃ xs, loadVec r fs p = .ok xs ∧ xs.length = bytes.length / r.size ∧
        ∀ i (hi : i < xs.length), xs[i] = r.dec ((bytes.drop (i * r.size)).take r.size)) := by
  refine ⟨loadVec_none, fun bytes hf => ⟨fun h => ?_, fun h => ?_⟩⟩
  · simp only [loadVec, readFile, hf, Out.bind]
    rw [if_neg (by omega), if_neg h]
  · refine ⟨records r (bytes.length / r.size) bytes, ?_, ?_, ?_⟩
    · simp only [loadVec, readFile, hf, Out.bind]
      rw [if_neg (by omega), if_pos h]
    · generalize bytes.length / r.size = n
      clear hf h
      induction n generalizing bytes with
      | zero => rfl
      | succ n ih => simp [records, ih]
    · generalize bytes.length / r.size = n
      clear hf h
      induction n generalizing bytes with
      | zero => intro i hi; simp [records] at hi
      | succ n ih =>
        intro i hi
        cases i with
        | zero => simp [records]
        | succ i =>
          simp only [records, List.getElem_cons_succ]
          rw [ih (bytes.drop r.size) i (by simpa [records] using hi), List.drop_drop]
          have e : r.size + i * r.size = (i + 1) * r.size := by rw [Nat.succ_mul]; omega
          rw [e]

/-- **C19.** A graph stored to a directory is loaded unchanged. -/
theorem C19_graph_round_trip (g : FOGraph) (hg : g.WF) (hw : ∀ w ∈ g.weight, w < U32) (dir : Path) (fs fs' : FS)
    (h : runSteps fs (deconstruct dir (graphFiles g)) = some fs') : loadGraph fs' dir = .ok g := by
  obtain ⟨h1, _⟩ := deconstruct_spec (by simp [graphFiles]) h
  have e1 : ∀ x ∈ g.firstOut, x < U32 := by
    intro x hx
    obtain ⟨i, hi, rfl⟩ := List.mem_iff_getElem.1 hx
    have hlast := hg.last
    rw [List.getLast?_eq_getElem?] at hlast
    have := hg.mono' (i := i) (j := g.firstOut.length - 1) (by omega) (List.getElem?_eq_getElem hi) hlast
    have := hg.small.2
    simp only [U32] at this ⊢; omega
  have e2 : ∀ x ∈ g.head, x < U32 := by
    intro x hx
    have := hg.heads x hx
    have := hg.small.1
    simp only [FOGraph.numNodes, U32] at *; omega
  have hnew : FOGraph.new g.firstOut g.head g.weight = some g := by
    unfold FOGraph.new
    rw [if_pos ⟨hg.small.1, hg.small.2, hg.first, hg.last, hg.weights⟩]
  simp only [loadGraph, loadGraphWith]
  rw [loadVec_file u32_ok g.firstOut e1 (h1 ("first_out", dataBytes u32 g.firstOut) (by simp [graphFiles])),
    loadVec_file u32_ok g.head e2 (h1 ("head", dataBytes u32 g.head) (by simp [graphFiles])),
    loadVec_file u32_ok g.weight hw (h1 ("weights", dataBytes u32 g.weight) (by simp [graphFiles]))]
  simp [Out.bind, hnew, orPanic]

theorem order_entries {l : List Nat} {o : NodeOrder} (h : NodeOrder.fromNodeOrder l = some o) : ∀ x ∈ o.ranks, x < U32 := by
  have hok := NodeOrder.ok_of_fromNodeOrder h
  have hs : l.length < U32 - 1 := ((C02_from_node_order_accepts_exactly_permutations l).1 ⟨o, h⟩).2
  intro x hx
  obtain ⟨i, hi, rfl⟩ := List.mem_iff_getElem.1 hx
  have := hok.rank_range (u := i) (List.getElem?_eq_getElem hi)
  simp only [U32] at *; omega

/-- **C19.** A node order stored to a directory is loaded unchanged. -/
theorem C19_node_order_round_trip (l : List Nat) (o : NodeOrder) (ho : NodeOrder.fromNodeOrder l = some o) (dir : Path) (fs fs' : FS)
    (h : runSteps fs (deconstruct dir (orderFiles o)) = some fs') : loadOrder fs' dir = .ok o := by
  obtain ⟨h1, _⟩ := deconstruct_spec (by simp [orderFiles]) h
  simp only [loadOrder]
  rw [loadVec_file u32_ok o.ranks (order_entries ho) (h1 ("ranks", dataBytes u32 o.ranks) (by simp [orderFiles]))]
  simp [Out.bind, (C02_from_ranks_from_node_order_agree l o).1 ho, orPanic]

/-- **C19.** A CCH stored to a directory together with its order is rebuilt from there, for the same graph, unchanged: all of
its arrays, not only the stored ones. -/
theorem C19_cch_round_trip (orig : FOGraph) (hg : orig.WF) (l : List Nat) (hl : l.length = orig.numNodes) (o : NodeOrder)
    (ho : NodeOrder.fromNodeOrder l = some o) (c : CCH.Cch) (hc : CCH.build orig o = some c) (dir : Path) (fs fs' : FS)
    (h : runSteps fs (deconstruct dir (orderFiles o) ++ deconstruct dir (cchFiles c)) = some fs') :
    loadCch orig fs' dir = .ok c := by
  have hok : o.OK orig.numNodes := by rw [← hl]; exact NodeOrder.ok_of_fromNodeOrder ho
  rw [runSteps_append, Option.bind_eq_some_iff] at h
  obtain ⟨fs1, h1, h2⟩ := h
  obtain ⟨d1, _⟩ := deconstruct_spec (by simp [orderFiles]) h1
  obtain ⟨d2, d3⟩ := deconstruct_spec (by simp [cchFiles]) h2
  have dr : fs' (dir ++ ["ranks"]) = some (.file (dataBytes u32 o.ranks)) := by
    rw [d3 _ (join_ne _ _) (by simp [cchFiles])]
    exact d1 ("ranks", dataBytes u32 o.ranks) (by simp [orderFiles])
  have lo : loadOrder fs' dir = .ok o := by
    simp only [loadOrder]
    rw [loadVec_file u32_ok o.ranks (order_entries ho) dr]
    simp [Out.bind, (C02_from_ranks_from_node_order_agree l o).1 ho, orPanic]
  obtain ⟨_, hgood, _⟩ : ∃ _ : True, CCH.Good orig.numNodes c ∧ True := by
    rcases CCH.build_spec hg hok with ⟨hn, _⟩ | ⟨c', hc', hgood, _⟩
    · rw [hn] at hc; cases hc
    · rw [hc'] at hc; cases hc; exact ⟨trivial, hgood, trivial⟩
  simp only [CCH.build, Option.bind_eq_bind, Option.bind_eq_some_iff] at hc
  obtain ⟨n1, _, n2, _, g, hgr, hnf⟩ := hc
  have hw : FOGraph.new g.firstOut g.head g.head = some g := by
    simp only [CCH.toGraph, Option.bind_eq_bind, Option.bind_eq_some_iff] at hgr
    obtain ⟨fo, _, hh⟩ := hgr
    have hh' := hh
    simp only [FOGraph.new] at hh'
    split at hh'
    · simp at hh'
      rw [← hh'] at hh ⊢; exact hh
    · cases hh'
  have hcf : c.firstOut = g.firstOut ∧ c.head = g.head := by
    simp only [CCH.newFrom, Option.bind_eq_bind, Option.bind_eq_some_iff, Option.pure_def, Option.some.injEq] at hnf
    obtain ⟨_, _, _, _, _, _, _, _, _, _, rfl⟩ := hnf
    exact ⟨rfl, rfl⟩
  have hwf := hgood.wf
  have e1 : ∀ x ∈ c.firstOut, x < U32 := by
    intro x hx
    obtain ⟨i, hi, rfl⟩ := List.mem_iff_getElem.1 hx
    have hlast : c.firstOut.getLast? = some c.head.length := hwf.last
    rw [List.getLast?_eq_getElem?] at hlast
    have := hwf.mono' (i := i) (j := c.firstOut.length - 1) (by omega) (List.getElem?_eq_getElem hi) hlast
    have : c.head.length < U32 - 1 := hwf.small.2
    simp only [U32] at this ⊢; omega
  have e2 : ∀ x ∈ c.head, x < U32 := by
    intro x hx
    have : x < c.firstOut.length - 1 := hwf.heads x hx
    have : c.firstOut.length < U32 - 1 := hwf.small.1
    simp only [U32] at *; omega
  have hnn : g.numNodes = orig.numNodes := by
    rw [← hgood.nn]
    show g.firstOut.length - 1 = c.firstOut.length - 1
    rw [hcf.1]
  simp only [loadCch]
  rw [lo, loadVec_file u32_ok c.head e2 (d2 ("cch_head", dataBytes u32 c.head) (by simp [cchFiles])),
    loadVec_file u32_ok c.firstOut e1 (d2 ("cch_first_out", dataBytes u32 c.firstOut) (by simp [cchFiles]))]
  simp only [Out.bind, newUnweighted, hcf.1, hcf.2, hw, orPanic]
  rw [if_pos hnn, hnf]

/-- **C19.** A bit vector is loaded with the same bits, but with its length rounded up to a multiple of 64. -/
theorem C19_bit_vector_bits_round_trip (b : Bits.BitVec) (hb : b.data.length = (b.size + 63) / 64)
    (hv : ∀ w ∈ b.data, w < 2 ^ 64) (p : Path) (fs fs' : FS) (h : runSteps fs (writeTo p (bitVecBytes b)) = some fs') :
    loadBitVec fs' p = .ok ⟨b.data, (b.size + 63) / 64 * 64⟩ := by
  cases runSteps_writeTo h
  have hl := dataBytes_length u64_ok b.data
  have hs : u64.size = 8 := rfl
  simp only [loadBitVec, readFile, put_same, Out.bind, bitVecBytes, hl, hs, Bits.BitVec.new, List.length_replicate]
  have e : (b.data.length * 8 * 8 + 63) / 64 = b.data.length := by omega
  rw [e, if_pos rfl, records_dataBytes u64_ok b.data hv, hb]
  congr 2
  omega

/-- **C19** does not hold for the length of bit vectors: a vector of 3 bits comes back with 64. -/
theorem C19_bit_vector_length_not_kept : ∃ (b : Bits.BitVec) (p : Path) (fs fs' : FS), b = Bits.BitVec.new 3 ∧
    runSteps fs (writeTo p (bitVecBytes b)) = some fs' ∧ loadBitVec fs' p ≠ .ok b := by
  refine ⟨_, ["f"], fun q => if q = [] then some .dir else none, _, rfl,
    writeTo_succeeds _ (by simp) (by simp), ?_⟩
  simp only [loadBitVec, readFile, put_same, Out.bind]
  decide +kernel

/-- a disk with one empty directory -/
def exDisk : FS := fun p => if p = [] ∨ p = ["data"] then some .dir else none

example : ∃ fs', runSteps exDisk (deconstruct ["data"] (graphFiles exGraph)) = some fs' ∧ loadGraph fs' ["data"] = .ok exGraph := by
  obtain ⟨fs', h⟩ := deconstruct_succeeds (dir := ["data"]) (graphFiles exGraph) (fs := exDisk) (.inl (by decide)) (by decide)
  exact ⟨fs', h, C19_graph_round_trip exGraph exGraph_wf (by decide) _ _ _ h⟩

/-- **C54.** Storing a vector that is interrupted at any point leaves the old file, or a file that is rejected, or one that
loads as an initial part of the vector. -/
theorem C54_interrupted_vector {α : Type} (r : Rec α) (valid : α → Prop) (hr : r.OK valid) (xs : List α) (hv : ∀ x ∈ xs, valid x)
    (p : Path) (fs fs' : FS) (h : CrashState (writeTo p (dataBytes r xs)) fs fs') :
    fs' = fs ∨ loadVec r fs' p = .panic ∨ ∃ k, loadVec r fs' p = .ok (xs.take k) := by
  have h' : CrashState (writeTo p (dataBytes r xs) ++ []) fs fs' := by simpa using h
  rcases crash_writeTo h' with rfl | ⟨part, rest, he, rfl⟩ | h
  · exact .inl rfl
  · rcases loadVec_prefix hr xs hv he (fs := fs.put p (.file part)) (p := p) (put_same _ _ _) with h | h
    · exact .inr (.inl h)
    · exact .inr (.inr ⟨_, h⟩)
  · cases crash_nil h
    right; right
    exact ⟨xs.length, by rw [loadVec_file hr xs hv (put_same _ _ _), List.take_length]⟩

/-- **C54.** If storing a graph to a directory without older graph files is interrupted at any point, then the directory
either loads as this very graph or not at all. -/
theorem C54_interrupted_graph (g : FOGraph) (hg : g.WF) (hw : ∀ w ∈ g.weight, w < U32) (dir : Path) (fs fs' : FS)
    (hempty : ∀ name ∈ ["first_out", "head", "weights"], fs (dir ++ [name]) = none)
    (h : CrashState (deconstruct dir (graphFiles g)) fs fs') (g' : FOGraph) (hl : loadGraph fs' dir = .ok g') : g' = g := by
  have hnew : FOGraph.new g.firstOut g.head g.weight = some g := by
    unfold FOGraph.new
    rw [if_pos ⟨hg.small.1, hg.small.2, hg.first, hg.last, hg.weights⟩]
  refine crash_graph hnew ?_ ?_ hw ?_ h hl
  · intro x hx
    obtain ⟨i, hi, rfl⟩ := List.mem_iff_getElem.1 hx
    have hlast := hg.last
    rw [List.getLast?_eq_getElem?] at hlast
    have := hg.mono' (i := i) (j := g.firstOut.length - 1) (by omega) (List.getElem?_eq_getElem hi) hlast
    have := hg.small.2
    simp only [U32] at this ⊢; omega
  · intro x hx
    have := hg.heads x hx
    have := hg.small.1
    simp only [FOGraph.numNodes, U32] at *; omega
  · intro f hf
    simp only [graphFiles, List.mem_cons, List.mem_nil_iff, or_false] at hf
    rcases hf with rfl | rfl | rfl <;> exact hempty _ (by simp)

/-- **C54** needs the directory to be free of older files: here an interrupted overwrite leaves a mixture of two graphs that
loads without complaint. -/
theorem C54_overwriting_can_mix : ∃ (old new : FOGraph) (dir : Path) (fs0 fs fs' : FS) (g' : FOGraph), old.WF ∧ new.WF ∧
    runSteps fs0 (deconstruct dir (graphFiles old)) = some fs ∧ CrashState (deconstruct dir (graphFiles new)) fs fs' ∧
    loadGraph fs' dir = .ok g' ∧ g' ≠ old ∧ g' ≠ new := by
  let old : FOGraph := ⟨[0, 1, 1], [1], [5]⟩
  let new : FOGraph := ⟨[0, 0, 1], [0], [7]⟩
  have wf : old.WF ∧ new.WF := by
    constructor <;> constructor <;> first | decide | skip
    all_goals
      intro i a b h1 h2
      rcases i with _ | _ | i <;> simp [old, new] at h1 h2 <;> omega
  obtain ⟨fs, h1⟩ := deconstruct_succeeds (dir := ["data"]) (graphFiles old) (fs := exDisk) (.inl (by decide)) (by decide)
  obtain ⟨d1, d2⟩ := deconstruct_spec (by simp [graphFiles]) h1
  have f1 := d1 ("first_out", dataBytes u32 old.firstOut) (by simp [graphFiles])
  have f2 := d1 ("head", dataBytes u32 old.head) (by simp [graphFiles])
  have f3 := d1 ("weights", dataBytes u32 old.weight) (by simp [graphFiles])
  have hdir : fs ["data"] = some .dir := by
    simp only [deconstruct, runSteps, Option.bind_eq_some_iff] at h1
    obtain ⟨fs1, h3, h4⟩ := h1
    have : fs1 = exDisk := by
      have : (Step.ensureDir ["data"]).run exDisk = some exDisk := by simp [Step.run, exDisk]
      rw [this] at h3; simpa using h3.symm
    subst this
    rw [(saveSteps_spec (by simp [graphFiles]) h4).2 ["data"] (by simp [graphFiles])]
    decide
  refine ⟨old, new, ["data"], exDisk, fs, fs.put ["data", "first_out"] (.file (dataBytes u32 new.firstOut)),
    ⟨[0, 0, 1], [1], [5]⟩, wf.1, wf.2, h1, ?_, ?_, by decide, by decide⟩
  · have e : deconstruct ["data"] (graphFiles new) = .ensureDir ["data"] :: .create ["data", "first_out"] ::
        .append ["data", "first_out"] (dataBytes u32 new.firstOut) ::
        saveSteps ["data"] [("head", dataBytes u32 new.head), ("weights", dataBytes u32 new.weight)] := rfl
    rw [e]
    refine .next (fs1 := fs) (by simp [Step.run, hdir]) (.next (fs1 := fs.put ["data", "first_out"] (.file [])) ?_ (.next
      (fs1 := fs.put ["data", "first_out"] (.file (dataBytes u32 new.firstOut))) ?_ (.stop _ _)))
    · have f1' : fs ["data", "first_out"] = some (.file (dataBytes u32 old.firstOut)) := f1
      simp [Step.run, f1']
    · simp [Step.run, put_same, put_put]
  · simp only [loadGraph, loadGraphWith]
    have l1 : loadVec u32 (fs.put ["data", "first_out"] (.file (dataBytes u32 new.firstOut))) (["data"] ++ ["first_out"]) =
        .ok new.firstOut := loadVec_file u32_ok _ (by decide) (put_same _ _ _)
    have l2 : loadVec u32 (fs.put ["data", "first_out"] (.file (dataBytes u32 new.firstOut))) (["data"] ++ ["head"]) =
        .ok old.head := loadVec_file u32_ok _ (by decide) (by rw [put_ne _ _ (by simp)]; exact f2)
    have l3 : loadVec u32 (fs.put ["data", "first_out"] (.file (dataBytes u32 new.firstOut))) (["data"] ++ ["weights"]) =
        .ok old.weight := loadVec_file u32_ok _ (by decide) (by rw [put_ne _ _ (by simp)]; exact f3)
    rw [l1, l2, l3]
    rfl

/-- **C54** does not hold for node orders: an interrupted write can leave a valid order of fewer nodes. -/
theorem C54_interrupted_order_can_shrink : ∃ (o o' : NodeOrder) (dir : Path) (fs fs' : FS),
    NodeOrder.fromNodeOrder [0, 2, 1] = some o ∧ fs (dir ++ ["ranks"]) = none ∧
    CrashState (deconstruct dir (orderFiles o)) fs fs' ∧ loadOrder fs' dir = .ok o' ∧ o' ≠ o := by
  refine ⟨⟨[0, 2, 1], [0, 2, 1]⟩, ⟨[0], [0]⟩, ["data"], exDisk, exDisk.put ["data", "ranks"] (.file (dataBytes u32 [0])),
    by decide, by decide, ?_, ?_, by decide⟩
  · have e : deconstruct ["data"] (orderFiles ⟨[0, 2, 1], [0, 2, 1]⟩) = [.ensureDir ["data"], .create ["data", "ranks"],
        .append ["data", "ranks"] (dataBytes u32 [0, 2, 1])] := rfl
    rw [e]
    refine .next (fs1 := exDisk) (by simp [Step.run, exDisk]) (.next (fs1 := exDisk.put ["data", "ranks"] (.file [])) ?_
      (.torn (part := dataBytes u32 [0]) (rest := dataBytes u32 [2, 1]) rfl ?_))
    · simp [Step.run, exDisk]
    · simp [Step.run, put_same, put_put]
  · simp only [loadOrder]
    have l1 : loadVec u32 (exDisk.put ["data", "ranks"] (.file (dataBytes u32 [0]))) (["data"] ++ ["ranks"]) = .ok [0] :=
      loadVec_file u32_ok _ (by decide) (put_same _ _ _)
    rw [l1]
    rfl

end Verif
