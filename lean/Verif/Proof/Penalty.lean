import Verif.Proof.PenaltyIds
import Verif.Proof.BitVec
import Verif.Spec.Alternatives
/- The penalties: what one round changes, and that everything is restored. -/
set_option linter.unusedSimpArgs false
set_option linter.unusedVariables false
namespace Verif
namespace Penalty
open GraphOps Spec Bits

/-- the server with other weights, counters and so on -/
def Server.at (S : Server) (fw times reset : List Nat) (cont : FastClear) (calls : Nat) : Server :=
  { S with
    forward := { S.orig with weight := fw }
    backward := { S.backward with weight := (backIds S.orig).map (fun e => fw.getD e 0) }
    times := times, reset := reset, cont := cont, calls := calls }

/-- tail and head of an edge -/
def Ends (g : FOGraph) (e u v : Nat) : Prop := ∃ a b, g.firstOut[u]? = some a ∧ g.firstOut[u + 1]? = some b ∧ a ≤ e ∧ e < b ∧ g.head[e]? = some v

/-- what the constructor establishes and nothing changes -/
structure Static (S : Server) : Prop where
  wf : S.orig.WF
  rev : ∀ v, v < S.orig.numNodes → ∃ ls, S.rev.linkIter v = some ls ∧ (ls.map Prod.snd).Nodup ∧ ∀ u e, (u, e) ∈ ls ↔ Ends S.orig e u v
  tail : S.tail.length = S.orig.numArcs
  ends : ∀ e, e < S.orig.numArcs → ∃ u v, S.tail[e]? = some u ∧ S.orig.head[e]? = some v ∧ u < S.orig.numNodes ∧ v < S.orig.numNodes ∧ Ends S.orig e u v
  f2bLen : S.f2b.length = S.orig.numArcs
  f2b : ∀ i e : Nat, (backIds S.orig)[i]? = some e → S.f2b[e]? = some i
  back : ∀ ws : List Nat, ws.length = S.orig.numArcs →
    reversed S.orig.numNodes S.orig.numArcs (FOGraph.linkIter ⟨S.orig.firstOut, S.orig.head, ws⟩) =
      some ⟨S.backward.firstOut, S.backward.head, (backIds S.orig).map (fun e => ws.getD e 0)⟩

theorem ends_lt {g : FOGraph} (hg : g.WF) {e u v : Nat} (h : Ends g e u v) : e < g.numArcs ∧ u < g.numNodes ∧ v < g.numNodes := by
  obtain ⟨a, b, h1, h2, h3, h4, h5⟩ := h
  refine ⟨(List.getElem?_eq_some_iff.1 h5).1, ?_, hg.heads _ (List.mem_of_getElem? h5)⟩
  have := (List.getElem?_eq_some_iff.1 h2).1
  simp only [FOGraph.numNodes]; omega

theorem mono_le {g : FOGraph} (hg : g.WF) : ∀ (k i : Nat) (a b : Nat), g.firstOut[i]? = some a → g.firstOut[i + k]? = some b → a ≤ b
  | 0, i, a, b, h1, h2 => by rw [Nat.add_zero] at h2; rw [h1] at h2; simp at h2; omega
  | k + 1, i, a, b, h1, h2 => by
    have hlt := (List.getElem?_eq_some_iff.1 h2).1
    have hlt' : i + k < g.firstOut.length := by omega
    have h3 := mono_le hg k i a _ h1 (List.getElem?_eq_getElem hlt')
    have h4 := hg.mono (i + k) _ b (List.getElem?_eq_getElem hlt') h2
    omega

theorem ends_unique {g : FOGraph} (hg : g.WF) {e u v u' v' : Nat} (h : Ends g e u v) (h' : Ends g e u' v') : u = u' ∧ v = v' := by
  obtain ⟨a, b, h1, h2, h3, h4, h5⟩ := h
  obtain ⟨a', b', e1, e2, e3, e4, e5⟩ := h'
  rw [h5] at e5; simp at e5
  refine ⟨?_, e5⟩
  rcases Nat.lt_trichotomy u u' with hlt | heq | hlt
  · have := mono_le hg (u' - (u + 1)) (u + 1) b a' h2 (by rw [show u + 1 + (u' - (u + 1)) = u' by omega]; exact e1)
    omega
  · exact heq
  · have := mono_le hg (u - (u' + 1)) (u' + 1) b' a e2 (by rw [show u' + 1 + (u - (u' + 1)) = u by omega]; exact h1)
    omega

theorem Static.tail_iff {S : Server} (h : Static S) {e u v : Nat} (he : Ends S.orig e u v) : S.tail[e]? = some u ∧ S.orig.head[e]? = some v := by
  obtain ⟨h1, _, _⟩ := ends_lt h.wf he
  obtain ⟨u', v', e1, e2, _, _, e3⟩ := h.ends e h1
  obtain ⟨rfl, rfl⟩ := ends_unique h.wf he e3
  exact ⟨e1, e2⟩

theorem ids_mem {g : FOGraph} (hg : g.WF) {u : Nat} (hu : u < g.numNodes) : ∃ ls, headIds g u = some ls ∧ (ls.map Prod.snd).Nodup ∧ ∀ v e, (v, e) ∈ ls ↔ Ends g e u v := by
  obtain ⟨l, a, b, h1, h2, h3, _, h4, _, h5⟩ := headIds_spec hg hu
  refine ⟨l, h1, h4, fun v e => ?_⟩
  rw [h5]
  constructor
  · rintro ⟨x1, x2, x3⟩; exact ⟨a, b, h2, h3, x1, x2, x3⟩
  · rintro ⟨a', b', x1, x2, x3, x4, x5⟩
    rw [h2] at x1; rw [h3] at x2; simp only [Option.some.injEq] at x1 x2; subst x1; subst x2
    exact ⟨x3, x4, x5⟩

section
variable {S : Server} {times reset : List Nat} {cont : FastClear} {calls : Nat}

theorem setWeight_at (h : Static S) {fw : List Nat} (hl : fw.length = S.orig.numArcs) {e w : Nat} (he : e < S.orig.numArcs) :
    setWeight (S.at fw times reset cont calls) e w = some (S.at (fw.set e w) times reset cont calls) := by
  have hp := backIds_perm h.wf
  have hlen : (backIds S.orig).length = S.orig.numArcs := by rw [hp.length_eq, List.length_range]
  obtain ⟨i, hi⟩ := List.mem_iff_getElem?.1 (hp.mem_iff.2 (show e ∈ List.range S.orig.numArcs by simpa using he))
  have hb := h.f2b i e hi
  have hil := (List.getElem?_eq_some_iff.1 hi).1
  have hnd : (backIds S.orig).Nodup := hp.nodup_iff.2 List.nodup_range
  simp only [setWeight, Server.at, upd_of_lt _ (show e < fw.length by omega), hb, Option.bind_eq_bind, Option.bind_some,
    upd_of_lt _ (show i < ((backIds S.orig).map (fun e => fw.getD e 0)).length by rw [List.length_map]; exact hil), Option.pure_def, Option.some.injEq]
  have : ((backIds S.orig).map (fun e => fw.getD e 0)).set i w = (backIds S.orig).map (fun x => (fw.set e w).getD x 0) := by
    apply List.ext_getElem?
    intro j
    rw [List.getElem?_map]
    by_cases hij : i = j
    · subst hij
      rw [List.getElem?_set_self (by rw [List.length_map]; exact hil), hi]
      simp [List.getD_eq_getElem?_getD, List.getElem?_set_self (show e < fw.length by omega)]
    · rw [List.getElem?_set_ne hij, List.getElem?_map]
      cases hx : (backIds S.orig)[j]? with
      | none => rfl
      | some x =>
        have hne : e ≠ x := by
          rintro rfl
          have := (List.getElem?_inj hil hnd).1 (hi.trans hx.symm)
          exact hij this
        simp [List.getD_eq_getElem?_getD, List.getElem?_set_ne hne]
  rw [this]

/-- times penalized -/
def tm (times : List Nat) (v : Nat) : Nat := times.getD v 0
/-- the weight of an edge -/
def wt (fw : List Nat) (e : Nat) : Nat := fw.getD e 0

theorem wt_get {fw : List Nat} {e : Nat} (h : e < fw.length) : fw[e]? = some (wt fw e) := by
  simp [wt, List.getD_eq_getElem?_getD, List.getElem?_eq_getElem h]
theorem tm_get {fw : List Nat} {e : Nat} (h : e < fw.length) : fw[e]? = some (tm fw e) := by
  simp [tm, List.getD_eq_getElem?_getD, List.getElem?_eq_getElem h]
theorem wt_set {fw : List Nat} {e x : Nat} (h : e < fw.length) (w : Nat) : wt (fw.set e w) x = if x = e then w else wt fw x := by
  by_cases hx : x = e
  · subst hx; simp [wt, List.getD_eq_getElem?_getD, List.getElem?_set_self h]
  · simp [wt, List.getD_eq_getElem?_getD, List.getElem?_set_ne (fun h => hx h.symm), hx]
theorem tm_set {fw : List Nat} {e x : Nat} (h : e < fw.length) (w : Nat) : tm (fw.set e w) x = if x = e then w else tm fw x := wt_set h w

/-- an edge that may be penalized: an end has been penalized less than five times -/
def isFresh (S : Server) (times : List Nat) (e : Nat) : Bool :=
  decide (tm times (wt S.tail e) < maxTimes ∨ tm times (wt S.orig.head e) < maxTimes)

theorem fresh_at (h : Static S) (ht : times.length = S.orig.numNodes) (fw : List Nat) {e : Nat} (he : e < S.orig.numArcs) :
    fresh (S.at fw times reset cont calls) e = some (isFresh S times e) := by
  obtain ⟨u, v, e1, e2, e3, e4, e5⟩ := h.ends e he
  have t1 : wt S.tail e = u := by simp [wt, List.getD_eq_getElem?_getD, e1]
  have t2 : wt S.orig.head e = v := by simp [wt, List.getD_eq_getElem?_getD, e2]
  simp only [fresh, Server.at, e1, e2, Option.bind_eq_bind, Option.bind_some, tm_get (show u < times.length by omega), tm_get (show v < times.length by omega),
    Option.pure_def, isFresh, t1, t2]
  split
  · rename_i hx; simp [hx]
  · rename_i hx; simp [hx]

/-- the first phase of a round -/
theorem edges_phase (h : Static S) (ht : times.length = S.orig.numNodes) {fw : List Nat} (hl : fw.length = S.orig.numArcs) (es : List Nat) (hnd : es.Nodup)
    (hes : ∀ e ∈ es, e < S.orig.numArcs ∧ wt fw e * 11 < U32) :
    ∃ fw', es.foldlM penalizeEdge (S.at fw times reset cont calls) = some (S.at fw' times reset cont calls) ∧ fw'.length = fw.length ∧
      ∀ e, wt fw' e = if e ∈ es ∧ isFresh S times e = true then wt fw e * 11 / 10 else wt fw e := by
  obtain ⟨sv, h1, fw', rfl, h2, h3⟩ := foldlM_inv penalizeEdge (fun P sv => ∃ fw', sv = S.at fw' times reset cont calls ∧ fw'.length = fw.length ∧
      ∀ e, wt fw' e = if e ∈ P ∧ isFresh S times e = true then wt fw e * 11 / 10 else wt fw e) es (by
    rintro P x Q sv hE ⟨fw', rfl, h1, h2⟩
    have hx : x ∈ es := by rw [hE]; simp
    obtain ⟨hxl, hxw⟩ := hes x hx
    have hxP : x ∉ P := by
      intro hxP
      rw [hE, List.nodup_append] at hnd
      exact hnd.2.2 x hxP x (by simp) rfl
    have hwx : wt fw' x = wt fw x := by rw [h2]; simp [hxP]
    unfold penalizeEdge
    simp only [fresh_at h ht _ hxl, Option.bind_eq_bind, Option.bind_some]
    cases hf : isFresh S times x with
    | true =>
      simp only [if_true]
      have hg : (S.at fw' times reset cont calls).forward.weight[x]? = some (wt fw x) := by
        show fw'[x]? = _
        rw [wt_get (by omega), hwx]
      simp only [hg, Option.bind_some, mul32, hxw, if_true]
      refine ⟨S.at (fw'.set x (wt fw x * 11 / 10)) times reset cont calls, setWeight_at h (by omega) hxl, _, rfl, by simp [h1], ?_⟩
      intro e
      rw [wt_set (by omega), h2 e]
      by_cases hex : e = x
      · subst hex; simp [hf]
      · simp [hex]
    | false =>
      refine ⟨S.at fw' times reset cont calls, by simp, _, rfl, h1, ?_⟩
      intro e
      rw [h2 e]
      by_cases hex : e = x
      · subst hex; simp [hf]
      · simp [hex]) (S.at fw times reset cont calls) ⟨fw, rfl, rfl, by simp⟩
  exact ⟨fw', h1, h2, h3⟩

/-- prefix sums -/
def sums (w : List Nat) : Nat → List Nat → List Nat
  | _, [] => []
  | st, e :: es => (st + wt w e) :: sums w (st + wt w e) es

theorem scan_spec {w : List Nat} : ∀ (es : List Nat) (st : Nat), (∀ e ∈ es, e < w.length) → st + lenOf w es < U32 → scan w st es = some (sums w st es)
  | [], _, _, _ => rfl
  | e :: es, st, h1, h2 => by
    have he := h1 e (by simp)
    have hl : lenOf w (e :: es) = wt w e + lenOf w es := by simp [lenOf, wt]
    rw [hl] at h2
    simp only [scan, wt_get he, Option.bind_eq_bind, Option.bind_some, add32_of_lt (show st + wt w e < U32 by omega),
      scan_spec es (st + wt w e) (fun x hx => h1 x (by simp [hx])) (by omega), Option.pure_def, sums]

theorem sums_last {w : List Nat} : ∀ (es : List Nat) (st : Nat), (st :: sums w st es).getLast? = some (st + lenOf w es)
  | [], st => by simp [sums, lenOf]
  | e :: es, st => by
    rw [sums, List.getLast?_cons_cons, sums_last es]
    simp [lenOf, wt]; omega

theorem sums_le {w : List Nat} : ∀ (es : List Nat) (st : Nat), ∀ x ∈ st :: sums w st es, x ≤ st + lenOf w es
  | [], st => by simp [sums, lenOf]
  | e :: es, st => by
    intro x hx
    simp only [sums, List.mem_cons] at hx
    have hl : lenOf w (e :: es) = wt w e + lenOf w es := by simp [lenOf, wt]
    rcases hx with rfl | hx
    · omega
    · have := sums_le es (st + wt w e) x (by simpa using hx)
      omega

theorem sum32_spec {w : List Nat} : ∀ (es : List Nat), (∀ e ∈ es, e < w.length) → lenOf w es < U32 → sum32 w es = some (lenOf w es)
  | [], _, _ => rfl
  | e :: es, h1, h2 => by
    have he := h1 e (by simp)
    have hl : lenOf w (e :: es) = wt w e + lenOf w es := by simp [lenOf, wt]
    rw [hl] at h2 ⊢
    simp only [sum32, wt_get he, Option.bind_eq_bind, Option.bind_some, sum32_spec es (fun x hx => h1 x (by simp [hx])) (by omega), add32_of_lt h2]

/-- penalties at the arcs of one node -/
theorem rejoin_links (h : Static S) (r dist total skip : Nat) (hd : dist ≤ total) (ht : 0 < total) (ls : List (Nat × Nat)) (hnd : (ls.map Prod.snd).Nodup)
    {fw : List Nat} (hl : fw.length = S.orig.numArcs) (hls : ∀ l ∈ ls, l.2 < S.orig.numArcs ∧ wt fw l.2 + r < U32) :
    ∃ fw', ls.foldlM (fun sv l => if l.1 ≠ skip then rejoin r dist total sv l.2 else some sv) (S.at fw times reset cont calls) = some (S.at fw' times reset cont calls) ∧
      fw'.length = fw.length ∧ ∀ e, wt fw e ≤ wt fw' e ∧ wt fw' e ≤ wt fw e + if e ∈ ls.map Prod.snd then r else 0 := by
  have hfrac : r * dist / total ≤ r := by
    apply Nat.div_le_of_le_mul
    rw [Nat.mul_comm total r]
    exact Nat.mul_le_mul_left r hd
  obtain ⟨sv, h1, fw', rfl, h2, h3⟩ := foldlM_inv (fun sv (l : Nat × Nat) => if l.1 ≠ skip then rejoin r dist total sv l.2 else some sv)
    (fun P sv => ∃ fw', sv = S.at fw' times reset cont calls ∧ fw'.length = fw.length ∧
      ∀ e, wt fw e ≤ wt fw' e ∧ wt fw' e ≤ wt fw e + if e ∈ P.map Prod.snd then r else 0) ls (by
    rintro P ⟨a, x⟩ Q sv hE ⟨fw', rfl, h1, h2⟩
    have hx : (a, x) ∈ ls := by rw [hE]; simp
    obtain ⟨hxl, hxw⟩ := hls _ hx
    simp only at hxl hxw
    have hxP : x ∉ P.map Prod.snd := by
      intro hxP
      rw [hE, List.map_append, List.nodup_append] at hnd
      exact hnd.2.2 x hxP x (by simp) rfl
    have hwx : wt fw' x = wt fw x := by
      have := h2 x
      rw [if_neg hxP] at this; omega
    by_cases hs : a = skip
    · refine ⟨S.at fw' times reset cont calls, by simp [hs], _, rfl, h1, ?_⟩
      intro e
      have := h2 e
      refine ⟨this.1, Nat.le_trans this.2 ?_⟩
      rw [List.map_append]
      by_cases he : e ∈ P.map Prod.snd
      · rw [if_pos he, if_pos (by simp only [List.mem_append]; exact Or.inl he)]
      · rw [if_neg he]; omega
    · have hg : (S.at fw' times reset cont calls).forward.weight[x]? = some (wt fw x) := by
        show fw'[x]? = _
        rw [wt_get (by omega), hwx]
      have hmod : r * dist / total % U32 ≤ r := Nat.le_trans (Nat.mod_le _ _) hfrac
      simp only [ne_eq, hs, not_false_eq_true, if_true, rejoin, hg, Option.bind_eq_bind, Option.bind_some, if_neg (show total ≠ 0 by omega),
        add32_of_lt (show wt fw x + r * dist / total % U32 < U32 by omega)]
      refine ⟨S.at (fw'.set x (wt fw x + r * dist / total % U32)) times reset cont calls, setWeight_at h (by omega) hxl, _, rfl, by simp [h1], ?_⟩
      intro e
      rw [wt_set (by omega)]
      by_cases hex : e = x
      · subst hex
        rw [if_pos rfl, if_pos (by simp)]
        omega
      · rw [if_neg hex]
        have := h2 e
        refine ⟨this.1, Nat.le_trans this.2 ?_⟩
        rw [List.map_append]
        by_cases he : e ∈ P.map Prod.snd
        · rw [if_pos he, if_pos (by simp only [List.mem_append]; exact Or.inl he)]
        · rw [if_neg he]; omega) (S.at fw times reset cont calls) ⟨fw, rfl, rfl, fun e => by simp⟩
  exact ⟨fw', h1, h2, h3⟩

/-- how often an edge is penalized for rejoining or leaving the path -/
def cnt (S : Server) (times : List Nat) (P : List ((Nat × Nat) × (Nat × Nat))) (e : Nat) : Nat :=
  (if tm times (wt S.orig.head e) < maxTimes then P.countP (fun x => x.1.2 == wt S.orig.head e) else 0) +
  (if tm times (wt S.tail e) < maxTimes then P.countP (fun x => x.1.1 == wt S.tail e) else 0)

theorem cnt_append (P Q : List ((Nat × Nat) × (Nat × Nat))) (e : Nat) : cnt S times (P ++ Q) e = cnt S times P e + cnt S times Q e := by
  simp only [cnt, List.countP_append]
  split <;> split <;> omega

theorem rejoin_one (h : Static S) (hT : times.length = S.orig.numNodes) (r total : Nat) (htot : 0 < total) (x : (Nat × Nat) × (Nat × Nat))
    (hx : x.1.1 < S.orig.numNodes ∧ x.1.2 < S.orig.numNodes ∧ x.2.1 ≤ total ∧ x.2.2 ≤ total) {fw : List Nat} (hl : fw.length = S.orig.numArcs)
    (hb : ∀ e, e < S.orig.numArcs → wt fw e + r * cnt S times [x] e < U32) :
    ∃ fw', rejoinStep r total (S.at fw times reset cont calls) x = some (S.at fw' times reset cont calls) ∧ fw'.length = fw.length ∧
      ∀ e, e < S.orig.numArcs → wt fw e ≤ wt fw' e ∧ wt fw' e ≤ wt fw e + r * cnt S times [x] e := by
  obtain ⟨⟨tl, hd⟩, td, hdd⟩ := x
  simp only at hx
  obtain ⟨hx1, hx2, hx3, hx4⟩ := hx
  have hcnt : ∀ e u v, Ends S.orig e u v → cnt S times [((tl, hd), (td, hdd))] e =
      (if tm times v < maxTimes then (if hd = v then 1 else 0) else 0) + (if tm times u < maxTimes then (if tl = u then 1 else 0) else 0) := by
    intro e u v he
    obtain ⟨e1, e2⟩ := h.tail_iff he
    have t1 : wt S.tail e = u := by simp [wt, List.getD_eq_getElem?_getD, e1]
    have t2 : wt S.orig.head e = v := by simp [wt, List.getD_eq_getElem?_getD, e2]
    simp only [cnt, t1, t2, List.countP_cons, List.countP_nil]
    by_cases k1 : hd = v <;> by_cases k2 : tl = u <;> simp [k1, k2]
  -- incoming edges of the head
  have step1 : ∃ fw1, (if tm times hd < maxTimes then (do
        let ls ← (S.at fw times reset cont calls).rev.linkIter hd
        ls.foldlM (fun sv l => if l.1 ≠ tl then rejoin r hdd total sv l.2 else some sv) (S.at fw times reset cont calls))
      else some (S.at fw times reset cont calls)) = some (S.at fw1 times reset cont calls) ∧ fw1.length = fw.length ∧
      ∀ e u v, Ends S.orig e u v → wt fw e ≤ wt fw1 e ∧ wt fw1 e ≤ wt fw e + if tm times v < maxTimes ∧ hd = v then r else 0 := by
    by_cases ha : tm times hd < maxTimes
    · obtain ⟨ls, l1, l2, l3⟩ := h.rev hd hx2
      obtain ⟨fw1, f1, f2, f3⟩ := rejoin_links (times := times) (reset := reset) (cont := cont) (calls := calls) h r hdd total tl hx4 htot ls l2 hl (by
        rintro ⟨u, e⟩ hle
        have he := (l3 u e).1 hle
        have helt := (ends_lt h.wf he).1
        refine ⟨helt, ?_⟩
        have := hb e helt
        rw [hcnt e u hd he, if_pos ha, if_pos rfl, Nat.mul_add] at this
        simp only at this ⊢
        omega)
      refine ⟨fw1, ?_, f2, ?_⟩
      · rw [if_pos ha]
        have : (S.at fw times reset cont calls).rev.linkIter hd = some ls := l1
        simp only [this, Option.bind_eq_bind, Option.bind_some]
        exact f1
      · intro e u v he
        have := f3 e
        by_cases hv : hd = v
        · subst hv
          have hm : e ∈ ls.map Prod.snd := List.mem_map.2 ⟨(u, e), (l3 u e).2 he, rfl⟩
          rw [if_pos hm] at this
          rw [if_pos ⟨ha, rfl⟩]; exact this
        · have hm : e ∉ ls.map Prod.snd := by
            intro hm
            obtain ⟨⟨u', e'⟩, h1, h2⟩ := List.mem_map.1 hm
            simp only at h2; subst h2
            exact hv (ends_unique h.wf he ((l3 u' e').1 h1)).2.symm
          rw [if_neg hm] at this
          exact ⟨this.1, Nat.le_trans this.2 (by omega)⟩
    · refine ⟨fw, by rw [if_neg ha], rfl, fun e u v he => ⟨Nat.le_refl _, by omega⟩⟩
  obtain ⟨fw1, s1, s2, s3⟩ := step1
  -- outgoing edges of the tail
  have step2 : ∃ fw2, (if tm times tl < maxTimes then (do
        let ls ← headIds S.orig tl
        ls.foldlM (fun sv l => if l.1 ≠ hd then rejoin r td total sv l.2 else some sv) (S.at fw1 times reset cont calls))
      else some (S.at fw1 times reset cont calls)) = some (S.at fw2 times reset cont calls) ∧ fw2.length = fw.length ∧
      ∀ e u v, Ends S.orig e u v → wt fw1 e ≤ wt fw2 e ∧ wt fw2 e ≤ wt fw1 e + if tm times u < maxTimes ∧ tl = u then r else 0 := by
    by_cases ha : tm times tl < maxTimes
    · obtain ⟨ls, l1, l2, l3⟩ := ids_mem h.wf hx1
      obtain ⟨fw2, f1, f2, f3⟩ := rejoin_links (times := times) (reset := reset) (cont := cont) (calls := calls) h r td total hd hx3 htot ls l2 (fw := fw1) (by omega) (by
        rintro ⟨v, e⟩ hle
        have he := (l3 v e).1 hle
        have helt := (ends_lt h.wf he).1
        refine ⟨helt, ?_⟩
        have h1 := hb e helt
        have h2 := (s3 e tl v he).2
        rw [hcnt e tl v he, if_pos ha, if_pos rfl, Nat.mul_add] at h1
        simp only at h1 h2 ⊢
        by_cases hv : hd = v
        · by_cases ht : tm times v < maxTimes
          · rw [if_pos ⟨ht, hv⟩] at h2; rw [if_pos ht, if_pos hv] at h1; omega
          · rw [if_neg (fun x => ht x.1)] at h2; omega
        · rw [if_neg (fun x => hv x.2)] at h2; omega)
      refine ⟨fw2, ?_, by omega, ?_⟩
      · rw [if_pos ha]
        simp only [l1, Option.bind_eq_bind, Option.bind_some]
        exact f1
      · intro e u v he
        have := f3 e
        by_cases hu : tl = u
        · subst hu
          have hm : e ∈ ls.map Prod.snd := List.mem_map.2 ⟨(v, e), (l3 v e).2 he, rfl⟩
          rw [if_pos hm] at this
          rw [if_pos ⟨ha, rfl⟩]; exact this
        · have hm : e ∉ ls.map Prod.snd := by
            intro hm
            obtain ⟨⟨v', e'⟩, h1, h2⟩ := List.mem_map.1 hm
            simp only at h2; subst h2
            exact hu (ends_unique h.wf he ((l3 v' e').1 h1)).1.symm
          rw [if_neg hm] at this
          exact ⟨this.1, Nat.le_trans this.2 (by omega)⟩
    · refine ⟨fw1, by rw [if_neg ha], s2, fun e u v he => ⟨Nat.le_refl _, by omega⟩⟩
  obtain ⟨fw2, t1, t2, t3⟩ := step2
  refine ⟨fw2, ?_, t2, ?_⟩
  · unfold rejoinStep
    have g1 : (S.at fw times reset cont calls).times[hd]? = some (tm times hd) := tm_get (show hd < times.length by omega)
    have g2 : (S.at fw1 times reset cont calls).times[tl]? = some (tm times tl) := tm_get (show tl < times.length by omega)
    simp only [g1, Option.bind_eq_bind, Option.bind_some]
    simp only [Option.bind_eq_bind] at s1 t1
    by_cases ha : tm times hd < maxTimes
    · rw [if_pos ha] at s1 ⊢
      rw [Option.bind_eq_some_iff] at s1
      obtain ⟨ls, q1, q2⟩ := s1
      simp only [q1, Option.bind_some, q2, g2]
      exact t1
    · rw [if_neg ha] at s1 ⊢
      simp only [Option.some.injEq] at s1
      rw [s1]
      simp only [g2, Option.bind_some]
      exact t1
  · intro e he
    obtain ⟨u, v, _, _, _, _, hends⟩ := h.ends e he
    have a1 := s3 e u v hends
    have a2 := t3 e u v hends
    rw [hcnt e u v hends]
    refine ⟨by omega, ?_⟩
    rw [Nat.mul_add]
    have b1 : (if tm times v < maxTimes ∧ hd = v then r else 0) = r * (if tm times v < maxTimes then (if hd = v then 1 else 0) else 0) := by
      by_cases x1 : tm times v < maxTimes <;> by_cases x2 : hd = v <;> simp [x1, x2]
    have b2 : (if tm times u < maxTimes ∧ tl = u then r else 0) = r * (if tm times u < maxTimes then (if tl = u then 1 else 0) else 0) := by
      by_cases x1 : tm times u < maxTimes <;> by_cases x2 : tl = u <;> simp [x1, x2]
    rw [← b1, ← b2]
    omega

/-- the second phase of a round -/
theorem rejoin_phase (h : Static S) (hT : times.length = S.orig.numNodes) (r total : Nat) (xs : List ((Nat × Nat) × (Nat × Nat))) (htot : xs ≠ [] → 0 < total)
    (hx : ∀ x ∈ xs, x.1.1 < S.orig.numNodes ∧ x.1.2 < S.orig.numNodes ∧ x.2.1 ≤ total ∧ x.2.2 ≤ total) {fw : List Nat} (hl : fw.length = S.orig.numArcs)
    (hb : ∀ e, e < S.orig.numArcs → wt fw e + r * cnt S times xs e < U32) :
    ∃ fw', xs.foldlM (rejoinStep r total) (S.at fw times reset cont calls) = some (S.at fw' times reset cont calls) ∧ fw'.length = fw.length ∧
      ∀ e, e < S.orig.numArcs → wt fw e ≤ wt fw' e ∧ wt fw' e ≤ wt fw e + r * cnt S times xs e := by
  obtain ⟨sv, h1, fw', rfl, h2, h3⟩ := foldlM_inv (rejoinStep r total) (fun P sv => ∃ fw', sv = S.at fw' times reset cont calls ∧ fw'.length = fw.length ∧
      ∀ e, e < S.orig.numArcs → wt fw e ≤ wt fw' e ∧ wt fw' e ≤ wt fw e + r * cnt S times P e) xs (by
    rintro P x Q sv hE ⟨fw', rfl, h1, h2⟩
    have hxm : x ∈ xs := by rw [hE]; simp
    have hsplit : ∀ e, cnt S times xs e = cnt S times P e + (cnt S times [x] e + cnt S times Q e) := by
      intro e; rw [hE, cnt_append, show x :: Q = [x] ++ Q from rfl, cnt_append]
    obtain ⟨fw2, f1, f2, f3⟩ := rejoin_one (reset := reset) (cont := cont) (calls := calls) h hT r total (htot (by rintro rfl; simp at hxm)) x (hx x hxm) (fw := fw') (by omega) (by
      intro e he
      have a := hb e he
      have b := h2 e he
      rw [hsplit, Nat.mul_add, Nat.mul_add] at a
      omega)
    refine ⟨_, f1, fw2, rfl, by omega, ?_⟩
    intro e he
    have a := f3 e he
    have b := h2 e he
    rw [cnt_append, Nat.mul_add]
    omega) (S.at fw times reset cont calls) ⟨fw, rfl, rfl, fun e he => ⟨Nat.le_refl _, by omega⟩⟩
  exact ⟨fw', h1, h2, h3⟩

/-- counting the visits -/
theorem mark_spec (h : Static S) (hT : times.length = S.orig.numNodes) (fw : List Nat) (nodes : List Nat) (hnd : nodes.Nodup) (hn : ∀ v ∈ nodes, v < S.orig.numNodes) :
    ∃ any times' reset', mark (S.at fw times reset cont calls) nodes = some (any, S.at fw times' reset' cont calls) ∧ times'.length = times.length ∧
      (∀ v, tm times' v = if v ∈ nodes ∧ tm times v < maxTimes then tm times v + 1 else tm times v) ∧
      (∀ v, v ∈ reset' ↔ v ∈ reset ∨ (v ∈ nodes ∧ tm times v = 0)) ∧ (any = true ↔ ∃ v ∈ nodes, tm times v < maxTimes) := by
  obtain ⟨sv, h1, any, times', reset', rfl, h2, h3, h4, h5⟩ := foldlM_inv markNode (fun P st => ∃ any times' reset', st = (any, S.at fw times' reset' cont calls) ∧
      times'.length = times.length ∧ (∀ v, tm times' v = if v ∈ P ∧ tm times v < maxTimes then tm times v + 1 else tm times v) ∧
      (∀ v, v ∈ reset' ↔ v ∈ reset ∨ (v ∈ P ∧ tm times v = 0)) ∧ (any = true ↔ ∃ v ∈ P, tm times v < maxTimes)) nodes (by
    rintro P x Q st hE ⟨any, times', reset', rfl, h1, h2, h3, h4⟩
    have hxm : x ∈ nodes := by rw [hE]; simp
    have hxl := hn x hxm
    have hxP : x ∉ P := by
      intro hxP
      rw [hE, List.nodup_append] at hnd
      exact hnd.2.2 x hxP x (by simp) rfl
    have hx : tm times' x = tm times x := by rw [h2]; simp [hxP]
    have hg : (S.at fw times' reset' cont calls).times[x]? = some (tm times x) := by
      show times'[x]? = _
      rw [tm_get (by omega), hx]
    unfold markNode
    simp only [hg, Option.bind_eq_bind, Option.bind_some]
    have hif : (if tm times x = 0 then { S.at fw times' reset' cont calls with reset := (S.at fw times' reset' cont calls).reset ++ [x] } else S.at fw times' reset' cont calls) =
        S.at fw times' (if tm times x = 0 then reset' ++ [x] else reset') cont calls := by
      split <;> rfl
    rw [hif]
    have hreset : ∀ v, v ∈ (if tm times x = 0 then reset' ++ [x] else reset') ↔ v ∈ reset ∨ (v ∈ P ++ [x] ∧ tm times v = 0) := by
      intro v
      by_cases hz : tm times x = 0
      · rw [if_pos hz, List.mem_append, h3]
        simp only [List.mem_singleton, List.mem_append]
        constructor
        · rintro ((a | a) | rfl)
          · exact Or.inl a
          · exact Or.inr ⟨Or.inl a.1, a.2⟩
          · exact Or.inr ⟨Or.inr rfl, hz⟩
        · rintro (a | ⟨a | rfl, b⟩)
          · exact Or.inl (Or.inl a)
          · exact Or.inl (Or.inr ⟨a, b⟩)
          · exact Or.inr rfl
      · rw [if_neg hz, h3]
        simp only [List.mem_singleton, List.mem_append]
        constructor
        · rintro (a | a)
          · exact Or.inl a
          · exact Or.inr ⟨Or.inl a.1, a.2⟩
        · rintro (a | ⟨a | rfl, b⟩)
          · exact Or.inl a
          · exact Or.inr ⟨a, b⟩
          · exact absurd b hz
    by_cases hlt : tm times x < maxTimes
    · rw [if_pos hlt]
      have hu : upd (S.at fw times' (if tm times x = 0 then reset' ++ [x] else reset') cont calls).times x (tm times x + 1) = some (times'.set x (tm times x + 1)) :=
        upd_of_lt _ (show x < times'.length by omega)
      simp only [hu, Option.bind_some, Option.pure_def]
      refine ⟨_, rfl, true, times'.set x (tm times x + 1), _, rfl, by simp [h1], ?_, hreset, ?_⟩
      · intro v
        rw [tm_set (by omega), h2 v]
        by_cases hv : v = x
        · subst hv; simp [hlt]
        · simp [hv]
      · simp only [true_iff]
        exact ⟨x, by simp, hlt⟩
    · rw [if_neg hlt]
      refine ⟨_, rfl, any, times', _, rfl, h1, ?_, hreset, ?_⟩
      · intro v
        rw [h2 v]
        by_cases hv : v = x
        · subst hv; simp [hlt]
        · simp [hv]
      · rw [h4]
        constructor
        · rintro ⟨v, a, b⟩; exact ⟨v, by simp [a], b⟩
        · rintro ⟨v, a, b⟩
          simp only [List.mem_append, List.mem_singleton] at a
          rcases a with a | rfl
          · exact ⟨v, a, b⟩
          · exact absurd b hlt) (false, S.at fw times reset cont calls) ⟨false, times, reset, rfl, rfl, by simp, by simp, by simp⟩
  exact ⟨any, times', reset', h1, h2, h3, h4, h5⟩

/-- restoring the edges of a list -/
theorem restore_links (h : Static S) (ls : List (Nat × Nat)) (hls : ∀ l ∈ ls, l.2 < S.orig.numArcs) {fw : List Nat} (hl : fw.length = S.orig.numArcs) :
    ∃ fw', ls.foldlM (fun sv l => restoreEdge sv l.2) (S.at fw times reset cont calls) = some (S.at fw' times reset cont calls) ∧ fw'.length = fw.length ∧
      ∀ e, wt fw' e = if e ∈ ls.map Prod.snd then wt S.orig.weight e else wt fw e := by
  obtain ⟨sv, h1, fw', rfl, h2, h3⟩ := foldlM_inv (fun sv (l : Nat × Nat) => restoreEdge sv l.2) (fun P sv => ∃ fw', sv = S.at fw' times reset cont calls ∧
      fw'.length = fw.length ∧ ∀ e, wt fw' e = if e ∈ P.map Prod.snd then wt S.orig.weight e else wt fw e) ls (by
    rintro P ⟨a, x⟩ Q sv hE ⟨fw', rfl, h1, h2⟩
    have hxl : x < S.orig.numArcs := hls (a, x) (by rw [hE]; simp)
    have hw : x < S.orig.weight.length := by rw [h.wf.weights]; exact hxl
    have hg : (S.at fw' times reset cont calls).orig.weight[x]? = some (wt S.orig.weight x) := wt_get hw
    simp only [restoreEdge, hg, Option.bind_eq_bind, Option.bind_some]
    refine ⟨_, setWeight_at h (by omega) hxl, _, rfl, by simp [h1], ?_⟩
    intro e
    rw [wt_set (by omega), h2 e]
    by_cases hex : e = x
    · subst hex; simp
    · have hm : e ∈ (P ++ [(a, x)]).map Prod.snd ↔ e ∈ P.map Prod.snd := by
        rw [List.map_append, List.mem_append]
        simp [hex]
      rw [if_neg hex]
      by_cases hp : e ∈ P.map Prod.snd
      · rw [if_pos hp, if_pos (hm.2 hp)]
      · rw [if_neg hp, if_neg (fun h => hp (hm.1 h))]) (S.at fw times reset cont calls) ⟨fw, rfl, rfl, by simp⟩
  exact ⟨fw', h1, h2, h3⟩

theorem resetNode_spec (h : Static S) (hT : times.length = S.orig.numNodes) {fw : List Nat} (hl : fw.length = S.orig.numArcs) {v : Nat} (hv : v < S.orig.numNodes) :
    ∃ fw', resetNode (S.at fw times reset cont calls) v = some (S.at fw' (times.set v 0) reset cont calls) ∧ fw'.length = fw.length ∧
      ∀ e a b, Ends S.orig e a b → wt fw' e = if a = v ∨ b = v then wt S.orig.weight e else wt fw e := by
  obtain ⟨l1, a1, _, a2⟩ := ids_mem h.wf hv
  obtain ⟨l2, b1, _, b2⟩ := h.rev v hv
  obtain ⟨f1, c1, c2, c3⟩ := restore_links (times := times.set v 0) (reset := reset) (cont := cont) (calls := calls) h l1
    (fun l hl => (ends_lt h.wf ((a2 l.1 l.2).1 hl)).1) hl
  obtain ⟨f2, d1, d2, d3⟩ := restore_links (times := times.set v 0) (reset := reset) (cont := cont) (calls := calls) h l2
    (fun l hl => (ends_lt h.wf ((b2 l.1 l.2).1 hl)).1) (fw := f1) (by omega)
  refine ⟨f2, ?_, by omega, ?_⟩
  · unfold resetNode
    have hu : upd (S.at fw times reset cont calls).times v 0 = some (times.set v 0) := upd_of_lt _ (show v < times.length by omega)
    simp only [hu, Option.bind_eq_bind, Option.bind_some]
    have g1 : headIds (S.at fw times reset cont calls).orig v = some l1 := a1
    simp only [g1, Option.bind_some]
    have hat : { S.at fw times reset cont calls with times := times.set v 0 } = S.at fw (times.set v 0) reset cont calls := rfl
    rw [hat, c1]
    simp only [Option.bind_some]
    have g2 : (S.at f1 (times.set v 0) reset cont calls).rev.linkIter v = some l2 := b1
    simp only [g2, Option.bind_some]
    exact d1
  · intro e a b he
    have m1 : e ∈ l1.map Prod.snd ↔ a = v := by
      constructor
      · intro hm
        obtain ⟨⟨x, y⟩, h1, h2⟩ := List.mem_map.1 hm
        simp only at h2; subst h2
        exact (ends_unique h.wf he ((a2 x y).1 h1)).1
      · rintro rfl
        exact List.mem_map.2 ⟨(b, e), (a2 b e).2 he, rfl⟩
    have m2 : e ∈ l2.map Prod.snd ↔ b = v := by
      constructor
      · intro hm
        obtain ⟨⟨x, y⟩, h1, h2⟩ := List.mem_map.1 hm
        simp only at h2; subst h2
        exact (ends_unique h.wf he ((b2 x y).1 h1)).2
      · rintro rfl
        exact List.mem_map.2 ⟨(a, e), (b2 a e).2 he, rfl⟩
    rw [d3, c3]
    by_cases x1 : a = v <;> by_cases x2 : b = v <;> simp [m1, m2, x1, x2]

/-- everything is restored -/
theorem resetAll_spec (h : Static S) (hT : times.length = S.orig.numNodes) {fw : List Nat} (hl : fw.length = S.orig.numArcs) (hr : ∀ v ∈ reset, v < S.orig.numNodes)
    (hch : ∀ e a b, Ends S.orig e a b → wt fw e ≠ wt S.orig.weight e → a ∈ reset ∨ b ∈ reset) (htm : ∀ v, tm times v ≠ 0 → v ∈ reset) :
    resetAll (S.at fw times reset cont calls) = some (S.at S.orig.weight (List.replicate S.orig.numNodes 0) [] cont calls) := by
  obtain ⟨sv, h1, fw', times', rfl, h2, h3, h4, h5⟩ := foldlM_inv resetNode (fun P sv => ∃ fw' times', sv = S.at fw' times' reset cont calls ∧ fw'.length = fw.length ∧
      times'.length = times.length ∧ (∀ e a b, Ends S.orig e a b → wt fw' e = if a ∈ P ∨ b ∈ P then wt S.orig.weight e else wt fw e) ∧
      ∀ v, tm times' v = if v ∈ P then 0 else tm times v) reset (by
    rintro P x Q sv hE ⟨fw', times', rfl, h1, h2, h3, h4⟩
    have hx := hr x (by rw [hE]; simp)
    obtain ⟨f, g1, g2, g3⟩ := resetNode_spec (reset := reset) (cont := cont) (calls := calls) h (times := times') (by omega) (fw := fw') (by omega) hx
    refine ⟨_, g1, f, _, rfl, by omega, by simp [h2], ?_, ?_⟩
    · intro e a b he
      rw [g3 e a b he, h3 e a b he]
      simp only [List.mem_append, List.mem_singleton]
      by_cases x1 : a = x
      · simp [x1]
      · by_cases x2 : b = x
        · simp [x2]
        · simp [x1, x2]
    · intro v
      rw [tm_set (by omega), h4 v]
      by_cases hv : v = x
      · subst hv; simp
      · simp [hv]) (S.at fw times reset cont calls) ⟨fw, times, rfl, rfl, rfl, by simp, by simp⟩
  have e1 : fw' = S.orig.weight := by
    have hw := h.wf.weights
    apply List.ext_getElem?
    intro e
    by_cases he : e < S.orig.numArcs
    · obtain ⟨a, b, _, _, _, _, hends⟩ := h.ends e he
      have he' : e < S.orig.weight.length := by rw [hw]; exact he
      rw [wt_get (by omega), wt_get he', h4 e a b hends]
      by_cases hm : a ∈ reset ∨ b ∈ reset
      · rw [if_pos hm]
      · rw [if_neg hm]
        by_cases hne : wt fw e = wt S.orig.weight e
        · rw [hne]
        · exact absurd (hch e a b hends hne) hm
    · have he' : ¬ e < S.orig.weight.length := by rw [hw]; exact he
      rw [List.getElem?_eq_none (by omega), List.getElem?_eq_none (by omega)]
  have e2 : times' = List.replicate S.orig.numNodes 0 := by
    apply List.ext_getElem?
    intro v
    by_cases hv : v < S.orig.numNodes
    · rw [tm_get (by omega), h5 v, List.getElem?_replicate, if_pos hv]
      by_cases hm : v ∈ reset
      · rw [if_pos hm]
      · rw [if_neg hm]
        by_cases hz : tm times v = 0
        · rw [hz]
        · exact absurd (htm v hz) hm
    · rw [List.getElem?_eq_none (by omega), List.getElem?_eq_none (by simp; omega)]
  subst e1; subst e2
  have hrs : (S.at fw times reset cont calls).reset = reset := rfl
  unfold resetAll
  rw [hrs, h1]
  rfl

end
end Penalty
end Verif
