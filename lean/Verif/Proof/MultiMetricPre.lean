import Verif.Proof.MultiMetricSelect
import Verif.Proof.MultiMetricTime
import Verif.Props.Merging
set_option linter.unusedSimpArgs false
set_option linter.unusedVariables false
/- The metrics computed before queries. -/
namespace Verif
namespace MultiMetric
open Spec CCH

section
variable {bs : List Nat → Nat → Lookup} {g : TD.Graph}

theorem val_eq {e : Nat} {f : Plf.Fn} (h : g.ttf e = some f) : g.val e = Plf.valAt f := by funext t; simp [TD.Graph.val, h]

theorem mapM_range {m : Nat} {f : Nat → Option Nat} (h : ∀ e, e < m → ∃ w, f e = some w) :
    ∃ x, (List.range m).mapM f = some x ∧ x.length = m ∧ ∀ e, e < m → ∃ w, x[e]? = some w ∧ f e = some w := by
  obtain ⟨x, hx⟩ := mapM_exists (f := f) (l := List.range m) (fun e he => h e (List.mem_range.1 he))
  obtain ⟨h1, h2⟩ := mapM_index hx
  refine ⟨x, hx, by simpa using h1, ?_⟩
  intro e he
  exact h2 e e (by simp [he])

theorem lowerMetric_spec (hb : BinarySearch bs) (hg : g.Valid) {r : TRange} (hr : r.start < r.fin) (hr2 : r.fin < 2 * PERIOD ∨ r.start = 0) {B : Nat}
    (hB : ∀ e t, e < g.head.length → g.val e t ≤ B) :
    ∃ x, lowerMetric bs g r = some x ∧ x.length = g.head.length ∧ (∀ w ∈ x, w ≤ B) ∧
      ∀ e w t, x[e]? = some w → r.start ≤ t → t ≤ r.fin → w ≤ g.val e t := by
  have key : ∀ e, e < g.head.length → ∃ w, ((g.ttf e).bind (fun f => Plf.lowerInRange bs f r.start r.fin)) = some w ∧
      (∀ t, r.start ≤ t → t ≤ r.fin → w ≤ g.val e t) ∧ ∃ t, g.val e t = w := by
    intro e he
    obtain ⟨f, h1, h2⟩ := hg.ttf e he
    obtain ⟨w, k1, k2, t, _, _, k3⟩ := Plf.lowerInRange_spec hb h2 hr (by omega)
    refine ⟨w, by rw [h1]; exact k1, ?_, t, by rw [val_eq h1]; exact k3⟩
    rw [val_eq h1]; exact k2
  obtain ⟨x, h1, h2, h3⟩ := mapM_range (m := g.head.length) (f := fun e => (g.ttf e).bind (fun f => Plf.lowerInRange bs f r.start r.fin))
    (fun e he => (key e he).imp (fun w hw => hw.1))
  have h4 : ∀ e w, x[e]? = some w → (∀ t, r.start ≤ t → t ≤ r.fin → w ≤ g.val e t) ∧ ∃ t, g.val e t = w := by
    intro e w hw
    have he : e < g.head.length := by rw [← h2]; exact (List.getElem?_eq_some_iff.1 hw).1
    obtain ⟨w', k1, k2⟩ := h3 e he
    rw [hw] at k1; injection k1 with k1; subst k1
    obtain ⟨w', k3, k4⟩ := key e he
    rw [k2] at k3; injection k3 with k3; subst k3
    exact k4
  refine ⟨x, h1, h2, ?_, fun e w t hw => (h4 e w hw).1 t⟩
  intro w hw
  obtain ⟨e, he, rfl⟩ := List.getElem_of_mem hw
  obtain ⟨t, ht⟩ := (h4 e _ (List.getElem?_eq_getElem he)).2
  rw [← ht]; exact hB e t (by omega)

theorem upperMetric_spec (hb : BinarySearch bs) (hg : g.Valid) {B : Nat} (hB : ∀ e t, e < g.head.length → g.val e t ≤ B) :
    ∃ x, upperMetric g = some x ∧ x.length = g.head.length ∧ (∀ w ∈ x, w ≤ B) ∧ ∀ e w t, x[e]? = some w → g.val e t ≤ w := by
  have key : ∀ e, e < g.head.length → ∃ w, ((g.ttf e).bind (fun f => Plf.upperBound f)) = some w ∧
      (∀ t, g.val e t ≤ w) ∧ ∃ t, g.val e t = w := by
    intro e he
    obtain ⟨f, h1, h2⟩ := hg.ttf e he
    obtain ⟨_, lo, hi, _, _, _, _, k1, _, _, _, k2⟩ := C44_eval hb h2 0
    refine ⟨hi, by rw [h1]; exact k1, ?_, ?_⟩
    · intro t
      obtain ⟨v, lo', hi', e1, _, _, _, e2, _, e3, _⟩ := C44_eval hb h2 t
      rw [(Plf.valAt_spec hb h2 t).1] at e1
      rw [k1] at e2
      injection e1 with e1; injection e2 with e2
      rw [val_eq h1, e1, e2]; exact e3
    · obtain ⟨i, hi', e1⟩ := List.getElem_of_mem k2
      have e2 : f.tt[i]? = some hi := by rw [List.getElem?_eq_getElem hi', e1]
      have e3 : i < f.dt.length := by rw [h2.len]; exact hi'
      have e4 := Plf.value_on h2 (List.getElem?_eq_getElem e3) e2
      exact ⟨_, by rw [val_eq h1]; exact Plf.val_of_value hb h2 (Plf.dt_le_period h2 (List.getElem?_eq_getElem e3)) e4⟩
  obtain ⟨x, h1, h2, h3⟩ := mapM_range (m := g.head.length) (f := fun e => (g.ttf e).bind (fun f => Plf.upperBound f))
    (fun e he => (key e he).imp (fun w hw => hw.1))
  have h4 : ∀ e w, x[e]? = some w → (∀ t, g.val e t ≤ w) ∧ ∃ t, g.val e t = w := by
    intro e w hw
    have he : e < g.head.length := by rw [← h2]; exact (List.getElem?_eq_some_iff.1 hw).1
    obtain ⟨w', k1, k2⟩ := h3 e he
    rw [hw] at k1; injection k1 with k1; subst k1
    obtain ⟨w', k3, k4⟩ := key e he
    rw [k2] at k3; injection k3 with k3; subst k3
    exact k4
  refine ⟨x, h1, h2, ?_, fun e w t hw => (h4 e w hw).1 t⟩
  intro w hw
  obtain ⟨e, he, rfl⟩ := List.getElem_of_mem hw
  obtain ⟨t, ht⟩ := (h4 e _ (List.getElem?_eq_getElem he)).2
  rw [← ht]; exact hB e t (by omega)

/-! ### Merging -/

theorem regroup_one (a : Nat) : ∀ (grp : List Nat) (rs : List Entry), (∀ i ∈ grp, i < rs.length) →
    ∃ rs', grp.foldlM (fun rs i => do
      let r ← rs[i]?
      upd rs i (r.1, a, r.2.2)) rs = some rs' ∧ rs'.length = rs.length ∧
      ∀ (i : Nat) (r : Entry), rs[i]? = some r → rs'[i]? = some (if i ∈ grp then (r.1, a, r.2.2) else r) := by
  intro grp
  induction grp with
  | nil => intro rs _; exact ⟨rs, rfl, rfl, by simp⟩
  | cons j grp ih =>
    intro rs h
    have hj := h j List.mem_cons_self
    obtain ⟨rs', k1, k2, k3⟩ := ih (rs.set j (rs[j].1, a, rs[j].2.2)) (by
      intro i hi; rw [List.length_set]; exact h i (List.mem_cons_of_mem _ hi))
    refine ⟨rs', ?_, by simpa using k2, ?_⟩
    · simp only [List.foldlM_cons, List.getElem?_eq_getElem hj, upd_of_lt _ hj, Option.bind_eq_bind, Option.bind_some]
      exact k1
    · intro i r hr
      by_cases hij : i = j
      · subst hij
        have := k3 i (rs[i].1, a, rs[i].2.2) (by rw [List.getElem?_set_self hj])
        rw [List.getElem?_eq_getElem hj] at hr; injection hr with hr; subst hr
        rw [this]
        simp
      · have := k3 i r (by rw [List.getElem?_set_ne (by omega)]; exact hr)
        rw [this]
        simp [hij]

theorem regroup_aux : ∀ (groups : List (List Nat)) (k : Nat) (rs : List Entry), (∀ g ∈ groups, ∀ i ∈ g, i < rs.length) →
    ∃ rs', (groups.zipIdx k).foldlM (fun rs (p : List Nat × Nat) => p.1.foldlM (fun rs i => do
      let r ← rs[i]?
      upd rs i (r.1, p.2 % 65536, r.2.2)) rs) rs = some rs' ∧ rs'.length = rs.length ∧
      ∀ (i : Nat) (r : Entry), rs[i]? = some r → ∃ idx, rs'[i]? = some (r.1, idx, r.2.2) ∧
        ((∃ (a : Nat) (g : List Nat), groups[a]? = some g ∧ i ∈ g ∧ idx = (k + a) % 65536) ∨ (idx = r.2.1 ∧ ∀ g ∈ groups, i ∉ g)) := by
  intro groups
  induction groups with
  | nil => intro k rs _; exact ⟨rs, rfl, rfl, fun i r hr => ⟨r.2.1, by rw [hr], .inr ⟨rfl, by simp⟩⟩⟩
  | cons g groups ih =>
    intro k rs h
    obtain ⟨rs1, k1, k2, k3⟩ := regroup_one (k % 65536) g rs (h g List.mem_cons_self)
    obtain ⟨rs2, j1, j2, j3⟩ := ih (k + 1) rs1 (fun g' hg' i hi => by rw [k2]; exact h g' (List.mem_cons_of_mem _ hg') i hi)
    refine ⟨rs2, ?_, by rw [j2, k2], ?_⟩
    · simp only [List.zipIdx_cons, List.foldlM_cons, Option.bind_eq_bind] at k1 j1 ⊢
      rw [k1]; exact j1
    · intro i r hr
      have h3 := k3 i r hr
      obtain ⟨idx, e1, e2⟩ := j3 i _ h3
      refine ⟨idx, ?_, ?_⟩
      · rw [e1]; by_cases hi : i ∈ g <;> simp [hi]
      · rcases e2 with ⟨a, g', f1, f2, f3⟩ | ⟨f1, f2⟩
        · exact .inl ⟨a + 1, g', by simpa using f1, f2, by rw [f3]; congr 1; omega⟩
        · by_cases hi : i ∈ g
          · left
            refine ⟨0, g, rfl, hi, ?_⟩
            rw [f1]; simp [hi]
          · right
            simp only [hi, if_false] at f1
            refine ⟨f1, ?_⟩
            intro g' hg'
            rcases List.mem_cons.1 hg' with rfl | hg'
            · exact hi
            · exact f2 g' hg'

theorem groupMetric_spec {m B : Nat} {metrics : List (List Nat)} (hl : ∀ x ∈ metrics, x.length = m) (hB : ∀ x ∈ metrics, ∀ w ∈ x, w ≤ B) {grp : List Nat}
    (hne : grp ≠ []) (hlt : ∀ i ∈ grp, i < metrics.length) :
    ∃ y, groupMetric m metrics grp = some y ∧ y.length = m ∧ (∀ w ∈ y, w ≤ B) ∧
      ∀ (i : Nat) (x : List Nat) (e w : Nat), i ∈ grp → metrics[i]? = some x → x[e]? = some w → ∃ w', y[e]? = some w' ∧ w' ≤ w := by
  have key : ∀ e, e < m → ∃ w, ((grp.mapM (fun i => (metrics[i]?).bind (fun x => x[e]?))).bind (fun ws => ws.min?)) = some w ∧ w ≤ B ∧
      ∀ (i : Nat) (x : List Nat) (v : Nat), i ∈ grp → metrics[i]? = some x → x[e]? = some v → w ≤ v := by
    intro e he
    have hget : ∀ i ∈ grp, ∃ v, ((metrics[i]?).bind (fun x => x[e]?)) = some v ∧ v ≤ B := by
      intro i hi
      have h1 := hlt i hi
      have h2 : metrics[i] ∈ metrics := List.getElem_mem h1
      have h3 : e < metrics[i].length := by rw [hl _ h2]; exact he
      exact ⟨metrics[i][e], by rw [List.getElem?_eq_getElem h1, Option.bind_some, List.getElem?_eq_getElem h3], hB _ h2 _ (List.getElem_mem h3)⟩
    obtain ⟨ws, hws⟩ := mapM_exists (fun i hi => (hget i hi).imp (fun _ h => h.1))
    have hmem := mem_of_mapM hws
    obtain ⟨i, hi⟩ := List.exists_mem_of_ne_nil _ hne
    obtain ⟨v, hv, _⟩ := hget i hi
    obtain ⟨w, hw⟩ := Option.isSome_iff_exists.1 (List.isSome_min?_of_mem ((hmem v).2 ⟨i, hi, hv⟩))
    obtain ⟨h1, h2⟩ := List.min?_eq_some_iff.1 hw
    refine ⟨w, by rw [hws]; exact hw, ?_, ?_⟩
    · obtain ⟨j, hj, hjw⟩ := (hmem w).1 h1
      obtain ⟨v', hv', hle⟩ := hget j hj
      rw [hjw] at hv'; injection hv' with hv'; omega
    · intro i x v hi hx hv
      exact h2 v ((hmem v).2 ⟨i, hi, by rw [hx]; exact hv⟩)
  obtain ⟨y, h1, h2, h3⟩ := mapM_range (m := m) (f := fun e => (grp.mapM (fun i => (metrics[i]?).bind (fun x => x[e]?))).bind (fun ws => ws.min?))
    (fun e he => (key e he).imp (fun w hw => hw.1))
  refine ⟨y, h1, h2, ?_, ?_⟩
  · intro w hw
    obtain ⟨e, he, rfl⟩ := List.getElem_of_mem hw
    obtain ⟨w, k1, k2⟩ := h3 e (by omega)
    obtain ⟨w', k3, k4, _⟩ := key e (by omega)
    rw [List.getElem?_eq_getElem he] at k1
    rw [k2] at k3; injection k3 with k3; injection k1 with k1
    omega
  · intro i x e v hi hx hv
    have he : e < m := by rw [← hl x (List.mem_of_getElem? hx)]; exact (List.getElem?_eq_some_iff.1 hv).1
    obtain ⟨w, k1, k2⟩ := h3 e he
    obtain ⟨w', k3, k4, k5⟩ := key e he
    rw [k2] at k3; injection k3 with k3; subst k3
    exact ⟨w, k1, k5 i x v hi hx hv⟩

/-! ### The table -/

/-- ranges with lower bounds for them -/
structure Table (g : TD.Graph) (B : Nat) (ranges : List Entry) (metrics : List (List Nat)) : Prop where
  ok : RangesOK ranges
  len : ∀ x ∈ metrics, x.length = g.head.length
  small : ∀ x ∈ metrics, ∀ w ∈ x, w ≤ B
  low : ∀ r ∈ ranges, ∃ x, metrics[r.2.1]? = some x ∧ ∀ e w t, x[e]? = some w → r.1.start ≤ t → t < r.1.fin → w ≤ g.val e t

theorem table_spec (hb : BinarySearch bs) (hg : g.Valid) {B : Nat} (hB : ∀ e t, e < g.head.length → g.val e t ≤ B) {times : List TRange}
    (ht : ∀ r ∈ times, r.start < r.fin ∧ r.fin < 2 * PERIOD) (hfew : times.length + 1 < 65536) (pick : Nat → Nat) (reduce : Option Nat)
    (hred : reduce ≠ none → g.head.length * (B * B) < 18446744073709551616 ∧ g.head.length < 2147483648) :
    ∃ metrics0 ranges metrics, (times ++ [(⟨0, INFINITY⟩ : TRange)]).mapM (lowerMetric bs g) = some metrics0 ∧
      reduceTo pick g.head.length reduce (entries times) metrics0 = some (ranges, metrics) ∧ Table g B ranges metrics := by
  have hlow : ∀ r ∈ times ++ [(⟨0, INFINITY⟩ : TRange)], r.start < r.fin ∧ (r.fin < 2 * PERIOD ∨ r.start = 0) ∧ r.fin ≤ INFINITY := by
    intro r hr
    rcases List.mem_append.1 hr with hr | hr
    · have := ht r hr; exact ⟨this.1, .inl this.2, by simp only [INFINITY, PERIOD] at *; omega⟩
    · simp at hr; subst hr; exact ⟨by simp [INFINITY], .inr rfl, Nat.le_refl _⟩
  have hspec := fun r hr => lowerMetric_spec hb hg (hlow r hr).1 (hlow r hr).2.1 hB
  obtain ⟨M0, hM0⟩ := mapM_exists (f := lowerMetric bs g) (l := times ++ [(⟨0, INFINITY⟩ : TRange)]) (fun r hr => (hspec r hr).imp (fun x hx => hx.1))
  obtain ⟨hlen0, hidx0⟩ := mapM_index hM0
  have hlenM : M0.length = times.length + 1 := by simpa using hlen0
  have hmem0 : ∀ x ∈ M0, x.length = g.head.length ∧ ∀ w ∈ x, w ≤ B := by
    intro x hx
    obtain ⟨r, hr, hrx⟩ := (mem_of_mapM hM0 x).1 hx
    obtain ⟨x', k1, k2, k3, _⟩ := hspec r hr
    rw [hrx] at k1; injection k1 with k1; subst k1
    exact ⟨k2, k3⟩
  -- the entries before merging
  have hent : ∀ (i : Nat) (r : Entry), (entries times)[i]? = some r → r.2.1 = i ∧ i < M0.length ∧ (times ++ [(⟨0, INFINITY⟩ : TRange)])[i]? = some r.1 ∧
      (r.2.2 = true ↔ i < times.length) := by
    intro i r hr
    simp only [entries] at hr
    rcases Nat.lt_or_ge i times.length with hi | hi
    · rw [List.getElem?_append_left (by simpa using hi)] at hr ⊢
      simp only [List.getElem?_map, List.getElem?_zipIdx, List.getElem?_eq_getElem hi, Option.map_some, Nat.zero_add] at hr
      injection hr with hr; subst hr
      exact ⟨Nat.mod_eq_of_lt (by omega), by omega, by simp [hi], by simp [hi]⟩
    · rw [List.getElem?_append_right (by simpa using hi)] at hr ⊢
      simp only [List.length_map, List.length_zipIdx] at hr
      have hi0 : i - times.length = 0 := by
        by_contra h
        rw [List.getElem?_eq_none (by simp; omega)] at hr; exact absurd hr (by simp)
      rw [hi0] at hr ⊢
      simp at hr; subst hr
      have : i = times.length := by omega
      exact ⟨by rw [this]; exact Nat.mod_eq_of_lt (by omega), by omega, rfl, by simp [this]⟩
  have hentlen : (entries times).length = M0.length := by simp [entries, hlenM]
  have hentlow : ∀ (i : Nat) r, (entries times)[i]? = some r → ∃ x, M0[i]? = some x ∧ ∀ (e w t : Nat), x[e]? = some w → r.1.start ≤ t → t < r.1.fin → w ≤ g.val e t := by
    intro i r hr
    obtain ⟨h1, h2, h3, h4⟩ := hent i r hr
    obtain ⟨x, k1, k2⟩ := hidx0 i _ h3
    obtain ⟨x', j1, _, _, j2⟩ := hspec r.1 (List.mem_of_getElem? h3)
    rw [k2] at j1; injection j1 with j1; subst j1
    exact ⟨x, k1, fun e w t hw ha hb' => j2 e w t hw ha (by omega)⟩
  -- whatever has the same ranges is fine
  have hok : ∀ ranges : List Entry, ranges.length = (entries times).length →
      (∀ (i : Nat) (r : Entry), (entries times)[i]? = some r → ∃ idx, ranges[i]? = some (r.1, idx, r.2.2)) → RangesOK ranges := by
    intro ranges hl hsame
    have hback : ∀ r ∈ ranges, ∃ (i : Nat) (r0 : Entry), (entries times)[i]? = some r0 ∧ r.1 = r0.1 ∧ r.2.2 = r0.2.2 := by
      intro r hr
      obtain ⟨i, hi, rfl⟩ := List.getElem_of_mem hr
      obtain ⟨idx, h1⟩ := hsame i _ (List.getElem?_eq_getElem (by omega))
      rw [List.getElem?_eq_getElem hi] at h1; injection h1 with h1
      exact ⟨i, _, List.getElem?_eq_getElem (by omega), by rw [h1], by rw [h1]⟩
    refine ⟨?_, ?_, ?_⟩
    · intro r hr
      obtain ⟨i, r0, h1, h2, h3⟩ := hback r hr
      obtain ⟨_, _, h4, _⟩ := hent i r0 h1
      rw [h2]; exact Nat.le_of_lt (hlow _ (List.mem_of_getElem? h4)).1
    · intro r hr
      obtain ⟨i, r0, h1, h2, h3⟩ := hback r hr
      obtain ⟨_, _, h4, h5⟩ := hent i r0 h1
      rw [h2, h3]
      refine ⟨(hlow _ (List.mem_of_getElem? h4)).2.2, ?_⟩
      intro hp
      rw [List.getElem?_append_left (h5.1 hp)] at h4
      exact Nat.le_of_lt (ht _ (List.mem_of_getElem? h4)).2
    · obtain ⟨idx, h1⟩ := hsame times.length (⟨0, INFINITY⟩, times.length % 65536, false) (by simp [entries])
      exact ⟨_, List.mem_of_getElem? h1, rfl, rfl⟩
  cases reduce with
  | none =>
    refine ⟨M0, entries times, M0, hM0, rfl, hok _ rfl (fun i r hr => ⟨r.2.1, by rw [hr]⟩), fun x hx => (hmem0 x hx).1, fun x hx => (hmem0 x hx).2, ?_⟩
    intro r hr
    obtain ⟨i, hi, rfl⟩ := List.getElem_of_mem hr
    rw [(hent i _ (List.getElem?_eq_getElem hi)).1]
    exact hentlow i _ (List.getElem?_eq_getElem hi)
  | some target =>
    obtain ⟨hW, hm⟩ := hred (by simp)
    obtain ⟨groups, g1, g2, g3, g4, _⟩ := C49_merge pick M0 g.head.length B target (by intro h; rw [h] at hlenM; simp at hlenM) (fun x hx => (hmem0 x hx).1)
      (fun x hx => (hmem0 x hx).2) hW hm
    have hgl : groups.length < 65536 := by rw [g4]; omega
    have hgmem : ∀ i, (∃ grp ∈ groups, i ∈ grp) ↔ i < M0.length := by
      intro i
      rw [← List.mem_range, ← g2.mem_iff, List.mem_flatten]
    obtain ⟨ranges, r1, r2, r3⟩ := regroup_aux groups 0 (entries times) (fun grp hgrp i hi => by rw [hentlen]; exact (hgmem i).1 ⟨grp, hgrp, hi⟩)
    have hgm := fun grp (hgrp : grp ∈ groups) => groupMetric_spec (metrics := M0) (m := g.head.length) (B := B) (fun x hx => (hmem0 x hx).1) (fun x hx => (hmem0 x hx).2)
      (g3 grp hgrp) (fun i hi => (hgmem i).1 ⟨grp, hgrp, hi⟩)
    obtain ⟨M, hM⟩ := mapM_exists (f := groupMetric g.head.length M0) (l := groups) (fun grp hgrp => (hgm grp hgrp).imp (fun _ h => h.1))
    have hMmem := mem_of_mapM hM
    refine ⟨M0, ranges, M, hM0, ?_, hok ranges r2 (fun i r hr => ?_), ?_, ?_, ?_⟩
    · have r1' : regroup groups (entries times) = some ranges := r1
      simp only [reduceTo, g1, r1', hM, Option.bind_eq_bind, Option.bind_some, Option.pure_def]
    · obtain ⟨idx, h1, _⟩ := r3 i r hr; exact ⟨idx, h1⟩
    · intro x hx
      obtain ⟨grp, h1, h2⟩ := (hMmem x).1 hx
      obtain ⟨y, k1, k2, _⟩ := hgm grp h1
      rw [h2] at k1; injection k1 with k1; subst k1; exact k2
    · intro x hx
      obtain ⟨grp, h1, h2⟩ := (hMmem x).1 hx
      obtain ⟨y, k1, _, k2, _⟩ := hgm grp h1
      rw [h2] at k1; injection k1 with k1; subst k1; exact k2
    · intro r hr
      obtain ⟨i, hi, rfl⟩ := List.getElem_of_mem hr
      have hi' : i < (entries times).length := by omega
      obtain ⟨idx, h1, h2⟩ := r3 i _ (List.getElem?_eq_getElem hi')
      rw [List.getElem?_eq_getElem hi] at h1; injection h1 with h1
      rw [h1]
      rcases h2 with ⟨a, grp, f1, f2, f3⟩ | ⟨_, f2⟩
      · have ha : a < groups.length := (List.getElem?_eq_some_iff.1 f1).1
        have hidx : idx = a := by rw [f3]; simp; omega
        obtain ⟨y, k1, k2⟩ := (mapM_index hM).2 a grp f1
        obtain ⟨y', j1, j2, _, j3⟩ := hgm grp (List.mem_of_getElem? f1)
        rw [k2] at j1; injection j1 with j1; subst j1
        obtain ⟨x, x1, x2⟩ := hentlow i _ (List.getElem?_eq_getElem hi')
        refine ⟨y, by rw [hidx]; exact k1, ?_⟩
        intro e w t hw hs hf
        have he : e < x.length := by
          rw [(hmem0 x (List.mem_of_getElem? x1)).1, ← j2]; exact (List.getElem?_eq_some_iff.1 hw).1
        obtain ⟨w', z1, z2⟩ := j3 i x e x[e] f2 x1 (List.getElem?_eq_getElem he)
        rw [hw] at z1; injection z1 with z1; subst z1
        exact Nat.le_trans z2 (x2 e _ t (List.getElem?_eq_getElem he) hs hf)
      · exfalso
        obtain ⟨grp, h3, h4⟩ := (hgmem i).2 (by omega)
        exact f2 grp h3 h4

end
end MultiMetric
end Verif
