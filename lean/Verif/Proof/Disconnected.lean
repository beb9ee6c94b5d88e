import Verif.Model.Disconnected
import Verif.Proof.Reversed
import Verif.Proof.BitVec
import Mathlib.Data.List.Perm.Subperm
set_option linter.unusedSimpArgs false
set_option linter.unusedVariables false
/- Lemmas about the check for disconnected targets. -/
namespace Verif
namespace Disc
open Bits
open Spec

/-- The reversed graph has the right heads. -/
structure RevOK (n : Nat) (f : Nat → List Nat) (g : UGraph) : Prop where
  heads : ∀ v, v < n → ∃ hs, g.heads v = some hs ∧ ∀ u, u ∈ hs ↔ u < n ∧ v ∈ f u

theorem reversed_ok {n m : Nat} {links : Nat → Option (List Nat)} {f : Nat → List Nat} (hl : ∀ v, v < n → links v = some (f v))
    (hh : ∀ v h, v < n → h ∈ f v → h < n) (hm : ((List.range n).map fun v => (f v).length).sum = m) (hm' : m < U32) :
    ∃ g, Disc.reversed n m links = some g ∧ RevOK n f g := by
  have hlen : (GraphOps.arcs n fun v => (f v).map fun h => (h, ())).length = m := by
    rw [← hm]
    simp [GraphOps.arcs, List.length_flatMap]
  obtain ⟨st, h1, h2, h3, _⟩ := GraphOps.revBuild_spec () n m (fun v => (links v).map (List.map (fun h => (h, ()))))
    (fun v => (f v).map fun h => (h, ())) (by intro v hv; simp [hl v hv]) (by
      rintro v ⟨h, _⟩ hv hm
      simp at hm
      exact hh v h hv hm) hlen hm'
  refine ⟨⟨st.firstOut, st.head⟩, by simp [Disc.reversed, h1], ⟨?_⟩⟩
  intro v hv
  obtain ⟨a, b, k1, k2, _, _, _, k3⟩ := h2.slice (v := v) (by rw [GraphOps.revAdj_length]; exact hv)
  refine ⟨_, by simp only [UGraph.heads, k1, k2, Option.bind_eq_bind, Option.bind_some, h3]; exact k3 Prod.fst, ?_⟩
  intro u
  simp only [GraphOps.revAdj, List.getElem_map, List.getElem_range, List.map_map, List.mem_map, List.mem_filter, decide_eq_true_eq,
    Function.comp]
  constructor
  · rintro ⟨⟨u', h, _⟩, ⟨h5, h6⟩, h7⟩
    simp only at h6 h7
    subst h6; subst h7
    obtain ⟨h8, h9⟩ := GraphOps.mem_arcs.1 h5
    simp at h9
    exact ⟨h8, h9⟩
  · rintro ⟨h5, h6⟩
    exact ⟨(u, v, ()), ⟨GraphOps.mem_arcs.2 ⟨h5, by simpa using h6⟩, rfl⟩, rfl⟩

/-- the bit vector is fine and large enough -/
structure VisOK (n : Nat) (b : FastClear) : Prop where
  ok : b.OK
  len : n ≤ 64 * b.data.length

/-- What the search from `node` did: `N` are the new nodes. -/
structure Found (n : Nat) (f : Nat → List Nat) (source node : Nat) (st st' : DState) (N : List Nat) : Prop where
  vis : VisOK n st'.visited
  bits : ∀ j, bit st'.visited.data j = (decide (j ∈ N) || bit st.visited.data j)
  nodup : N.Nodup
  fresh : ∀ j ∈ N, bit st.visited.data j = false
  lt : ∀ j ∈ N, j < n
  leads : ∀ j ∈ N, Leads f j node
  counter : st'.counter ≤ st.counter + N.length
  cap : st'.counter ≤ 200
  mono : st.counter ≤ st'.counter
  keep : st.reachable = true → st'.reachable = true
  why : st'.reachable = true → st.reachable = true ∨ source ∈ N ∨ 201 ≤ st.counter + N.length
  count : st'.reachable = false → st.counter + N.length ≤ st'.counter
  closed : st'.reachable = false → ∀ v ∈ N, v ≠ source ∧ ∀ u, u < n → v ∈ f u → bit st'.visited.data u = true

variable {n : Nat} {f : Nat → List Nat} {g : UGraph} {source : Nat}

theorem dfs_fold (hg : RevOK n f g) {depth : Nat} (ih : ∀ node st, node < n → VisOK n st.visited → st.counter ≤ 200 → 201 ≤ depth + st.counter →
      ∃ st' N, dfs g source depth node st = some st' ∧ Found n f source node st st' N ∧ bit st'.visited.data node = true)
    {node : Nat} (hs : List Nat) : ∀ (st : DState), VisOK n st.visited → st.counter ≤ 200 → 201 ≤ depth + st.counter → (∀ h ∈ hs, h < n ∧ node ∈ f h) →
      ∃ st' N, hs.foldlM (fun st h => dfs g source depth h st) st = some st' ∧ Found n f source node st st' N ∧
        ∀ h ∈ hs, bit st'.visited.data h = true := by
  induction hs with
  | nil =>
    intro st h1 h2 h3 _
    exact ⟨st, [], rfl, ⟨h1, by simp, by simp, by simp, by simp, by simp, by simp, h2, Nat.le_refl _, id, fun h => .inl h, by simp, by simp⟩, by simp⟩
  | cons h hs ih2 =>
    intro st h1 h2 h3 h4
    obtain ⟨hn, hf⟩ := h4 h (by simp)
    obtain ⟨st1, N1, a1, a2, a3⟩ := ih h st hn h1 h2 h3
    have am := a2.mono
    obtain ⟨st2, N2, b1, b2, b3⟩ := ih2 st1 a2.vis a2.cap (by omega) (fun x hx => h4 x (by simp [hx]))
    have hdis : ∀ j ∈ N2, j ∉ N1 := by
      intro j hj hj1
      have := b2.fresh j hj
      rw [a2.bits j] at this
      simp [hj1] at this
    have hback : st2.reachable = false → st1.reachable = false := by
      intro hr
      cases hc : st1.reachable with
      | false => rfl
      | true => have := b2.keep hc; rw [hr] at this; simp at this
    have hc1 := a2.counter
    have hc2 := b2.counter
    have bm := b2.mono
    refine ⟨st2, N1 ++ N2, by rw [List.foldlM_cons, a1]; exact b1, ⟨b2.vis, ?_, ?_, ?_, ?_, ?_, ?_, b2.cap, by omega, fun hk => b2.keep (a2.keep hk), ?_, ?_, ?_⟩, ?_⟩
    · intro j
      rw [b2.bits j, a2.bits j]
      by_cases k1 : j ∈ N1 <;> by_cases k2 : j ∈ N2 <;> simp [k1, k2]
    · rw [List.nodup_append]
      exact ⟨a2.nodup, b2.nodup, fun x hx y hy hxy => hdis y hy (hxy ▸ hx)⟩
    · intro j hj
      rcases List.mem_append.1 hj with hj | hj
      · exact a2.fresh j hj
      · have := b2.fresh j hj
        rw [a2.bits j] at this
        simp at this
        exact this.2
    · intro j hj
      rcases List.mem_append.1 hj with hj | hj
      · exact a2.lt j hj
      · exact b2.lt j hj
    · intro j hj
      rcases List.mem_append.1 hj with hj | hj
      · have : ∀ {x y z}, Leads f x y → z ∈ f y → Leads f x z := by
          intro x y z h1 h2
          induction h1 with
          | here u => exact .go h2 (.here _)
          | go h3 _ ih => exact .go h3 (ih h2)
        exact this (a2.leads j hj) hf
      · exact b2.leads j hj
    · rw [List.length_append]; omega
    · intro hr
      rw [List.length_append]
      rcases b2.why hr with k | k | k
      · rcases a2.why k with k | k | k
        · exact .inl k
        · exact .inr (.inl (by simp [k]))
        · exact .inr (.inr (by omega))
      · exact .inr (.inl (by simp [k]))
      · exact .inr (.inr (by omega))
    · intro hr
      have := a2.count (hback hr)
      have := b2.count hr
      rw [List.length_append]; omega
    · intro hr v hv
      have hr1 := hback hr
      rcases List.mem_append.1 hv with hv | hv
      · obtain ⟨k1, k2⟩ := a2.closed hr1 v hv
        refine ⟨k1, fun u hu hvu => ?_⟩
        rw [b2.bits u, k2 u hu hvu]; simp
      · exact b2.closed hr v hv
    · intro x hx
      rcases List.mem_cons.1 hx with rfl | hx
      · rw [b2.bits x, a3]; simp
      · exact b3 x hx

theorem dfs_ok (hg : RevOK n f g) (depth : Nat) : ∀ node st, node < n → VisOK n st.visited → st.counter ≤ 200 → 201 ≤ depth + st.counter →
    ∃ st' N, dfs g source depth node st = some st' ∧ Found n f source node st st' N ∧ bit st'.visited.data node = true := by
  induction depth with
  | zero => intro node st _ _ h1 h2; omega
  | succ depth ih =>
    intro node st hn hv hc hd
    have hget : st.visited.get node = some (bit st.visited.data node) := by
      rw [hv.ok.get, if_pos (by have := hv.len; omega)]
    cases hb : bit st.visited.data node with
    | true =>
      refine ⟨st, [], ?_, ⟨hv, by simp, by simp, by simp, by simp, by simp, by simp, hc, Nat.le_refl _, id, fun h => .inl h, by simp, by simp⟩, hb⟩
      rw [dfs]; simp [hget, hb]
    | false =>
      obtain ⟨b', s1, s2, s3, s4⟩ := hv.ok.set (i := node) (by have := hv.len; omega)
      have hv' : VisOK n b' := ⟨s2, by rw [s3]; exact hv.len⟩
      have hbits : ∀ j, bit b'.data j = (decide (j ∈ [node]) || bit st.visited.data j) := by
        intro j; rw [s4 j]; simp; rfl
      have hfr : ∀ j ∈ [node], bit st.visited.data j = false := by intro j hj; simp at hj; subst hj; exact hb
      have hself : bit b'.data node = true := by rw [hbits]; simp
      by_cases c1 : node = source
      · refine ⟨⟨b', st.counter, true⟩, [node], ?_, ⟨hv', hbits, by simp, hfr, by simpa using hn, ?_, by simp, hc, Nat.le_refl _, fun _ => rfl, fun _ => .inr (.inl (by simp [c1])), by simp, by simp⟩, hself⟩
        · rw [dfs]; simp only [hget, hb, s1, visit, if_pos c1, Option.bind_eq_bind, Option.bind_some, Option.pure_def, Bool.false_eq_true, if_false, if_true]
        · intro j hj; simp at hj; subst hj; exact .here _
      · by_cases c2 : st.counter < 200
        · obtain ⟨hs, g1, g2⟩ := hg.heads node hn
          obtain ⟨st', N, r1, r2, r3⟩ := dfs_fold hg ih (node := node) hs ⟨b', st.counter + 1, st.reachable⟩ hv' (by simp only; omega) (by simp only; omega) (fun h hh => (g2 h).1 hh)
          have hnN : node ∉ N := by
            intro h
            have := r2.fresh node h
            simp only at this
            rw [hself] at this; simp at this
          have q1 := r2.counter
          have q2 := r2.mono
          simp only at q1 q2
          refine ⟨st', node :: N, ?_, ⟨r2.vis, ?_, List.nodup_cons.2 ⟨hnN, r2.nodup⟩, ?_, ?_, ?_, by simp only [List.length_cons]; omega, r2.cap, by omega, r2.keep, ?_, ?_, ?_⟩, ?_⟩
          · rw [dfs]
            simp only [hget, hb, s1, visit, c1, c2, g1, if_false, if_true, Option.bind_eq_bind, Option.bind_some, Bool.false_eq_true]
            exact r1
          · intro j
            rw [r2.bits j]
            simp only [hbits j, List.mem_cons, List.mem_singleton]
            by_cases k1 : j = node <;> by_cases k2 : j ∈ N <;> simp [k1, k2]
          · intro j hj
            rcases List.mem_cons.1 hj with rfl | hj
            · exact hb
            · have := r2.fresh j hj
              simp only [hbits j] at this
              simp at this
              exact this.2
          · intro j hj
            rcases List.mem_cons.1 hj with rfl | hj
            · exact hn
            · exact r2.lt j hj
          · intro j hj
            rcases List.mem_cons.1 hj with rfl | hj
            · exact .here _
            · exact r2.leads j hj
          · intro hr
            rcases r2.why hr with k | k | k
            · exact .inl k
            · exact .inr (.inl (by simp [k]))
            · simp only at k
              exact .inr (.inr (by simp only [List.length_cons]; omega))
          · intro hr
            have := r2.count hr
            simp only at this
            simp only [List.length_cons]; omega
          · intro hr v hvN
            rcases List.mem_cons.1 hvN with rfl | hvN
            · exact ⟨c1, fun u hu hvu => r3 u ((g2 u).2 ⟨hu, hvu⟩)⟩
            · exact r2.closed hr v hvN
          · rw [r2.bits node]; simp only [hself]; simp
        · refine ⟨⟨b', st.counter, true⟩, [node], ?_, ⟨hv', hbits, by simp, hfr, by simpa using hn, ?_, by simp, hc, Nat.le_refl _, fun _ => rfl, fun _ => .inr (.inr (by simp only [List.length_singleton]; omega)), by simp, by simp⟩, hself⟩
          · rw [dfs]; simp [hget, hb, s1, visit, c1, c2]
          · intro j hj; simp at hj; subst hj; exact .here _

/-- The check as a whole. -/
theorem check_ok (hg : RevOK n f g) (hh : ∀ v h, v < n → h ∈ f v → h < n) {b : FastClear} (hb : VisOK n b) {depth : Nat} (hd : 201 ≤ depth) {s t : Nat}
    (hs : s < n) (ht : t < n) :
    ∃ r b', checkTarget g depth b s t = some (r, b') ∧ VisOK n b' ∧ (r = true ↔ Leads f s t ∨ AtLeast 201 fun u => u < n ∧ Leads f u t) := by
  obtain ⟨b0, c1, c2, c3, c4⟩ := hb.ok.clear
  obtain ⟨st, N, d1, d2, d3⟩ := dfs_ok (source := s) hg depth t ⟨b0, 0, false⟩ ht ⟨c2, by rw [c3]; exact hb.len⟩ (by simp) (by simpa using hd)
  refine ⟨st.reachable, st.visited, by simp only [checkTarget, c1, d1, Option.bind_eq_bind, Option.bind_some, Option.pure_def], d2.vis, ?_, ?_⟩
  · intro hr
    rcases d2.why hr with h | h | h
    · simp at h
    · exact .inl (d2.leads s h)
    · exact .inr ⟨N, d2.nodup, by simpa using h, fun u hu => ⟨d2.lt u hu, d2.leads u hu⟩⟩
  · intro hl
    cases hr : st.reachable with
    | true => rfl
    | false =>
      exfalso
      have hN : ∀ j, bit st.visited.data j = true ↔ j ∈ N := by
        intro j; rw [d2.bits j]; simp [c4 j]
      have key : ∀ {x}, Leads f x t → x < n → x ∈ N := by
        intro x hx
        generalize ht' : t = t' at hx
        induction hx with
        | here u => intro _; subst ht'; exact (hN _).1 d3
        | @go u v t'' h1 _ ih =>
          intro hu
          have hv := ih ht' (hh u v hu h1)
          exact (hN u).1 ((d2.closed hr v hv).2 u hu h1)
      rcases hl with hl | ⟨M, m1, m2, m3⟩
      · exact (d2.closed hr s (key hl hs)).1 rfl
      · have h1 : M.length ≤ N.length := (List.subperm_of_subset m1 fun u hu => key (m3 u hu).2 (m3 u hu).1).length_le
        have h2 := d2.count hr
        have h3 := d2.cap
        simp only at h2
        omega

theorem new_vis (n : Nat) : VisOK n (FastClear.new n) := by
  refine ⟨FastClear.new_ok n, ?_⟩
  simp [FastClear.new]; omega

end Disc
end Verif
