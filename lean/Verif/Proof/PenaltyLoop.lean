import Verif.Proof.Penalty
import Verif.Spec.PenaltySearch
/- The loop of the penalty method. -/
set_option linter.unusedSimpArgs false
set_option linter.unusedVariables false
namespace Verif
namespace Penalty
open GraphOps Spec Bits

/-! ### routes -/

theorem route_len {fo hd : List Nat} {ns es : List Nat} (h : Route fo hd ns es) : ns.length = es.length + 1 := by
  induction h with
  | single u => rfl
  | cons _ _ _ _ _ _ ih => simp only [List.length_cons] at ih ⊢; omega

theorem route_edge {g : FOGraph} {ns es : List Nat} (h : Route g.firstOut g.head ns es) : ∀ e ∈ es, ∃ u v, Ends g e u v ∧ u ∈ ns ∧ v ∈ ns := by
  induction h with
  | single u => simp
  | cons h1 h2 h3 h4 h5 _ ih =>
    intro x hx
    rcases List.mem_cons.1 hx with rfl | hx
    · exact ⟨_, _, ⟨_, _, h1, h2, h3, h4, h5⟩, by simp, by simp⟩
    · obtain ⟨u, v, q1, q2, q3⟩ := ih x hx
      exact ⟨u, v, q1, List.mem_cons_of_mem _ q2, List.mem_cons_of_mem _ q3⟩

theorem route_tail {g : FOGraph} {ns es : List Nat} (h : Route g.firstOut g.head ns es) : ∀ e ∈ es, ∃ u v, Ends g e u v ∧ u ∈ ns.dropLast := by
  induction h with
  | single u => simp
  | cons h1 h2 h3 h4 h5 _ ih =>
    intro x hx
    rcases List.mem_cons.1 hx with rfl | hx
    · exact ⟨_, _, ⟨_, _, h1, h2, h3, h4, h5⟩, by simp⟩
    · obtain ⟨u, v, q1, q2⟩ := ih x hx
      exact ⟨u, v, q1, by simp only [List.dropLast_cons₂]; exact List.mem_cons_of_mem _ q2⟩

theorem route_nodup {g : FOGraph} (hg : g.WF) {ns es : List Nat} (h : Route g.firstOut g.head ns es) (hn : ns.Nodup) : es.Nodup := by
  induction h with
  | single u => exact List.nodup_nil
  | @cons u v a b e ns es h1 h2 h3 h4 h5 hr ih =>
    rw [List.nodup_cons] at hn
    refine List.nodup_cons.2 ⟨fun hm => ?_, ih hn.2⟩
    obtain ⟨u', v', q1, q2, _⟩ := route_edge hr e hm
    have := (ends_unique hg ⟨a, b, h1, h2, h3, h4, h5⟩ q1).1
    exact hn.1 (this ▸ q2)

theorem route_nodes {g : FOGraph} (hg : g.WF) {ns es : List Nat} (h : Route g.firstOut g.head ns es) {s : Nat} (hs : ns.head? = some s) (hlt : s < g.numNodes) :
    ∀ v ∈ ns, v < g.numNodes := by
  induction h generalizing s with
  | single u => simp at hs; subst hs; simpa using hlt
  | @cons u v a b e ns es h1 h2 h3 h4 h5 hr ih =>
    simp at hs; subst hs
    intro x hx
    rcases List.mem_cons.1 hx with rfl | hx
    · exact hlt
    · exact ih rfl (ends_lt hg ⟨a, b, h1, h2, h3, h4, h5⟩).2.2 x hx

theorem lenOf_mem {w : List Nat} : ∀ {es : List Nat} {e : Nat}, e ∈ es → wt w e ≤ lenOf w es
  | x :: es, e, h => by
    have hl : lenOf w (x :: es) = wt w x + lenOf w es := by simp [lenOf, wt]
    rcases List.mem_cons.1 h with rfl | h
    · omega
    · have := lenOf_mem (w := w) h; omega

theorem lenOf_le {w w' : List Nat} : ∀ {es : List Nat}, (∀ e ∈ es, wt w e ≤ wt w' e) → lenOf w es ≤ lenOf w' es
  | [], _ => by simp [lenOf]
  | x :: es, h => by
    have h1 : lenOf w (x :: es) = wt w x + lenOf w es := by simp [lenOf, wt]
    have h2 : lenOf w' (x :: es) = wt w' x + lenOf w' es := by simp [lenOf, wt]
    have := h x (by simp)
    have := lenOf_le (es := es) (fun e he => h e (by simp [he]))
    omega

theorem lenOf_scale {w w' : List Nat} : ∀ {es : List Nat}, (∀ e ∈ es, wt w' e ≤ wt w e * 11 / 10) → lenOf w' es ≤ lenOf w es * 11 / 10
  | [], _ => by simp [lenOf]
  | x :: es, h => by
    have h1 : lenOf w (x :: es) = wt w x + lenOf w es := by simp [lenOf, wt]
    have h2 : lenOf w' (x :: es) = wt w' x + lenOf w' es := by simp [lenOf, wt]
    have := h x (by simp)
    have := lenOf_scale (es := es) (fun e he => h e (by simp [he]))
    omega

theorem windows_len {α : Type} (l : List α) : (windows l).length = l.length - 1 := by
  simp [windows]

theorem windows_mem {α : Type} {l : List α} {x : α × α} (h : x ∈ windows l) : x.1 ∈ l ∧ x.2 ∈ l := by
  obtain ⟨a, b⟩ := x
  have := List.of_mem_zip h
  exact ⟨this.1, List.mem_of_mem_tail this.2⟩

theorem count_windows {nodes : List Nat} (hnd : nodes.Nodup) (ys : List (Nat × Nat)) (hl : (windows nodes).length ≤ ys.length) (v : Nat) :
    ((windows nodes).zip ys).countP (fun x => x.1.2 == v) ≤ (if v ∈ nodes then 1 else 0) ∧
      ((windows nodes).zip ys).countP (fun x => x.1.1 == v) ≤ (if v ∈ nodes then 1 else 0) := by
  have key : ∀ (f : Nat × Nat → Nat), ((windows nodes).zip ys).countP (fun x => f x.1 == v) = ((windows nodes).map f).count v := by
    intro f
    have h1 : ((windows nodes).zip ys).map Prod.fst = windows nodes := List.map_fst_zip hl
    rw [List.count, List.countP_map]
    conv => rhs; rw [← h1, List.countP_map]
    rfl
  have hsub : ∀ l : List Nat, l.Sublist nodes → l.count v ≤ if v ∈ nodes then 1 else 0 := by
    intro l hl
    by_cases hv : v ∈ nodes
    · rw [if_pos hv]
      exact List.nodup_iff_count.1 (hl.nodup hnd) v
    · rw [if_neg hv, Nat.le_zero, List.count_eq_zero]
      exact fun h => hv (hl.mem h)
  constructor
  · rw [key (fun x => x.2)]
    have : (windows nodes).map (fun x => x.2) = nodes.tail := by
      unfold windows
      exact List.map_snd_zip (by simp)
    rw [this]
    exact hsub _ (List.tail_sublist _)
  · rw [key (fun x => x.1)]
    have : ((windows nodes).map (fun x => x.1)).Sublist nodes := by
      have h0 : (windows nodes).map (fun x => x.1) = nodes.dropLast := by
        unfold windows
        clear hl key hnd hsub
        induction nodes with
        | nil => rfl
        | cons a l ih =>
          cases l with
          | nil => rfl
          | cons b l => simpa using ih
      rw [h0]; exact List.dropLast_sublist _
    exact hsub _ this

/-! ### one round -/

/-- what is added per visit at most: a hundredth of the longest distance -/
def maxRejoin : Nat := 429496

/-- the state between rounds -/
structure LInv (S : Server) (fw times reset : List Nat) : Prop where
  fl : fw.length = S.orig.numArcs
  tl : times.length = S.orig.numNodes
  rl : ∀ v ∈ reset, v < S.orig.numNodes
  lo : ∀ e, e < S.orig.numArcs → wt S.orig.weight e ≤ wt fw e
  ch : ∀ e a b, Ends S.orig e a b → wt fw e ≠ wt S.orig.weight e → a ∈ reset ∨ b ∈ reset
  tr : ∀ v, tm times v ≠ 0 → v ∈ reset
  t5 : ∀ v, tm times v ≤ maxTimes
  hi : ∀ e a b, Ends S.orig e a b → wt fw e ≤ INFINITY + maxRejoin * (tm times a + tm times b)

/-- rounds that are left -/
def left (n : Nat) (times : List Nat) : Nat := ((List.range n).map (fun v => maxTimes - tm times v)).sum

theorem sum_lt : ∀ {l : List Nat} {f g : Nat → Nat}, (∀ v ∈ l, f v ≤ g v) → (∃ v ∈ l, f v < g v) → (l.map f).sum < (l.map g).sum
  | [], _, _, _, h => by simp at h
  | x :: l, f, g, h1, ⟨v, hv, hlt⟩ => by
    simp only [List.map_cons, List.sum_cons]
    have hx := h1 x (by simp)
    have hle : ∀ l : List Nat, (∀ v ∈ l, f v ≤ g v) → (l.map f).sum ≤ (l.map g).sum := by
      intro l
      induction l with
      | nil => simp
      | cons y l ih =>
        intro h
        simp only [List.map_cons, List.sum_cons]
        have := h y (by simp)
        have := ih (fun v hv => h v (by simp [hv]))
        omega
    rcases List.mem_cons.1 hv with rfl | hv
    · have := hle l (fun v hv => h1 v (by simp [hv])); omega
    · have := sum_lt (l := l) (f := f) (g := g) (fun v hv => h1 v (by simp [hv])) ⟨v, hv, hlt⟩; omega

theorem left_le (n : Nat) (times : List Nat) : left n times ≤ 5 * n := by
  unfold left
  induction n with
  | zero => simp
  | succ n ih =>
    rw [List.range_succ, List.map_append, List.sum_append]
    simp only [List.map_cons, List.map_nil, List.sum_cons, List.sum_nil, maxTimes] at ih ⊢
    omega

/-- a path that has been found with the weights `fw` -/
structure RouteOK (g : FOGraph) (fw : List Nat) (s t : Nat) (f : Found) : Prop where
  route : Route g.firstOut g.head f.nodes f.edges
  source : f.nodes.head? = some s
  target : f.nodes.getLast? = some t
  simple : f.nodes.Nodup
  len : lenOf fw f.edges ≤ f.dist
  short : f.dist ≤ maxDist

section
variable {S : Server} {times reset : List Nat} {cont : FastClear} {calls : Nat}

theorem round_ok (h : Static S) (hpos : ∀ e, e < S.orig.numArcs → 0 < wt S.orig.weight e) {fw : List Nat} (hi : LInv S fw times reset) {r : Nat} (hr : r ≤ maxRejoin)
    {s t : Nat} (hs : s < S.orig.numNodes) {f : Found} (hf : RouteOK S.orig fw s t f) :
    ∃ fw' times' reset' any sv1, penalize r (S.at fw times reset cont calls) f = some sv1 ∧ mark sv1 f.nodes = some (any, S.at fw' times' reset' cont calls) ∧
      LInv S fw' times' reset' ∧ (any = true → left S.orig.numNodes times' < left S.orig.numNodes times) := by
  have hnodes := route_nodes h.wf hf.route hf.source hs
  have hedges : ∀ e ∈ f.edges, e < S.orig.numArcs := by
    intro e he
    obtain ⟨u, v, q, _⟩ := route_edge hf.route e he
    exact (ends_lt h.wf q).1
  have hlen := hf.len
  have hshort := hf.short
  have hwle : ∀ e ∈ f.edges, wt fw e ≤ maxDist := fun e he => Nat.le_trans (lenOf_mem he) (by omega)
  -- the edges of the path
  obtain ⟨fw1, a1, a2, a3⟩ := edges_phase (reset := reset) (cont := cont) (calls := calls) h hi.tl hi.fl f.edges (route_nodup h.wf hf.route hf.simple) (fun e he => by
    refine ⟨hedges e he, ?_⟩
    have := hwle e he
    unfold maxDist at this; unfold U32; omega)
  have hge1 : ∀ e, wt fw e ≤ wt fw1 e := by
    intro e; rw [a3 e]
    split <;> omega
  have hle1 : ∀ e, wt fw1 e ≤ wt fw e * 11 / 10 := by
    intro e; rw [a3 e]
    split <;> omega
  have htotal : lenOf fw1 f.edges ≤ lenOf fw f.edges * 11 / 10 := lenOf_scale (fun e _ => hle1 e)
  have hscan := scan_spec (w := fw1) f.edges 0 (fun e he => by rw [a2, hi.fl]; exact hedges e he) (by
    unfold maxDist at hshort; unfold U32; omega)
  have hlast := sums_last (w := fw1) f.edges 0
  have hsums := sums_le (w := fw1) f.edges 0
  rw [Nat.zero_add] at hlast hsums
  have hsl : ∀ (es : List Nat) (st : Nat), (sums fw1 st es).length = es.length := by
    intro es
    induction es with
    | nil => simp [sums]
    | cons e es ih => intro st; simp [sums, ih]
  have hrl := route_len hf.route
  have hwl : (windows f.nodes).length ≤ (windows (0 :: sums fw1 0 f.edges)).length := by
    rw [windows_len, windows_len, List.length_cons, hsl]; omega
  have hcnt : ∀ e a b, Ends S.orig e a b → cnt S times ((windows f.nodes).zip (windows (0 :: sums fw1 0 f.edges))) e ≤
      (if a ∈ f.nodes ∧ tm times a < maxTimes then 1 else 0) + (if b ∈ f.nodes ∧ tm times b < maxTimes then 1 else 0) := by
    intro e a b he
    obtain ⟨e1, e2⟩ := h.tail_iff he
    have t1 : wt S.tail e = a := by simp [wt, List.getD_eq_getElem?_getD, e1]
    have t2 : wt S.orig.head e = b := by simp [wt, List.getD_eq_getElem?_getD, e2]
    have c1 := (count_windows hf.simple (windows (0 :: sums fw1 0 f.edges)) hwl b).1
    have c2 := (count_windows hf.simple (windows (0 :: sums fw1 0 f.edges)) hwl a).2
    simp only [cnt, t1, t2]
    by_cases x1 : tm times a < maxTimes <;> by_cases x2 : tm times b < maxTimes <;> by_cases x3 : a ∈ f.nodes <;> by_cases x4 : b ∈ f.nodes <;>
      simp only [x1, x2, x3, x4, if_true, if_false, and_true, and_false, true_and, false_and] at c1 c2 ⊢ <;> omega
  have hbnd : ∀ e a b, Ends S.orig e a b → wt fw1 e ≤ INFINITY + maxRejoin * (tm times a + tm times b) := by
    intro e a b he
    rw [a3 e]
    split
    · rename_i hx
      have := hwle e hx.1
      unfold maxDist at this
      unfold INFINITY; omega
    · exact hi.hi e a b he
  have hmul : ∀ k, r * k ≤ maxRejoin * k := fun k => Nat.mul_le_mul_right k hr
  obtain ⟨fw2, b1, b2, b3⟩ := rejoin_phase (reset := reset) (cont := cont) (calls := calls) h hi.tl r (lenOf fw1 f.edges)
    ((windows f.nodes).zip (windows (0 :: sums fw1 0 f.edges))) (by
      intro hne
      cases hE : f.edges with
      | nil =>
        exfalso; apply hne
        rw [hE]; simp [sums, windows]
      | cons e es =>
        have := lenOf_mem (w := fw1) (es := e :: es) (e := e) (by simp)
        have he : e < S.orig.numArcs := hedges e (by rw [hE]; simp)
        have := hpos e he
        have := hi.lo e he
        have := hge1 e
        omega) (by
      rintro ⟨x, y⟩ hxy
      obtain ⟨m1, m2⟩ := List.of_mem_zip hxy
      obtain ⟨n1, n2⟩ := windows_mem m1
      obtain ⟨n3, n4⟩ := windows_mem m2
      exact ⟨hnodes _ n1, hnodes _ n2, hsums _ n3, hsums _ n4⟩) (fw := fw1) (by rw [a2]; exact hi.fl) (by
      intro e he
      obtain ⟨a, b, _, _, _, _, hends⟩ := h.ends e he
      have c := hcnt e a b hends
      have d := hbnd e a b hends
      have ta := hi.t5 a
      have tb := hi.t5 b
      have hk := hmul (cnt S times ((windows f.nodes).zip (windows (0 :: sums fw1 0 f.edges))) e)
      have hc2 : cnt S times ((windows f.nodes).zip (windows (0 :: sums fw1 0 f.edges))) e ≤ 2 := by
        refine Nat.le_trans c ?_
        split <;> split <;> omega
      unfold maxRejoin at hk d
      unfold maxTimes at ta tb
      unfold INFINITY at d
      unfold U32
      omega)
  have hpen : penalize r (S.at fw times reset cont calls) f = some (S.at fw2 times reset cont calls) := by
    unfold penalize
    have g1 : (S.at fw1 times reset cont calls).forward.weight = fw1 := rfl
    simp only [a1, Option.bind_eq_bind, Option.bind_some, g1, hscan, hlast]
    exact b1
  obtain ⟨any, times', reset', c1, c2, c3, c4, c5⟩ := mark_spec (reset := reset) (cont := cont) (calls := calls) h hi.tl fw2 f.nodes hf.simple hnodes
  refine ⟨fw2, times', reset', any, _, hpen, c1, ?_, ?_⟩
  · have hin : ∀ v ∈ f.nodes, v ∈ reset' := by
      intro v hv
      rw [c4]
      by_cases hz : tm times v = 0
      · exact Or.inr ⟨hv, hz⟩
      · exact Or.inl (hi.tr v hz)
    have hmono : ∀ v, v ∈ reset → v ∈ reset' := fun v hv => (c4 v).2 (Or.inl hv)
    refine ⟨by rw [b2, a2, hi.fl], by rw [c2, hi.tl], ?_, ?_, ?_, ?_, ?_, ?_⟩
    · intro v hv
      rcases (c4 v).1 hv with hv | hv
      · exact hi.rl v hv
      · exact hnodes v hv.1
    · intro e he
      have := hi.lo e he
      have := hge1 e
      have := (b3 e he).1
      omega
    · intro e a b he hne
      have helt := (ends_lt h.wf he).1
      by_cases hz : cnt S times ((windows f.nodes).zip (windows (0 :: sums fw1 0 f.edges))) e = 0
      · have h2 := b3 e helt
        rw [hz] at h2
        by_cases hm : e ∈ f.edges
        · obtain ⟨u, v, q1, q2, q3⟩ := route_edge hf.route e hm
          obtain ⟨rfl, rfl⟩ := ends_unique h.wf he q1
          exact Or.inl (hin _ q2)
        · have h3 := a3 e
          rw [if_neg (fun x => hm x.1)] at h3
          have : wt fw2 e = wt fw e := by omega
          rw [this] at hne
          rcases hi.ch e a b he hne with hx | hx
          · exact Or.inl (hmono _ hx)
          · exact Or.inr (hmono _ hx)
      · have := hcnt e a b he
        by_cases x1 : a ∈ f.nodes
        · exact Or.inl (hin _ x1)
        · by_cases x2 : b ∈ f.nodes
          · exact Or.inr (hin _ x2)
          · rw [if_neg (fun x => x1 x.1), if_neg (fun x => x2 x.1)] at this
            omega
    · intro v hv
      rw [c3] at hv
      by_cases hx : v ∈ f.nodes
      · exact hin v hx
      · rw [if_neg (fun x => hx x.1)] at hv
        exact hmono v (hi.tr v hv)
    · intro v
      rw [c3]
      have := hi.t5 v
      split <;> omega
    · intro e a b he
      have helt := (ends_lt h.wf he).1
      have h2 := (b3 e helt).2
      have h3 := hcnt e a b he
      have h4 := hbnd e a b he
      have h5 := hmul (cnt S times ((windows f.nodes).zip (windows (0 :: sums fw1 0 f.edges))) e)
      rw [c3 a, c3 b]
      unfold maxRejoin at h4 h5 ⊢
      by_cases x1 : a ∈ f.nodes ∧ tm times a < maxTimes <;> by_cases x2 : b ∈ f.nodes ∧ tm times b < maxTimes <;>
        simp only [x1, x2, if_true, if_false, and_self] at h3 ⊢ <;> omega
  · intro hany
    obtain ⟨v, hv1, hv2⟩ := c5.1 hany
    apply sum_lt
    · intro x _
      rw [c3 x]
      split <;> omega
    · refine ⟨v, by simpa using hnodes v hv1, ?_⟩
      rw [c3 v, if_pos ⟨hv1, hv2⟩]
      omega

/-- the call of the loop is valid -/
theorem valid_call (h : Static S) {fw : List Nat} (hi : LInv S fw times reset) {s t : Nat} (hs : s < S.orig.numNodes) (ht : t < S.orig.numNodes) (cap : Nat) (pc : Option Nat) :
    ValidCall S.orig ⟨(S.at fw times reset cont calls).forward, (S.at fw times reset cont calls).backward, s, t, cap, pc⟩ := by
  refine ⟨hs, ht, ⟨fw, hi.fl, ?_, rfl⟩, ?_⟩
  · intro e
    by_cases he : e < S.orig.numArcs
    · exact hi.lo e he
    · have hw := h.wf.weights
      have : ¬ e < S.orig.weight.length := by rw [hw]; exact he
      rw [List.getD_eq_getElem?_getD, List.getElem?_eq_none (by omega)]
      simp
  · exact h.back fw hi.fl

theorem routeOK_of {g : FOGraph} {fw : List Nat} {b : FOGraph} {s t cap : Nat} {pc : Option Nat} {f : Found} (h : FoundOK maxDist ⟨⟨g.firstOut, g.head, fw⟩, b, s, t, cap, pc⟩ f) :
    RouteOK g fw s t f := ⟨h.route, h.source, h.target, h.simple, h.len, h.short⟩

/-- The loop ends, keeps the invariants, and what the judge guarantees holds at the end. -/
theorem loop_ok {α : Type} (h : Static S) (hpos : ∀ e, e < S.orig.numArcs → 0 < wt S.orig.weight e) {dbg : Bool} {ask : Search} (hask : SearchOK dbg maxDist S.orig ask)
    {L : Limits} (hLs : L.s < S.orig.numNodes) (hLt : L.t < S.orig.numNodes) (hLr : L.rejoin ≤ maxRejoin)
    {judge : α → FastClear → Found → Option (Bool × α × FastClear)} (JInv JEnd : α → FastClear → Prop)
    (hj : ∀ acc c f, JInv acc c → RouteOK S.orig S.orig.weight L.s L.t f →
      ∃ stop acc' c', judge acc c f = some (stop, acc', c') ∧ (stop = true → JEnd acc' c') ∧ (stop = false → JInv acc' c'))
    (hend : ∀ acc c, JInv acc c → JEnd acc c) :
    ∀ (fuel : Nat) (acc : α) (fw times reset : List Nat) (cont : FastClear) (calls : Nat) (f : Found), LInv S fw times reset → JInv acc cont →
      RouteOK S.orig fw L.s L.t f → left S.orig.numNodes times < fuel →
      ∃ acc' fw' times' reset' cont' calls', loop ask L judge fuel acc (S.at fw times reset cont calls) f = some (acc', S.at fw' times' reset' cont' calls') ∧
        LInv S fw' times' reset' ∧ JEnd acc' cont'
  | 0, _, _, _, _, _, _, _, _, _, _, hlt => by omega
  | fuel + 1, acc, fw, times, reset, cont, calls, f, hi, hJ, hf, hlt => by
    obtain ⟨fw1, times1, reset1, any, sv1, p1, p2, p3, p4⟩ := round_ok (cont := cont) (calls := calls) h hpos hi hLr hLs hf
    unfold loop
    simp only [p1, Option.bind_eq_bind, Option.bind_some, p2]
    cases any with
    | false =>
      exact ⟨acc, fw1, times1, reset1, cont, calls, by simp, p3, hend _ _ hJ⟩
    | true =>
      simp only [Bool.not_true, Bool.false_eq_true, if_false]
      have hval := valid_call (cont := cont) (calls := calls) h p3 hLs hLt L.cap (some L.maxOrig)
      have hcalls : (S.at fw1 times1 reset1 cont calls).calls = calls := rfl
      cases ha : ask (S.at fw1 times1 reset1 cont calls).calls
          ⟨(S.at fw1 times1 reset1 cont calls).forward, (S.at fw1 times1 reset1 cont calls).backward, L.s, L.t, L.cap, some L.maxOrig⟩ with
      | none =>
        exact ⟨acc, fw1, times1, reset1, cont, calls + 1, rfl, p3, hend _ _ hJ⟩
      | some f' =>
        have hr : RouteOK S.orig fw1 L.s L.t f' := routeOK_of (hask _ _ _ hval ha).1
        have hro : RouteOK S.orig S.orig.weight L.s L.t f' := by
          refine ⟨hr.route, hr.source, hr.target, hr.simple, Nat.le_trans (lenOf_le (fun e he => ?_)) hr.len, hr.short⟩
          obtain ⟨u, v, q, _⟩ := route_edge hr.route e he
          exact p3.lo e (ends_lt h.wf q).1
        obtain ⟨stop, acc', c', j1, j2, j3⟩ := hj acc cont f' hJ hro
        have hcont : (S.at fw1 times1 reset1 cont calls).cont = cont := rfl
        simp only [hcont, j1, Option.bind_some]
        cases stop with
        | true => exact ⟨acc', fw1, times1, reset1, c', calls + 1, rfl, p3, j2 rfl⟩
        | false =>
          have := p4 rfl
          exact loop_ok h hpos hask hLs hLt hLr JInv JEnd hj hend fuel acc' fw1 times1 reset1 c' (calls + 1) f' p3 (j3 rfl) hr (by omega)

end
end Penalty
end Verif
