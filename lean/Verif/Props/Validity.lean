import Verif.Proof.ValiditySched
import Verif.Props.Perfect
set_option linter.unusedSimpArgs false
set_option linter.unusedVariables false
/- Properties of perfect customization with validity (C84). -/
namespace Verif
open Spec CCH

section
variable (orig : FOGraph) (ho : orig.WF) (l : List Nat) (hl : l.length = orig.numNodes) (order : NodeOrder)
  (hord : NodeOrder.fromNodeOrder l = some order) (c : Cch) (hc : build orig order = some c)
include ho hl hord hc

/-- **C84**, bounds. For all bounds and validities, and for every order in which the nodes are processed, the bound stored for an arc afterwards
is a sum of bounds that were there before, along a way between the same nodes, and it is valid from the moment on when the last of them is. An
entry is either left as it was or its bound is lower. -/
theorem C84_bounds (up upFrom down downFrom : List Nat) (h1 : up.length = c.head.length) (h2 : upFrom.length = c.head.length)
    (h3 : down.length = c.head.length) (h4 : downFrom.length = c.head.length) (h5 : ∀ a ∈ up, a ≤ INFINITY) (h6 : ∀ a ∈ down, a ≤ INFINITY)
    (L : List Nat) (hL : ∀ x ∈ L, x < orig.numNodes) :
    ∃ r, withValidity c L ⟨up, down, upFrom, downFrom⟩ = some r ∧
      r.up.length = c.head.length ∧ r.upFrom.length = c.head.length ∧ r.down.length = c.head.length ∧ r.downFrom.length = c.head.length ∧
      (∀ x y w v, StoredBound c.tail c.head r.up r.upFrom r.down r.downFrom x y w v →
        AddedUp (StoredBound c.tail c.head up upFrom down downFrom) x y w v) ∧
      ∀ e : Nat, ((r.up[e]? = up[e]? ∧ r.upFrom[e]? = upFrom[e]?) ∨ ∃ a b, r.up[e]? = some a ∧ up[e]? = some b ∧ a < b) ∧
        ((r.down[e]? = down[e]? ∧ r.downFrom[e]? = downFrom[e]?) ∨ ∃ a b, r.down[e]? = some a ∧ down[e]? = some b ∧ a < b) := by
  have hok : order.OK orig.numNodes := by rw [← hl]; exact NodeOrder.ok_of_fromNodeOrder hord
  rcases build_spec ho hok with h | ⟨c', k1, hg, hb⟩
  · rw [hc] at h; simp at h
  · rw [hc] at k1; simp at k1; subst k1
    have hv : VOK c ⟨up, down, upFrom, downFrom⟩ := ⟨h1, h3, h2, h4, fun e a h => h5 a (List.mem_of_getElem? h), fun e a h => h6 a (List.mem_of_getElem? h)⟩
    obtain ⟨r, q, g1, g2, g3, _⟩ := withValidity_spec hg.toBase hv hL
    have l1 : r.up.length = c.head.length := by rw [g2.up, g3.ul]
    have l3 : r.down.length = c.head.length := by rw [g2.down, g3.dl]
    refine ⟨r, g1, l1, by rw [g2.ul, l1], l3, by rw [g2.dl, l3], ?_, fun e => ⟨g2.ku e, g2.kd e⟩⟩
    rintro x y w v ⟨e, ⟨a1, a2, a3, a4⟩ | ⟨a1, a2, a3, a4⟩⟩
    · exact g2.su e x y w v ⟨a1, a2⟩ a3 a4
    · exact g2.sd e y x w v ⟨a1, a2⟩ a3 a4

/-- **C84**, meaning. If, whatever the traffic is, every bound below `INFINITY` holds for departures from its validity on, this is still so
afterwards. -/
theorem C84_promises (up upFrom down downFrom : List Nat) (h1 : up.length = c.head.length) (h2 : upFrom.length = c.head.length)
    (h3 : down.length = c.head.length) (h4 : downFrom.length = c.head.length) (h5 : ∀ a ∈ up, a ≤ INFINITY) (h6 : ∀ a ∈ down, a ≤ INFINITY)
    (trip : Nat → Nat → Nat → Nat → Prop) (ht : Traffic trip)
    (hp : ∀ x y w v, StoredBound c.tail c.head up upFrom down downFrom x y w v → w < INFINITY → TakesAtMost trip x y w v)
    (L : List Nat) (hL : ∀ x ∈ L, x < orig.numNodes) :
    ∃ r, withValidity c L ⟨up, down, upFrom, downFrom⟩ = some r ∧
      ∀ x y w v, StoredBound c.tail c.head r.up r.upFrom r.down r.downFrom x y w v → w < INFINITY → TakesAtMost trip x y w v := by
  obtain ⟨r, g1, _, _, _, _, g2, _⟩ := C84_bounds orig ho l hl order hord c hc up upFrom down downFrom h1 h2 h3 h4 h5 h6 L hL
  exact ⟨r, g1, fun x y w v h hw => addedUp_takes ht hp (g2 x y w v h) hw⟩

/-- **C84**, potentials. The upper bounds that the interval potential works with are those of the customization with all given bounds valid from
the start. They hold at all times if the given ones do, and none is above the given one. -/
theorem C84_uppers (fw bw : List Nat) (h1 : fw.length = c.head.length) (h2 : bw.length = c.head.length)
    (h3 : ∀ a ∈ fw, a ≤ INFINITY) (h4 : ∀ a ∈ bw, a ≤ INFINITY) (trip : Nat → Nat → Nat → Nat → Prop) (ht : Traffic trip)
    (hp : ∀ (e x y a : Nat), c.tail[e]? = some x → c.head[e]? = some y → a < INFINITY →
      (fw[e]? = some a → TakesAtMost trip x y a 0) ∧ (bw[e]? = some a → TakesAtMost trip y x a 0))
    (L : List Nat) (hL : ∀ x ∈ L, x < orig.numNodes) :
    ∃ fw' bw' r, tightenUppers c L fw bw = some (fw', bw') ∧
      withValidity c L ⟨fw, bw, List.replicate c.head.length 0, List.replicate c.head.length 0⟩ = some r ∧ fw' = r.up ∧ bw' = r.down ∧
      ∀ (e x y : Nat), c.tail[e]? = some x → c.head[e]? = some y → ∃ a b a0 b0, fw'[e]? = some a ∧ bw'[e]? = some b ∧
        fw[e]? = some a0 ∧ bw[e]? = some b0 ∧ a ≤ a0 ∧ b ≤ b0 ∧
        (a < INFINITY → TakesAtMost trip x y a 0) ∧ (b < INFINITY → TakesAtMost trip y x b 0) := by
  obtain ⟨r, g1, g2, g3, g4, g5, g6, g7⟩ := C84_bounds orig ho l hl order hord c hc fw (List.replicate c.head.length 0) bw (List.replicate c.head.length 0)
    h1 (by simp) h2 (by simp) h3 h4 L hL
  have zip : ∀ {l l' m m' : List Nat}, l'.length = l.length → KeptOr l m l' m' → l.zipWith min l' = l' := by
    intro l l' m m' hl hk
    apply List.ext_getElem?
    intro e
    rw [List.getElem?_zipWith]
    rcases hk e with ⟨h, _⟩ | ⟨a, b, h, h', hab⟩
    · rw [h]; cases l[e]? <;> simp
    · rw [h, h']; simp; omega
  refine ⟨fw.zipWith min r.up, bw.zipWith min r.down, r, by simp only [tightenUppers, g1, Option.bind_eq_bind, Option.bind_some, Option.pure_def], g1,
    zip (by omega) (fun e => (g7 e).1), zip (by omega) (fun e => (g7 e).2), ?_⟩
  have hp' : ∀ x y w v, StoredBound c.tail c.head fw (List.replicate c.head.length 0) bw (List.replicate c.head.length 0) x y w v → w < INFINITY →
      TakesAtMost trip x y w 0 := by
    rintro x y w v ⟨e, ⟨a1, a2, a3, a4⟩ | ⟨a1, a2, a3, a4⟩⟩ hw
    · exact (hp e x y w a1 a2 hw).1 a3
    · exact (hp e y x w a1 a2 hw).2 a3
  have zero : ∀ {x y w v}, AddedUp (StoredBound c.tail c.head fw (List.replicate c.head.length 0) bw (List.replicate c.head.length 0)) x y w v → v = 0 := by
    intro x y w v h
    induction h with
    | one h =>
      obtain ⟨e, ⟨_, _, _, h⟩ | ⟨_, _, _, h⟩⟩ := h <;> rw [List.getElem?_replicate] at h <;> split at h <;> simp at h <;> exact h.symm
    | join _ _ i1 i2 => subst i1; subst i2; rfl
  have fin : ∀ x y w v, StoredBound c.tail c.head r.up r.upFrom r.down r.downFrom x y w v → w < INFINITY → TakesAtMost trip x y w 0 := by
    intro x y w v h hw
    have k := g6 x y w v h
    have := zero k
    subst this
    refine addedUp_takes ht ?_ k hw
    rintro x y w v hb hlt
    have := zero (.one hb)
    subst this
    exact hp' _ _ _ _ hb hlt
  intro e x y hx hy
  have hel : e < c.head.length := (List.getElem?_eq_some_iff.1 hy).1
  have q1 : r.up[e]? = some (r.up[e]'(by omega)) := List.getElem?_eq_getElem _
  have q2 : r.down[e]? = some (r.down[e]'(by omega)) := List.getElem?_eq_getElem _
  have q3 : fw[e]? = some (fw[e]'(by omega)) := List.getElem?_eq_getElem _
  have q4 : bw[e]? = some (bw[e]'(by omega)) := List.getElem?_eq_getElem _
  have q5 : r.upFrom[e]? = some (r.upFrom[e]'(by omega)) := List.getElem?_eq_getElem _
  have q6 : r.downFrom[e]? = some (r.downFrom[e]'(by omega)) := List.getElem?_eq_getElem _
  refine ⟨_, _, _, _, by rw [List.getElem?_zipWith, q3, q1], by rw [List.getElem?_zipWith, q4, q2], q3, q4, Nat.min_le_left _ _, Nat.min_le_left _ _, ?_, ?_⟩
  · intro hlt
    rcases Nat.le_total (fw[e]'(by omega)) (r.up[e]'(by omega)) with h | h
    · rw [Nat.min_eq_left h] at hlt ⊢; exact (hp e x y _ hx hy hlt).1 q3
    · rw [Nat.min_eq_right h] at hlt ⊢; exact fin x y _ _ ⟨e, .inl ⟨hx, hy, q1, q5⟩⟩ hlt
  · intro hlt
    rcases Nat.le_total (bw[e]'(by omega)) (r.down[e]'(by omega)) with h | h
    · rw [Nat.min_eq_left h] at hlt ⊢; exact (hp e x y _ hx hy hlt).2 q4
    · rw [Nat.min_eq_right h] at hlt ⊢; exact fin y x _ _ ⟨e, .inr ⟨hx, hy, q2, q6⟩⟩ hlt

/-- **C84**, weights. After a customization with a metric, keeping track of the validity does not change the weights: they are the shortest
distances between the end points of the arcs. -/
theorem C84_weights (metric : FOGraph) (hm : metric.WF) (hfo : metric.firstOut = orig.firstOut) (hhd : metric.head = orig.head)
    (upFrom downFrom : List Nat) (h2 : upFrom.length = c.head.length) (h4 : downFrom.length = c.head.length) :
    ∃ w r p, customize c metric = some w ∧ withValidity c (List.range c.numNodes).reverse ⟨w.up, w.down, upFrom, downFrom⟩ = some r ∧
      perfect c (List.range c.numNodes).reverse w = some p ∧ r.up = p.up ∧ r.down = p.down ∧
      ∀ (e x y u v : Nat), c.tail[e]? = some x → c.head[e]? = some y → order.node x = some u → order.node y = some v →
        ∃ a b, r.up[e]? = some a ∧ r.down[e]? = some b ∧ CappedDist metric.Arc u v a ∧ CappedDist metric.Arc v u b := by
  obtain ⟨w, p, k1, k2, k3⟩ := C34_perfect_weights orig ho l hl order hord c hc metric hm hfo hhd
  have hok : order.OK orig.numNodes := by rw [← hl]; exact NodeOrder.ok_of_fromNodeOrder hord
  rcases build_spec ho hok with h | ⟨c', k4, hg, hb⟩
  · rw [hc] at h; simp at h
  · rw [hc] at k4; simp at k4; subst k4
    obtain ⟨w', m1, m2⟩ := perf_of ho hok hg hb ⟨hm, hfo, hhd⟩
    rw [k1] at m1; injection m1 with m1; subst m1
    obtain ⟨p', w0, m3, m4⟩ := m2 _ (topDown_range hg.toBase)
    have hw := m4.cust.ok
    have hv : VOK c ⟨w.up, w.down, upFrom, downFrom⟩ := by
      refine ⟨hw.ul, hw.dl, h2, h4, ?_, ?_⟩
      · intro e a ha
        have hel : e < c.head.length := by rw [← hw.ul]; exact (List.getElem?_eq_some_iff.1 ha).1
        have := hw.up_get hel
        rw [show w.up[e]? = some a from ha] at this; injection this with this
        rw [this]; exact hw.ub e hel
      · intro e a ha
        have hel : e < c.head.length := by rw [← hw.dl]; exact (List.getElem?_eq_some_iff.1 ha).1
        have := hw.down_get hel
        rw [show w.down[e]? = some a from ha] at this; injection this with this
        rw [this]; exact hw.db e hel
    have hnn : c.numNodes = orig.numNodes := hg.nn
    obtain ⟨r, q, g1, g2, g3, g4⟩ := withValidity_spec hg.toBase hv (L := (List.range c.numNodes).reverse) (by
      intro x hx; rw [← hnn]; simpa using hx)
    have hq : q = p := by
      have k5 := k2
      simp only [perfect, Option.bind_eq_bind, Option.pure_def] at k5
      simp only [VW.start, Option.map_eq_bind] at g4
      have : some q = some p := by rw [← g4, ← k5]; rfl
      injection this
    subst hq
    refine ⟨w, r, q, k1, g1, k2, g2.up, g2.down, ?_⟩
    intro e x y u v hx hy hu hv
    obtain ⟨a, b, _, _, n1, n2, n3, n4, _⟩ := k3 e x y u v hx hy hu hv
    exact ⟨a, b, by rw [g2.up]; exact n1, by rw [g2.down]; exact n2, n3, n4⟩

/-- **C84**, schedules. The result is that of the sequential algorithm for every order of the steps in which all upward neighbours of a node
come before it; so in particular for the reverse of every execution of the tasks of the basic customization if the separator tree is valid for
parallelization. This is so for all bounds and validities, and although several ways may give the same bound with different validities. -/
theorem C84_schedule_independent (up upFrom down downFrom : List Nat) (h1 : up.length = c.head.length) (h2 : upFrom.length = c.head.length)
    (h3 : down.length = c.head.length) (h4 : downFrom.length = c.head.length) (h5 : ∀ a ∈ up, a ≤ INFINITY) (h6 : ∀ a ∈ down, a ≤ INFINITY) :
    ∃ r, withValidity c (List.range c.numNodes).reverse ⟨up, down, upFrom, downFrom⟩ = some r ∧
      (∀ L : List Nat, L.Perm (List.range orig.numNodes) →
        (∀ P x Q, L = P ++ x :: Q → ∀ up y, heads c.topo x = some up → y ∈ up → y ∈ P) → withValidity c L ⟨up, down, upFrom, downFrom⟩ = some r) ∧
      (∀ t, SepTree.new c.elimTree = some t → validate t = some () → ∀ thr task, plan c thr t 0 0 c.head.length = some task →
        ∀ S, task.Runs S → withValidity c (S.map Step.node).reverse ⟨up, down, upFrom, downFrom⟩ = some r) := by
  have hok : order.OK orig.numNodes := by rw [← hl]; exact NodeOrder.ok_of_fromNodeOrder hord
  rcases build_spec ho hok with h | ⟨c', k1, hg, hb⟩
  · rw [hc] at h; simp at h
  · rw [hc] at k1; simp at k1; subst k1
    have hv : VOK c ⟨up, down, upFrom, downFrom⟩ := ⟨h1, h3, h2, h4, fun e a h => h5 a (List.mem_of_getElem? h), fun e a h => h6 a (List.mem_of_getElem? h)⟩
    have hnn : c.numNodes = orig.numNodes := hg.nn
    obtain ⟨r, q, g1, _⟩ := withValidity_spec hg.toBase hv (L := (List.range c.numNodes).reverse) (by
      intro x hx; rw [← hnn]; simpa using hx)
    have hT := topDown_range hg.toBase
    rw [← hnn] at hT
    have same : ∀ L, TopDown orig.numNodes c L → withValidity c L ⟨up, down, upFrom, downFrom⟩ = some r := by
      intro L hL
      rw [← g1]
      refine withValidity_same hg.toBase hg.tailLen ?_ hv hL (hnn ▸ hT)
      intro e x hx
      have hel : e < c.head.length := by rw [← hg.tailLen]; exact (List.getElem?_eq_some_iff.1 hx).1
      exact hg.edge_lt (⟨hx, List.getElem?_eq_getElem hel⟩ : c.Edge e x _)
    refine ⟨r, g1, ?_, ?_⟩
    · intro L hL hbef
      refine same L ⟨hL.nodup_iff.2 List.nodup_range, fun x => by rw [hL.mem_iff, List.mem_range], ?_⟩
      intro P x Q hE e z he
      obtain ⟨up, k1, _, k2⟩ := hg.heads (hg.edge_lt he)
      exact hbef P x Q hE up z k1 ((k2 z).2 ⟨e, he⟩)
    · intro t ht hv thr task hplan S hS
      obtain ⟨task', k1, _, k2⟩ := plan_spec hg hg.treeOK thr ht hv
      rw [hplan] at k1; simp at k1; subst k1
      have hseg := k2 S hS
      exact same _ (topDown_of_reverse hg.toBase ⟨hseg.nodup, fun x => by rw [hseg.mem]; omega, hseg.before⟩)

end

namespace ValidityExample
open PerfectExample

/-- Bounds on the example network of perfect customization; the bound for 1–2 holds from 7 on, that for 2–3 from 4 on, others from the start. The
bound for 0–1 is lowered from 10 to 2 over 2, so it holds from 7 on; that for 2–4 is lowered to 3 and holds from 4 on. -/
example : ((build orig order).bind fun c => (customize c orig).bind fun w =>
    (withValidity c (List.range c.numNodes).reverse ⟨w.up, w.down, [0, 0, 7, 0, 4, 0, 0], [0, 0, 7, 0, 4, 0, 0]⟩).map fun r =>
      (r.up, r.upFrom, r.downFrom)) =
    some ([2, 1, 1, 3, 2, 3, 1], [7, 0, 7, 7, 4, 4, 0], [7, 0, 7, 7, 4, 4, 0]) := by decide +kernel

/-- The example meets the hypotheses of `C84_promises`, here for an order from the bottom and traffic in which every way takes at least one
unit of time before 7. -/
example (c : Cch) (hc : build orig order = some c) : ∃ r, withValidity c (List.range 5) ⟨[10, 1, 1, 5, 2, 9, 1], [10, 1, 1, 5, 2, 9, 1],
    [0, 0, 7, 0, 4, 0, 0], [0, 0, 7, 0, 4, 0, 0]⟩ = some r := by
  have h := built
  rw [hc] at h; simp at h
  have hh : c.head.length = 7 := by rw [h.1]; rfl
  obtain ⟨r, h, _⟩ := C84_promises orig orig_wf nodes rfl order order_ok c hc [10, 1, 1, 5, 2, 9, 1] [0, 0, 7, 0, 4, 0, 0] [10, 1, 1, 5, 2, 9, 1]
    [0, 0, 7, 0, 4, 0, 0] (by rw [hh]; rfl) (by rw [hh]; rfl) (by rw [hh]; rfl) (by rw [hh]; rfl) (by decide) (by decide)
    (fun _ _ t a => t ≤ a ∧ (t < 7 → t + 1 ≤ a)) ⟨fun _ _ _ _ h => h.1, fun _ _ _ _ _ _ h h' => by omega⟩ (by
      have key : ∀ w ∈ [10, 1, 1, 5, 2, 9, 1], 1 ≤ w := by decide
      rintro x y w v hb _ t _
      have hw : 1 ≤ w := by
        obtain ⟨e, ⟨_, _, h, _⟩ | ⟨_, _, h, _⟩⟩ := hb <;> exact key w (List.mem_of_getElem? h)
      exact ⟨t + 1, ⟨by omega, by omega⟩, by omega⟩) (List.range 5) (by decide)
  exact ⟨r, h⟩

end ValidityExample

end Verif
