import Verif.Proof.MultiMetricPot
set_option linter.unusedSimpArgs false
set_option linter.unusedVariables false
/- The graphs of the potential: the edges that are kept, with the weights of any metric. -/
namespace Verif
namespace MultiMetric
open Spec CCH

variable {n : Nat} {c : Cch}

theorem firstNodes_spec (hg : Base n c) {k : Nat} (hk : 0 < k) (hm : (k - 1) * ((c.head.length + k - 1) / k) < c.head.length) (h0 : c.tail[0]? = some 0) :
    ∃ (firsts : List Nat) (a : Nat → Nat), firstNodes c k = some firsts ∧ (∀ j, j ≤ k → firsts[j]? = some (a j)) ∧ (∀ j, j < k → a j ≤ a (j + 1)) ∧ a 0 = 0 ∧ a k = n := by
  generalize hsz : (c.head.length + k - 1) / k = size at hm
  have hmpos : 0 < c.head.length := by omega
  have hsize : 0 < size := by
    rw [← hsz]; exact Nat.div_pos (by omega) hk
  have hup : c.head.length ≤ k * size := by
    have h1 := Nat.div_add_mod (c.head.length + k - 1) k
    have h2 := Nat.mod_lt (c.head.length + k - 1) hk
    rw [hsz] at h1; omega
  have hcnt : (c.head.length + size - 1) / size = k := by
    apply Nat.div_eq_of_lt_le
    · have : k * size = (k - 1) * size + size := by
        obtain ⟨j, rfl⟩ : ∃ j, k = j + 1 := ⟨k - 1, by omega⟩
        simp [Nat.add_mul]
      omega
    · rw [Nat.add_mul]; omega
  let a : Nat → Nat := fun j => if j < k then (c.tail[j * size]?).getD 0 else n
  have hidx : ∀ j, j < k → j * size < c.head.length := by
    intro j hj
    have : j * size ≤ (k - 1) * size := Nat.mul_le_mul_right _ (by omega)
    omega
  have htl : ∀ j, j < k → c.tail[j * size]? = some (a j) := by
    intro j hj
    have := hidx j hj
    rw [← hg.tailLen] at this
    simp [a, hj, List.getElem?_eq_getElem this]
  have hltn : ∀ j, j < k → a j < n := by
    intro j hj
    obtain ⟨x, y, h1, h2, _⟩ := (hg.range _ _).1 (htl j hj)
    have h3 : c.firstOut.length - 1 = n := hg.nn
    have h4 : a j + 1 < c.firstOut.length := by
      by_contra hc
      rw [List.getElem?_eq_none (by omega)] at h2; simp at h2
    omega
  have hfirsts : firstNodes c k = some ((List.range k).map a ++ [n]) := by
    have hne : size ≠ 0 := by omega
    have : (List.range k).mapM (fun i => c.tail[i * size]?) = some ((List.range k).map a) := by
      apply Verif.mapM_some
      intro j hj; exact htl j (List.mem_range.1 hj)
    simp only [firstNodes, hsz, hne, if_false, hcnt, this, Option.bind_eq_bind, Option.bind_some, Option.pure_def]
    rw [show c.numNodes = n from hg.nn]
  have hget : ∀ j, j ≤ k → ((List.range k).map a ++ [n])[j]? = some (a j) := by
    intro j hj
    by_cases hjk : j < k
    · rw [List.getElem?_append_left (by simpa using hjk), List.getElem?_map, List.getElem?_range hjk]; rfl
    · have : j = k := by omega
      subst this
      rw [List.getElem?_append_right (by simp)]
      simp [a]
  have hmono : ∀ j, j < k → a j ≤ a (j + 1) := by
    intro j hj
    by_cases hj1 : j + 1 < k
    · have h1 := (hg.tail_iff (hltn j hj)).1 (htl j hj)
      have h2 := (hg.tail_iff (hltn _ hj1)).1 (htl _ hj1)
      by_contra hc
      have h3 := hg.first_mono (u := a (j + 1) + 1) (v := a j) (by omega) (Nat.le_of_lt (hltn j hj))
      have : j * size ≤ (j + 1) * size := Nat.mul_le_mul_right _ (by omega)
      omega
    · have : a (j + 1) = n := by simp [a, hj1]
      rw [this]; exact Nat.le_of_lt (hltn j hj)
  have ha0 : a 0 = 0 := by
    have := htl 0 hk
    rw [Nat.zero_mul, h0] at this; simpa using this.symm
  have hak : a k = n := by simp [a]
  exact ⟨_, a, hfirsts, hget, hmono, ha0, hak⟩

theorem metricAt_flatten {m : Nat} : ∀ (l : List (List Nat)), (∀ x ∈ l, x.length = m) → ∀ i x, l[i]? = some x → metricAt l.flatten m i = some x := by
  intro l hl i x hx
  have hlen : ∀ (l : List (List Nat)), (∀ x ∈ l, x.length = m) → l.flatten.length = m * l.length := by
    intro l
    induction l with
    | nil => simp
    | cons y l ih =>
      intro h
      have := ih (fun x hx => h x (by simp [hx]))
      have := h y (by simp)
      simp only [List.flatten_cons, List.length_append, List.length_cons, Nat.mul_add, Nat.mul_one]; omega
  have hi : i < l.length := (List.getElem?_eq_some_iff.1 hx).1
  have hsplit : l = l.take i ++ x :: l.drop (i + 1) := by
    rw [← (List.getElem?_eq_some_iff.1 hx).2, List.getElem_cons_drop, List.take_append_drop]
  have hxm : x.length = m := hl x (List.mem_of_getElem? hx)
  have h1 : (l.take i).flatten.length = m * i := by
    rw [hlen _ (fun y hy => hl y (List.mem_of_mem_take hy)), List.length_take, Nat.min_eq_left (by omega)]
  have h2 : m * (i + 1) = m * i + m := by simp [Nat.mul_add]
  have h3 : m * (i + 1) ≤ l.flatten.length := by rw [hlen l hl]; exact Nat.mul_le_mul_left _ hi
  unfold metricAt slice
  rw [if_pos ⟨by omega, h3⟩]
  congr 1
  rw [hsplit, List.flatten_append, List.flatten_cons, h2, show m * i + m - m * i = m by omega, ← h1, List.drop_left, ← hxm, List.take_left]

/-- the input of the filter -/
def inOf (c : Cch) (lower upper x : List Nat) : SideIn :=
  ⟨x, List.zipWith (fun l u => !(decide (l ≤ u))) lower upper, List.replicate c.head.length (none, none)⟩

theorem inOf_ok {lower upper x : List Nat} (hl : lower.length = c.head.length) (hu : upper.length = c.head.length) (hx : x.length = c.head.length) :
    InOK c (inOf c lower upper x) := by
  refine ⟨hx, by simp [inOf, hl, hu], by simp [inOf], ?_⟩
  intro e y _ u hu'
  simp only [inOf, List.getElem?_replicate] at hu'
  split at hu'
  · simp at hu'; subst hu'; simp
  · simp at hu'

theorem kp_inOf {lower upper x : List Nat} {e l u : Nat} (hl : lower[e]? = some l) (hu : upper[e]? = some u) : kp (inOf c lower upper x) e = decide (l ≤ u) := by
  simp [kp, inOf, List.getElem?_zipWith, hl, hu]

theorem kp_inOf_eq (lower upper x y : List Nat) : kp (inOf c lower upper x) = kp (inOf c lower upper y) := rfl

theorem filterSide_spec (hg : Base n c) {k : Nat} (hk : 0 < k) (hm : (k - 1) * ((c.head.length + k - 1) / k) < c.head.length) (h0 : c.tail[0]? = some 0)
    {lower upper : List Nat} (hl : lower.length = c.head.length) (hu : upper.length = c.head.length) {xs : List (List Nat)} (hxs : ∀ x ∈ xs, x.length = c.head.length) :
    ∃ fo head metrics, filterSide c k lower upper xs.flatten = some (fo, head, metrics) ∧
      ∀ i x, xs[i]? = some x → ∃ y, metricAt metrics head.length i = some y ∧
        (⟨fo, head, y⟩ : FOGraph) = (sideAt c (inOf c lower upper x) (inOf c lower upper x) (inOf c lower upper x) n c.head.length).graph := by
  obtain ⟨firsts, a, e1, e2, e3, e4, e5⟩ := firstNodes_spec hg hk hm h0
  have r : ∀ x : List Nat, x.length = c.head.length → _ := fun x hx => rebuildSide_spec hg (inOf_ok (c := c) hl hu hx) e2 e3 e4 e5
  let K := (List.range c.head.length).filter (kp (inOf c lower upper lower))
  have hlen : xs.flatten.length / c.head.length = xs.length := by
    have : ∀ (l : List (List Nat)), (∀ x ∈ l, x.length = c.head.length) → l.flatten.length = l.length * c.head.length := by
      intro l
      induction l with
      | nil => simp
      | cons y l ih =>
        intro h
        have := ih (fun x hx => h x (by simp [hx]))
        have := h y (by simp)
        simp only [List.flatten_cons, List.length_append, List.length_cons, Nat.add_mul, Nat.one_mul]; omega
    rw [this xs hxs, Nat.mul_div_cancel _ (by omega)]
  have hw : (List.range (xs.flatten.length / c.head.length)).mapM (fun i => do
      let x ← metricAt xs.flatten c.head.length i
      let p ← rebuildSide c (inOf c lower upper x) k firsts
      return p.recs.map EdgeRec.weight) = some (xs.map (fun x => K.map (fun e => (x[e]?).getD 0))) := by
    rw [hlen]
    have : xs.map (fun x => K.map (fun e => (x[e]?).getD 0)) = (List.range xs.length).map (fun i => K.map (fun e => (((xs[i]?).getD [])[e]?).getD 0)) := by
      apply List.ext_getElem?
      intro i
      by_cases hi : i < xs.length
      · simp [List.getElem?_range hi, List.getElem?_eq_getElem hi]
      · rw [List.getElem?_eq_none (by simpa using hi), List.getElem?_eq_none (by simpa using hi)]
    rw [this]
    apply Verif.mapM_some
    intro i hi
    have hi' := List.mem_range.1 hi
    have hx := List.getElem?_eq_getElem hi'
    have hxm := hxs _ (List.mem_of_getElem? hx)
    simp only [metricAt_flatten xs hxs i _ hx, r _ hxm, Option.bind_eq_bind, Option.bind_some, Option.pure_def, hx, Option.getD_some, List.map_map]
    rfl
  refine ⟨(List.range (n + 1)).map (fun v => kcount (inOf c lower upper lower) (first c v)), K.map (fun e => (recOf c (inOf c lower upper lower) e).head),
    (xs.map (fun x => K.map (fun e => (x[e]?).getD 0))).flatten, ?_, ?_⟩
  · unfold filterSide
    simp only [e1, Option.bind_eq_bind, Option.bind_some]
    have := r lower hl
    unfold inOf at this hw
    simp only [this, Option.bind_some]
    simp only [Option.bind_eq_bind] at hw
    rw [hw]; simp only [Option.bind_some, Option.pure_def, List.map_map]; rfl
  · intro i x hx
    refine ⟨K.map (fun e => (x[e]?).getD 0), ?_, ?_⟩
    · apply metricAt_flatten
      · intro y hy
        obtain ⟨z, _, rfl⟩ := List.mem_map.1 hy
        simp [K]
      · simp [hx]
    · simp only [sideAt, Side.graph, List.map_map]
      rfl

/-- The graph of the kept edges. -/
theorem kept_graph (hg : Good n c) {lower upper x : List Nat} (hl : lower.length = c.head.length) (hu : upper.length = c.head.length)
    (hx : x.length = c.head.length) (hb : ∀ w ∈ x, w ≤ INFINITY) {G : FOGraph}
    (hG : G = (sideAt c (inOf c lower upper x) (inOf c lower upper x) (inOf c lower upper x) n c.head.length).graph) :
    DirOK n c.elimTree G ∧ ∀ e a b w l u, c.Edge e a b → lower[e]? = some l → upper[e]? = some u → l ≤ u → x[e]? = some w → G.Arc a b w := by
  have hi := inOf_ok (c := c) hl hu hx
  obtain ⟨h1, h2⟩ := side_wf (fw := inOf c lower upper x) (bw := inOf c lower upper x) hg.toBase hi
  rw [← hG] at h1 h2
  have hE : ∀ {j a b w}, G.E j a b w ↔ ∃ e, c.Edge e a b ∧ kp (inOf c lower upper x) e = true ∧ j = kcount (inOf c lower upper x) e ∧ x[e]? = some w := by
    intro j a b w; rw [hG]; exact side_E hg.toBase hi
  have harc : ∀ {a b w}, G.Arc a b w → ∃ e, c.Edge e a b ∧ x[e]? = some w := by
    intro a b w h
    obtain ⟨j, hj⟩ := (edgeAt_arc h1).1 h
    obtain ⟨e, e1, _, _, e2⟩ := hE.1 hj
    exact ⟨e, e1, e2⟩
  refine ⟨⟨h1, h2, ?_, ?_, ?_⟩, ?_⟩
  · intro a b w h; obtain ⟨e, he, _⟩ := harc h; exact (hg.up he).1
  · intro a b w h; obtain ⟨e, he, _⟩ := harc h; exact hg.anc he
  · intro a b w h; obtain ⟨e, _, hw⟩ := harc h; exact hb w (List.mem_of_getElem? hw)
  · intro e a b w l u he e1 e2 hle hw
    refine (edgeAt_arc h1).2 ⟨_, hE.2 ⟨e, he, ?_, rfl, hw⟩⟩
    rw [kp_inOf e1 e2]; simpa using hle

/-- upward arcs that are kept -/
def KUp (c : Cch) (wG : Weights) (pU : PW) (w : Weights) (x y l : Nat) : Prop := ∃ e, c.Edge e x y ∧ wG.u e ≤ pU.u e ∧ l = w.u e
/-- downward arcs that are kept, from the lower to the higher end -/
def KDown (c : Cch) (wG : Weights) (pU : PW) (w : Weights) (x y l : Nat) : Prop := ∃ e, c.Edge e x y ∧ wG.d e ≤ pU.d e ∧ l = w.d e

theorem walk_sound (hg : Base n c) {O : Nat → Nat → Nat → Prop} {w0 w : Weights} (h0 : InitOK c O w0) (h : Solved c w0 w (fun x => x < n)) {x y d : Nat}
    (hw : Walk (CArc c w) x y d) : d < INFINITY → Walk O x y d := by
  induction hw with
  | nil u => intro _; exact .nil u
  | cons h1 _ ih => intro hd; exact (Solved.sound hg h0 h h1 (by omega)).append (ih (by omega))

/-- Timed paths that are never later than any path in the metric of upper bounds give `TPath`. -/
theorem tpath_of {OG OU : Nat → Nat → Nat → Prop} {w0G wG w0U wU : Weights} {pU : PW} (hG : Customized n c OG w0G wG) (hU : Perf n c OU w0U wU pU)
    {O : Nat → Nat → Nat → Nat → Prop} {W0 W : Nat → Weights} {M : Nat} (hW : ∀ m, m < M → Customized n c (O m) (W0 m) (W m))
    {dep latest t k : Nat} {S p a : Nat → Nat} (hlat : latest < INFINITY) (hlast : p k = t) (hlt : ∀ i, i ≤ k → p i < n) (hdep : dep ≤ a 0) (harr : a k ≤ latest)
    (hOG : ∀ l, l < k → ∃ w, OG (p l) (p (l + 1)) w ∧ a l + w ≤ a (l + 1))
    (hO : ∀ m l, m < M → l < k → S m ≤ a l → ∃ w, O m (p l) (p (l + 1)) w ∧ a l + w ≤ a (l + 1))
    (hOU : ∀ i j d, i < j → j ≤ k → Walk OU (p i) (p j) d → a j ≤ a i + d) :
    TPath n dep latest t S M (fun m => KUp c wG pU (W m)) (fun m => KDown c wG pU (W m)) k p a := by
  have hg := hG.good
  have hmono : ∀ i, i < k → a i ≤ a (i + 1) := by
    intro i hi; obtain ⟨w, _, h⟩ := hOG i hi; omega
  have hle : ∀ {i j}, i ≤ j → j ≤ k → a i ≤ a j := fun h1 h2 => mono_le h1 (fun l l1 l2 => hmono l (by omega))
  have hsegG : ∀ i j, i < j → j ≤ k → Inner p i j → p i ≠ p j → ∃ w, CArc c wG (p i) (p j) w ∧ a i + w ≤ a j := fun i j h1 h2 h3 h4 =>
    seg hG.tri hG.covers (j - i) i j (by omega) h1 (fun l l1 l2 => hOG l (by omega)) h3 h4
  have hseg : ∀ m i j, m < M → S m ≤ a i → i < j → j ≤ k → Inner p i j → p i ≠ p j → ∃ w, CArc c (W m) (p i) (p j) w ∧ a i + w ≤ a j := by
    intro m i j hm hS h1 h2 h3 h4
    exact seg (hW m hm).tri (hW m hm).covers (j - i) i j (by omega) h1 (fun l l1 l2 => hO m l hm (by omega) (by
      have := hle l1 (by omega); omega)) h3 h4
  refine ⟨hlast, hlt, hmono, hdep, harr, ?_, ?_⟩
  · intro m i j hm hS hij hj hin hp
    obtain ⟨w, h1, h2⟩ := hseg m i j hm hS hij hj hin (by omega)
    obtain ⟨wg, h3, h4⟩ := hsegG i j hij hj hin (by omega)
    obtain ⟨e, he, rfl⟩ := h1.up hg.toBase hp
    obtain ⟨e', he', rfl⟩ := h3.up hg.toBase hp
    have hee := hg.toBase.unique he he'
    subst hee
    refine ⟨_, ⟨e, he, ?_, rfl⟩, h2⟩
    have hj' := hle hj (Nat.le_refl k)
    by_cases hinf : pU.u e < INFINITY
    · have := hOU i j _ hij hj (walk_sound hg.toBase hU.cust.init hU.cust.solved ((hU.sound he).1 hinf) hinf)
      omega
    · omega
  · intro m i j hm hS hij hj hin hp
    obtain ⟨w, h1, h2⟩ := hseg m i j hm hS hij hj hin (by omega)
    obtain ⟨wg, h3, h4⟩ := hsegG i j hij hj hin (by omega)
    obtain ⟨e, he, rfl⟩ := h1.down hg.toBase hp
    obtain ⟨e', he', rfl⟩ := h3.down hg.toBase hp
    have hee := hg.toBase.unique he he'
    subst hee
    refine ⟨_, ⟨e, he, ?_, rfl⟩, h2⟩
    have hj' := hle hj (Nat.le_refl k)
    by_cases hinf : pU.d e < INFINITY
    · have := hOU i j _ hij hj (walk_sound hg.toBase hU.cust.init hU.cust.solved ((hU.sound he).2 hinf) hinf)
      omega
    · omega

end MultiMetric
end Verif
