import Verif.Model.Alt
import Verif.Props.Dijkstra
import Verif.Props.Graph
import Verif.Proof.CCHBuild
set_option linter.unusedSimpArgs false
set_option linter.unusedVariables false
namespace Verif.Alt
open Spec DData

theorem _root_.Verif.Spec.CappedDist.le {A : Nat → Nat → Nat → Prop} {s v x d : Nat} (h : CappedDist A s v x) (hw : Walk A s v d) : x ≤ d := by
  obtain ⟨h1, h2⟩ := h
  by_cases hx : x < INFINITY
  · simp only [hx, if_true] at h2
    exact ((h2 x).1 rfl).1.2 d hw
  · simp only [hx, if_false] at h2
    have := h2.none_iff.1 rfl d hw
    omega

theorem _root_.Verif.Spec.CappedDist.walk {A : Nat → Nat → Nat → Prop} {s v x : Nat} (h : CappedDist A s v x) (hx : x < INFINITY) : Walk A s v x := by
  obtain ⟨h1, h2⟩ := h
  simp only [hx, if_true] at h2
  exact ((h2 x).1 rfl).1.1

theorem _root_.Verif.Spec.CappedDist.unique {A : Nat → Nat → Nat → Prop} {s v x y : Nat} (h : CappedDist A s v x) (h' : CappedDist A s v y) : x = y := by
  have h1 := h.1
  have h2 := h'.1
  by_cases hx : x < INFINITY
  · have := h'.le (h.walk hx)
    have := h.le (h'.walk (by omega))
    omega
  · by_cases hy : y < INFINITY
    · have := h.le (h'.walk hy); omega
    · omega

theorem _root_.Verif.Spec.CappedDist.self {A : Nat → Nat → Nat → Prop} {s x : Nat} (h : CappedDist A s s x) : x = 0 := by
  have := h.le (.nil s); omega

/-- along an arc -/
theorem _root_.Verif.Spec.CappedDist.arc {A : Nat → Nat → Nat → Prop} {s u v w x y : Nat} (hu : CappedDist A s u x) (hv : CappedDist A s v y) (ha : A u v w) : y ≤ x + w := by
  by_cases hx : x < INFINITY
  · exact hv.le ((hu.walk hx).snoc ha)
  · have := hv.1; omega

/-- Every weight belongs to a link. -/
theorem _root_.Verif.FOGraph.WF.weight_link {g : FOGraph} (h : g.WF) {w : Nat} (hw : w ∈ g.weight) :
    ∃ u ls l, g.linkIter u = some ls ∧ l ∈ ls ∧ l.weight = w := by
  rw [h.reps.weight] at hw
  simp only [List.mem_map, List.mem_flatten] at hw
  obtain ⟨l, ⟨ls, h1, h2⟩, h3⟩ := hw
  obtain ⟨u, hu⟩ := List.mem_iff_getElem?.1 h1
  exact ⟨u, ls, l, by rw [h.linkIter]; exact hu, h2, h3⟩

/-- a table of distances from each landmark -/
def Table (A : Nat → Nat → Nat → Prop) (n : Nat) (landmarks : List Nat) (f : List (List Nat)) : Prop :=
  f.length = landmarks.length ∧ ∀ (i l : Nat), landmarks[i]? = some l → ∃ row, f[i]? = some row ∧ row.length = n ∧
    ∀ v, v < n → ∃ x, row[v]? = some x ∧ CappedDist A l v x

theorem runs_spec {g : FOGraph} (hg : g.WF) (hw : g.Bounded) : ∀ (ls : List Nat) (d0 : DData Unit),
    (∀ l ∈ ls, l < g.numNodes) → ReachableServer () g (query g) d0 → ∃ f, runs g d0 ls = some f ∧ Table g.Arc g.numNodes ls f := by
  intro ls
  induction ls with
  | nil => intro d0 _ _; exact ⟨[], rfl, rfl, by simp⟩
  | cons l ls ih =>
    intro d0 hl hd
    obtain ⟨d, h1, h2⟩ := C24_one_to_all g hg hw d0 hd l (hl l (by simp))
    have hreach : ReachableServer () g (query g) d := by
      obtain ⟨qs, rs, h3, h4⟩ := hd
      obtain ⟨⟨r, d'⟩, h5, h6⟩ : ∃ rd, query g d0 l g.numNodes = some rd ∧ rd.2 = d := by
        unfold oneToAll at h1
        cases h : query g d0 l g.numNodes with
        | none => simp [h] at h1
        | some rd => refine ⟨rd, rfl, ?_⟩; obtain ⟨a, b⟩ := rd; simp [h] at h1; exact h1
      simp only at h6; subst h6
      refine ⟨qs ++ [(l, g.numNodes)], rs ++ [r], ?_, ?_⟩
      · intro q hq
        simp only [List.mem_append, List.mem_singleton] at hq
        rcases hq with hq | rfl
        · exact h3 q hq
        · exact hl l (by simp)
      · have key : ∀ (qs : List (Nat × Nat)) (d : DData Unit) (rs : List (Option Nat)) (d1 : DData Unit) (q : Nat × Nat) (r : Option Nat) (d2 : DData Unit),
            queries (query g) d qs = some (rs, d1) → query g d1 q.1 q.2 = some (r, d2) → queries (query g) d (qs ++ [q]) = some (rs ++ [r], d2) := by
          intro qs
          induction qs with
          | nil =>
            intro d rs d1 q r d2 e1 e2
            simp [queries] at e1
            obtain ⟨rfl, rfl⟩ := e1
            simp [queries, e2]
          | cons q0 qs ih =>
            intro d rs d1 q r d2 e1 e2
            obtain ⟨s0, t0⟩ := q0
            simp only [queries, Option.bind_eq_bind, Option.bind_eq_some_iff] at e1
            obtain ⟨⟨r0, dd⟩, e3, ⟨rs0, dd'⟩, e4, e5⟩ := e1
            simp at e5
            obtain ⟨rfl, rfl⟩ := e5
            have := ih dd rs0 dd' q r d2 e4 e2
            simp [queries, e3, this]
        exact key qs _ rs d0 (l, g.numNodes) r d' h4 h5
    obtain ⟨row, hrow⟩ := CCH.mapM_exists (f := d.dist.get) (l := List.range g.numNodes)
      (fun v hv => by obtain ⟨x, hx, _⟩ := h2 v (by simpa using hv); exact ⟨x, hx⟩)
    obtain ⟨hr1, hr2⟩ := CCH.mapM_index hrow
    obtain ⟨f, h3, h4, h5⟩ := ih d (fun x hx => hl x (by simp [hx])) hreach
    refine ⟨row :: f, by simp [runs, run, h1, hrow, h3], by simp [h4], ?_⟩
    intro i l' hi
    cases i with
    | zero =>
      simp at hi; subst hi
      refine ⟨row, by simp, by simpa using hr1, ?_⟩
      intro v hv
      obtain ⟨y, e1, e2⟩ := hr2 v v (by simp [hv])
      obtain ⟨x, e3, e4⟩ := h2 v hv
      rw [e2] at e3; simp at e3; subst e3
      exact ⟨y, e1, e4⟩
    | succ i => simpa using h5 i l' (by simpa using hi)

/-- the table by node -/
theorem nodeMajor_spec {A : Nat → Nat → Nat → Prop} {n : Nat} {landmarks : List Nat} {f : List (List Nat)}
    (h : Table A n landmarks f) : ∃ arr, nodeMajor n f = some arr ∧ ∀ v, v < n → ∃ row, dists arr landmarks.length v = some row ∧
      row.length = landmarks.length ∧ ∀ (i l : Nat), landmarks[i]? = some l → ∃ x, row[i]? = some x ∧ CappedDist A l v x := by
  obtain ⟨h1, h2⟩ := h
  have hcol : ∀ v, v < n → ∃ row, f.mapM (fun l => l[v]?) = some row ∧ row.length = landmarks.length ∧
      ∀ (i l : Nat), landmarks[i]? = some l → ∃ x, row[i]? = some x ∧ CappedDist A l v x := by
    intro v hv
    obtain ⟨row, hrow⟩ := CCH.mapM_exists (f := fun (l : List Nat) => l[v]?) (l := f) (by
      intro r hr
      obtain ⟨i, hi⟩ := List.mem_iff_getElem?.1 hr
      have : i < landmarks.length := by rw [← h1]; exact (List.getElem?_eq_some_iff.1 hi).1
      obtain ⟨r', e1, _, e3⟩ := h2 i landmarks[i] (List.getElem?_eq_getElem this)
      rw [hi] at e1; simp at e1; subst e1
      obtain ⟨x, e4, _⟩ := e3 v hv
      exact ⟨x, e4⟩)
    obtain ⟨e1, e2⟩ := CCH.mapM_index hrow
    refine ⟨row, hrow, by rw [e1, h1], ?_⟩
    intro i l hi
    obtain ⟨r', e3, _, e4⟩ := h2 i l hi
    obtain ⟨x, e5, e6⟩ := e4 v hv
    obtain ⟨y, e7, e8⟩ := e2 i r' e3
    rw [e5] at e8; simp at e8; subst e8
    exact ⟨x, e7, e6⟩
  obtain ⟨rows, hrows⟩ := CCH.mapM_exists (f := fun v => f.mapM (fun (l : List Nat) => l[v]?)) (l := List.range n)
    (fun v hv => by obtain ⟨r, e, _⟩ := hcol v (by simpa using hv); exact ⟨r, e⟩)
  obtain ⟨e1, e2⟩ := CCH.mapM_index hrows
  simp at e1
  refine ⟨rows.flatten, by simp [nodeMajor, hrows], ?_⟩
  intro v hv
  obtain ⟨row, e3, e4, e5⟩ := hcol v hv
  obtain ⟨row', e6, e7⟩ := e2 v v (by simp [hv])
  rw [e3] at e7; simp at e7; subst e7
  refine ⟨row, ?_, e4, e5⟩
  have hlen : ∀ m, m ≤ n → (rows.take m).flatten.length = m * landmarks.length := by
    intro m hm
    induction m with
    | zero => simp
    | succ m ih =>
      have hm' : m < rows.length := by omega
      rw [flatten_take_succ _ hm', List.length_append, ih (by omega)]
      obtain ⟨r, g1, g2, _⟩ := hcol m (by omega)
      obtain ⟨r', g3, g4⟩ := e2 m m (List.getElem?_range (by omega))
      rw [g1] at g4; cases g4
      rw [List.getElem?_eq_getElem hm'] at g3
      rw [Option.some.inj g3, g2, Nat.succ_mul]
  have hv' : v < rows.length := by omega
  have := slice_flatten rows hv'
  rw [hlen v (by omega), hlen (v + 1) (by omega), Nat.succ_mul] at this
  rw [List.getElem?_eq_getElem hv'] at e6; simp at e6
  rw [dists, this, e6]

theorem le_max? {l : List Nat} {m x : Nat} (h : l.max? = some m) (hx : x ∈ l) : x ≤ m := by
  rw [List.max?_eq_some_iff] at h
  exact h.2 x hx

/-- The maximum in `potential`, for one target. `A` are the arcs of the graph, `B` the reversed ones. -/
theorem potential_spec {A B : Nat → Nat → Nat → Prop} (hrev : ∀ u v w, B v u w ↔ A u v w) {n t : Nat} (ht : t < n) {landmarks : List Nat}
    (hne : landmarks ≠ []) {p : Pot} (hk : p.k = landmarks.length) (hpt : p.target = t)
    (hf : ∀ v, v < n → ∃ row, dists p.fw landmarks.length v = some row ∧
      row.length = landmarks.length ∧ ∀ (i l : Nat), landmarks[i]? = some l → ∃ x, row[i]? = some x ∧ CappedDist A l v x)
    (hb : ∀ v, v < n → ∃ row, dists p.bw landmarks.length v = some row ∧
      row.length = landmarks.length ∧ ∀ (i l : Nat), landmarks[i]? = some l → ∃ x, row[i]? = some x ∧ CappedDist B l v x) :
    ∃ π : Nat → Nat, (∀ v, v < n → potential p v = some (if π v < INFINITY then some (π v) else none)) ∧
      (∀ v, π v ≤ INFINITY) ∧ (∀ u v w, u < n → v < n → A u v w → π u ≤ w + π v) ∧ π t = 0 ∧
      (∀ l ∈ landmarks, ∀ v, v < n → ∀ x y, CappedDist A l t x → CappedDist A l v y → x - y ≤ π v) ∧
      (∀ l ∈ landmarks, ∀ v, v < n → ∀ x y, CappedDist B l t x → CappedDist B l v y → y - x ≤ π v) := by
  -- value of one node
  have hval : ∀ v, ∃ m, m ≤ INFINITY ∧ (v < n → potential p v = some (if m < INFINITY then some m else none) ∧
      (∀ (i l x y : Nat), landmarks[i]? = some l → CappedDist A l t x → CappedDist A l v y → x - y ≤ m) ∧
      (∀ (i l x y : Nat), landmarks[i]? = some l → CappedDist B l t x → CappedDist B l v y → y - x ≤ m) ∧
      ((∃ (i l x y : Nat), landmarks[i]? = some l ∧ CappedDist A l t x ∧ CappedDist A l v y ∧ m = x - y) ∨
       (∃ (i l x y : Nat), landmarks[i]? = some l ∧ CappedDist B l t x ∧ CappedDist B l v y ∧ m = y - x))) := by
    intro v
    by_cases hv : v < n
    swap
    · exact ⟨0, by simp, fun h => absurd h hv⟩
    obtain ⟨a, a1, a2, a3⟩ := hf v hv
    obtain ⟨b, b1, b2, b3⟩ := hf t ht
    obtain ⟨c, c1, c2, c3⟩ := hb v hv
    obtain ⟨d, d1, d2, d3⟩ := hb t ht
    have hmem : ∀ z, z ∈ List.zipWith (fun node target => target - node) a b ++ List.zipWith (fun node target => node - target) c d ↔
        ((∃ (i l x y : Nat), landmarks[i]? = some l ∧ CappedDist A l t x ∧ CappedDist A l v y ∧ z = x - y) ∨
         (∃ (i l x y : Nat), landmarks[i]? = some l ∧ CappedDist B l t x ∧ CappedDist B l v y ∧ z = y - x)) := by
      intro z
      rw [List.mem_append, List.mem_iff_getElem?, List.mem_iff_getElem?]
      simp only [List.getElem?_zipWith]
      constructor
      · rintro (⟨i, hi⟩ | ⟨i, hi⟩)
        · left
          have hil : i < landmarks.length := by
            rw [← a2]
            apply Classical.byContradiction; intro hn
            rw [List.getElem?_eq_none (by omega)] at hi; simp at hi
          obtain ⟨y, e1, e2⟩ := a3 i _ (List.getElem?_eq_getElem hil)
          obtain ⟨x, e3, e4⟩ := b3 i _ (List.getElem?_eq_getElem hil)
          rw [e1, e3] at hi
          simp at hi
          exact ⟨i, _, x, y, List.getElem?_eq_getElem hil, e4, e2, hi.symm⟩
        · right
          have hil : i < landmarks.length := by
            rw [← c2]
            apply Classical.byContradiction; intro hn
            rw [List.getElem?_eq_none (by omega)] at hi; simp at hi
          obtain ⟨y, e1, e2⟩ := c3 i _ (List.getElem?_eq_getElem hil)
          obtain ⟨x, e3, e4⟩ := d3 i _ (List.getElem?_eq_getElem hil)
          rw [e1, e3] at hi
          simp at hi
          exact ⟨i, _, x, y, List.getElem?_eq_getElem hil, e4, e2, hi.symm⟩
      · rintro (⟨i, l, x, y, e1, e2, e3, rfl⟩ | ⟨i, l, x, y, e1, e2, e3, rfl⟩)
        · left
          obtain ⟨y', f1, f2⟩ := a3 i l e1
          obtain ⟨x', f3, f4⟩ := b3 i l e1
          rw [e3.unique f2, e2.unique f4]
          exact ⟨i, by simp [f1, f3]⟩
        · right
          obtain ⟨y', f1, f2⟩ := c3 i l e1
          obtain ⟨x', f3, f4⟩ := d3 i l e1
          rw [e3.unique f2, e2.unique f4]
          exact ⟨i, by simp [f1, f3]⟩
    cases hmax : (List.zipWith (fun node target => target - node) a b ++ List.zipWith (fun node target => node - target) c d).max? with
    | none =>
      exfalso
      rw [List.max?_eq_none_iff] at hmax
      simp only [List.append_eq_nil_iff, List.zipWith_eq_nil_iff] at hmax
      have hl : 0 < landmarks.length := List.length_pos_iff.2 hne
      rcases hmax.1 with h | h
      · rw [h] at a2; simp at a2; omega
      · rw [h] at b2; simp at b2; omega
    | some m =>
      have hm := (hmem m).1 (List.max?_mem hmax)
      refine ⟨m, ?_, fun _ => ⟨?_, ?_, ?_, hm⟩⟩
      · rcases hm with ⟨_, _, x, y, _, e2, e3, rfl⟩ | ⟨_, _, x, y, _, e2, e3, rfl⟩
        · have := e2.1; omega
        · have := e3.1; omega
      · simp only [potential, hk, hpt, a1, b1, c1, d1, hmax, Option.bind_eq_bind, Option.bind_some]; rfl
      · intro i l x y h1 h2 h3
        exact le_max? hmax ((hmem _).2 (.inl ⟨i, l, x, y, h1, h2, h3, rfl⟩))
      · intro i l x y h1 h2 h3
        exact le_max? hmax ((hmem _).2 (.inr ⟨i, l, x, y, h1, h2, h3, rfl⟩))
  obtain ⟨π, hπ⟩ := Classical.axiomOfChoice hval
  refine ⟨π, fun v hv => ((hπ v).2 hv).1, fun v => (hπ v).1, ?_, ?_, ?_, ?_⟩
  · intro u v w hu hv ha
    obtain ⟨_, _, _, h4⟩ := (hπ u).2 hu
    obtain ⟨_, h2, h3, _⟩ := (hπ v).2 hv
    rcases h4 with ⟨i, l, x, y, e1, e2, e3, e4⟩ | ⟨i, l, x, y, e1, e2, e3, e4⟩
    · obtain ⟨row, _, _, f3⟩ := hf v hv
      obtain ⟨z, _, f5⟩ := f3 i l e1
      have := h2 i l x z e1 e2 f5
      have := e3.arc f5 ha
      omega
    · obtain ⟨row, _, _, f3⟩ := hb v hv
      obtain ⟨z, _, f5⟩ := f3 i l e1
      have := h3 i l x z e1 e2 f5
      have := f5.arc e3 ((hrev u v w).2 ha)
      omega
  · obtain ⟨_, _, _, h4⟩ := (hπ t).2 ht
    rcases h4 with ⟨i, l, x, y, e1, e2, e3, e4⟩ | ⟨i, l, x, y, e1, e2, e3, e4⟩
    · rw [e4, e2.unique e3]; omega
    · rw [e4, e2.unique e3]; omega
  · intro l hl v hv x y h1 h2
    obtain ⟨i, hi⟩ := List.mem_iff_getElem?.1 hl
    exact ((hπ v).2 hv).2.1 i l x y hi h1 h2
  · intro l hl v hv x y h1 h2
    obtain ⟨i, hi⟩ := List.mem_iff_getElem?.1 hl
    exact ((hπ v).2 hv).2.2.1 i l x y hi h1 h2

end Verif.Alt
