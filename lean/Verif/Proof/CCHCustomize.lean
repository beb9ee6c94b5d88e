import Verif.Proof.CCHBuild
set_option linter.unusedSimpArgs false
set_option linter.unusedVariables false
/- The basic customization of CCH. -/
namespace Verif
namespace CCH
open Spec GraphOps FOGraph

/-! ### The equation that the result satisfies -/

/-- `r` is the value and the unpacking information that one gets from the initial value `i` and the candidates `T`
(`T z t a b`: via the lower node `z` with length `t` and edges `a`, `b`): the minimum, with preference for the initial value
and then for the lowest `z`. -/
structure IsBest (i : Nat) (T : Nat → Nat → Nat → Nat → Prop) (r : Nat × Option Nat × Option Nat) : Prop where
  le_init : r.1 ≤ i
  le_tri : ∀ z t a b, T z t a b → r.1 ≤ t
  wit : r = (i, none, none) ∨ ∃ z t a b, T z t a b ∧ r = (t, some a, some b) ∧ t < i ∧
    ∀ z' t' a' b', T z' t' a' b' → z' < z → t < t'

theorem IsBest.congr {i : Nat} {T T' : Nat → Nat → Nat → Nat → Prop} {r : Nat × Option Nat × Option Nat} (h : IsBest i T r)
    (hT : ∀ z t a b, T z t a b ↔ T' z t a b) : IsBest i T' r := by
  have : T = T' := by funext z t a b; exact propext (hT z t a b)
  rwa [← this]

theorem IsBest.unique {i : Nat} {T : Nat → Nat → Nat → Nat → Prop} {r r' : Nat × Option Nat × Option Nat}
    (hfun : ∀ z t a b t' a' b', T z t a b → T z t' a' b' → t = t' ∧ a = a' ∧ b = b') (h : IsBest i T r) (h' : IsBest i T r') : r = r' := by
  rcases h.wit with h1 | ⟨z, t, a, b, h1, h2, h3, h4⟩
  · rcases h'.wit with h1' | ⟨z', t', a', b', h1', h2', h3', h4'⟩
    · rw [h1, h1']
    · have := h.le_tri _ _ _ _ h1'
      rw [h1] at this; simp at this; omega
  · rcases h'.wit with h1' | ⟨z', t', a', b', h1', h2', h3', h4'⟩
    · have := h'.le_tri _ _ _ _ h1
      rw [h1'] at this; simp at this; omega
    · have ha := h.le_tri _ _ _ _ h1'
      have hb := h'.le_tri _ _ _ _ h1
      rw [h2] at ha; rw [h2'] at hb; simp at ha hb
      rcases Nat.lt_trichotomy z z' with hlt | heq | hlt
      · have := h4' _ _ _ _ h1 hlt; omega
      · subst heq
        obtain ⟨rfl, rfl, rfl⟩ := hfun _ _ _ _ _ _ _ h1 h1'
        rw [h2, h2']
      · have := h4 _ _ _ _ h1' hlt; omega

theorem IsBest.step {i : Nat} {T : Nat → Nat → Nat → Nat → Prop} {r : Nat × Option Nat × Option Nat} (h : IsBest i T r)
    {z t a b : Nat} (hz : ∀ z' t' a' b', T z' t' a' b' → z' < z) :
    IsBest i (fun z' t' a' b' => T z' t' a' b' ∨ (z' = z ∧ t' = t ∧ a' = a ∧ b' = b))
      (if t < r.1 then (t, some a, some b) else r) := by
  have hle := h.le_init
  split
  · rename_i hlt
    refine ⟨by simp only; omega, ?_, .inr ⟨z, t, a, b, .inr ⟨rfl, rfl, rfl, rfl⟩, rfl, by omega, ?_⟩⟩
    · rintro z' t' a' b' (h' | ⟨rfl, rfl, rfl, rfl⟩)
      · have := h.le_tri _ _ _ _ h'; simp only; omega
      · exact Nat.le_refl _
    · rintro z' t' a' b' (h' | ⟨rfl, rfl, rfl, rfl⟩) hlt'
      · have := h.le_tri _ _ _ _ h'; omega
      · omega
  · rename_i hge
    refine ⟨hle, ?_, ?_⟩
    · rintro z' t' a' b' (h' | ⟨rfl, rfl, rfl, rfl⟩)
      · exact h.le_tri _ _ _ _ h'
      · omega
    · rcases h.wit with h1 | ⟨z1, t1, a1, b1, h1, h2, h3, h4⟩
      · exact .inl h1
      · refine .inr ⟨z1, t1, a1, b1, .inl h1, h2, h3, ?_⟩
        rintro z' t' a' b' (h' | ⟨rfl, rfl, rfl, rfl⟩) hlt'
        · exact h4 _ _ _ _ h' hlt'
        · have := hz _ _ _ _ h1; omega

theorem IsBest.nil {i : Nat} {T : Nat → Nat → Nat → Nat → Prop} (hT : ∀ z t a b, ¬ T z t a b) : IsBest i T (i, none, none) :=
  ⟨Nat.le_refl _, fun z t a b h => absurd h (hT z t a b), .inl rfl⟩

/-- Weight of an edge, upwards and downwards. -/
def Weights.u (w : Weights) (e : Nat) : Nat := (w.up[e]?).getD 0
def Weights.d (w : Weights) (e : Nat) : Nat := (w.down[e]?).getD 0
def Weights.uu (w : Weights) (e : Nat) : Option Nat × Option Nat := (w.upUnpack[e]?).getD (none, none)
def Weights.du (w : Weights) (e : Nat) : Option Nat × Option Nat := (w.downUnpack[e]?).getD (none, none)

/-- Detour from `x` to `y` over the lower node `z`: down along edge `a`, up along edge `b`. -/
def Tri (c : Cch) (w : Weights) (x y z t a b : Nat) : Prop := c.Edge a z x ∧ c.Edge b z y ∧ t = w.d a + w.u b

/-- Arrays of the right size with weights up to `INFINITY`. -/
structure WOK (c : Cch) (w : Weights) : Prop where
  ul : w.up.length = c.head.length
  dl : w.down.length = c.head.length
  uul : w.upUnpack.length = c.head.length
  dul : w.downUnpack.length = c.head.length
  ub : ∀ e, e < c.head.length → w.u e ≤ INFINITY
  db : ∀ e, e < c.head.length → w.d e ≤ INFINITY

theorem WOK.up_get {c : Cch} {w : Weights} (h : WOK c w) {e : Nat} (he : e < c.head.length) : w.up[e]? = some (w.u e) := by
  have : e < w.up.length := by rw [h.ul]; exact he
  simp [Weights.u, List.getElem?_eq_getElem this]
theorem WOK.down_get {c : Cch} {w : Weights} (h : WOK c w) {e : Nat} (he : e < c.head.length) : w.down[e]? = some (w.d e) := by
  have : e < w.down.length := by rw [h.dl]; exact he
  simp [Weights.d, List.getElem?_eq_getElem this]
theorem WOK.uu_get {c : Cch} {w : Weights} (h : WOK c w) {e : Nat} (he : e < c.head.length) : w.upUnpack[e]? = some (w.uu e) := by
  have : e < w.upUnpack.length := by rw [h.uul]; exact he
  simp [Weights.uu, List.getElem?_eq_getElem this]
theorem WOK.du_get {c : Cch} {w : Weights} (h : WOK c w) {e : Nat} (he : e < c.head.length) : w.downUnpack[e]? = some (w.du e) := by
  have : e < w.downUnpack.length := by rw [h.dul]; exact he
  simp [Weights.du, List.getElem?_eq_getElem this]

theorem Edge.lt {c : Cch} {e x y : Nat} (h : c.Edge e x y) : e < c.head.length := (List.getElem?_eq_some_iff.1 h.2).1

theorem WOK.sum {c : Cch} {w : Weights} (h : WOK c w) {a b : Nat} (ha : a < c.head.length) (hb : b < c.head.length) :
    w.d a + w.u b < U32 := by
  have := h.ub b hb; have := h.db a ha
  simp only [INFINITY, U32] at *; omega

/-! ### One node -/

/-- The workspaces hold, for each edge from `x`, the best value over the triangles with a lower node in `S y`. -/
structure WsInv (n : Nat) (c : Cch) (w : Weights) (x : Nat) (S : Nat → Nat → Prop) (ws : WS × WS) : Prop where
  ol : ws.1.length = n
  il : ws.2.length = n
  best : ∀ e y, c.Edge e x y → ∃ r r', ws.1[y]? = some r ∧ ws.2[y]? = some r' ∧
    IsBest (w.u e) (fun z t a b => Tri c w x y z t a b ∧ S y z) r ∧ IsBest (w.d e) (fun z t a b => Tri c w y x z t a b ∧ S y z) r'

variable {n : Nat} {c : Cch} {w : Weights}

theorem WsInv.congr {x : Nat} {S S' : Nat → Nat → Prop} {ws : WS × WS} (h : WsInv n c w x S ws)
    (hS : ∀ e a b y z, c.Edge e x y → c.Edge a z x → c.Edge b z y → (S y z ↔ S' y z)) : WsInv n c w x S' ws := by
  refine ⟨h.ol, h.il, ?_⟩
  intro e y he
  obtain ⟨r, r', h1, h2, h3, h4⟩ := h.best e y he
  refine ⟨r, r', h1, h2, h3.congr ?_, h4.congr ?_⟩
  · intro z t a b
    constructor
    · rintro ⟨ht, hs⟩; exact ⟨ht, (hS e a b y z he ht.1 ht.2.1).1 hs⟩
    · rintro ⟨ht, hs⟩; exact ⟨ht, (hS e a b y z he ht.1 ht.2.1).2 hs⟩
  · intro z t a b
    constructor
    · rintro ⟨ht, hs⟩; exact ⟨ht, (hS e b a y z he ht.2.1 ht.1).1 hs⟩
    · rintro ⟨ht, hs⟩; exact ⟨ht, (hS e b a y z he ht.2.1 ht.1).2 hs⟩

theorem relaxWs_eq {ws : WS} {y t a b : Nat} (hy : y < ws.length) :
    ∃ ws', relaxWs ws y t a b = some ws' ∧ ws'.length = ws.length ∧ (∀ i, i ≠ y → ws'[i]? = ws[i]?) ∧
      ∀ r, ws[y]? = some r → ws'[y]? = some (if t < r.1 then (t, some a, some b) else r) := by
  unfold relaxWs
  simp only [List.getElem?_eq_getElem hy, Option.bind_eq_bind, Option.bind_some, Option.some.injEq]
  by_cases h : t < ws[y].1
  · refine ⟨ws.set y (t, some a, some b), ?_, by simp, ?_, ?_⟩
    · rw [if_pos h]; exact upd_of_lt _ hy
    · intro i hi; rw [List.getElem?_set_ne (fun h => hi h.symm)]
    · rintro r rfl; rw [List.getElem?_set_self hy, if_pos h]
  · refine ⟨ws, by rw [if_neg h], rfl, fun _ _ => rfl, ?_⟩
    rintro r rfl; rw [List.getElem?_eq_getElem hy, if_neg h]

/-- One triangle. -/
theorem custTriangle_spec (hg : Base n c) (hw : WOK c w) {x z ez y e2 : Nat} (hez : c.Edge ez z x) (he2 : c.Edge e2 z y)
    {S : Nat → Nat → Prop} (hS : ∀ z', S y z' → z' < z) {ws : WS × WS} (h : WsInv n c w x S ws) :
    ∃ ws', custTriangle w (w.u ez) (w.d ez) ez ws (y, e2) = some ws' ∧
      WsInv n c w x (fun y' z' => S y' z' ∨ (y' = y ∧ z' = z)) ws' := by
  have hyn := (hg.up he2).2
  have hle := Edge.lt hez
  have hle2 := Edge.lt he2
  obtain ⟨o', ho1, ho2, ho3, ho4⟩ := relaxWs_eq (ws := ws.1) (y := y) (t := w.d ez + w.u e2) (a := ez) (b := e2) (by rw [h.ol]; exact hyn)
  obtain ⟨i', hi1, hi2, hi3, hi4⟩ := relaxWs_eq (ws := ws.2) (y := y) (t := w.d e2 + w.u ez) (a := e2) (b := ez) (by rw [h.il]; exact hyn)
  refine ⟨(o', i'), ?_, ?_⟩
  · simp only [custTriangle, hw.up_get hle2, hw.down_get hle2, Option.bind_eq_bind, Option.bind_some]
    rw [add32_of_lt (show w.u e2 + w.d ez < U32 by have := hw.sum hle hle2; omega), add32_of_lt (hw.sum hle2 hle), Nat.add_comm (w.u e2)]
    simp only [Option.bind_some, ho1, hi1]; rfl
  · refine ⟨by rw [ho2, h.ol], by rw [hi2, h.il], ?_⟩
    intro e y' he
    obtain ⟨r, r', h1, h2, h3, h4⟩ := h.best e y' he
    by_cases hy : y' = y
    · subst hy
      refine ⟨_, _, ho4 r h1, hi4 r' h2, ?_, ?_⟩
      · refine (h3.step (z := z) (t := w.d ez + w.u e2) (a := ez) (b := e2) (fun z' t' a' b' h' => hS z' h'.2)).congr ?_
        intro z' t' a' b'
        constructor
        · rintro (⟨ht, hs⟩ | ⟨rfl, rfl, rfl, rfl⟩)
          · exact ⟨ht, .inl hs⟩
          · exact ⟨⟨hez, he2, rfl⟩, .inr ⟨rfl, rfl⟩⟩
        · rintro ⟨ht, hs | ⟨_, rfl⟩⟩
          · exact .inl ⟨ht, hs⟩
          · obtain ⟨e1, e3, rfl⟩ := ht
            have := hg.unique e1 hez
            have := hg.unique e3 he2
            subst_vars
            exact .inr ⟨rfl, rfl, rfl, rfl⟩
      · refine (h4.step (z := z) (t := w.d e2 + w.u ez) (a := e2) (b := ez) (fun z' t' a' b' h' => hS z' h'.2)).congr ?_
        intro z' t' a' b'
        constructor
        · rintro (⟨ht, hs⟩ | ⟨rfl, rfl, rfl, rfl⟩)
          · exact ⟨ht, .inl hs⟩
          · exact ⟨⟨he2, hez, rfl⟩, .inr ⟨rfl, rfl⟩⟩
        · rintro ⟨ht, hs | ⟨_, rfl⟩⟩
          · exact .inl ⟨ht, hs⟩
          · obtain ⟨e1, e3, rfl⟩ := ht
            have := hg.unique e1 he2
            have := hg.unique e3 hez
            subst_vars
            exact .inr ⟨rfl, rfl, rfl, rfl⟩
    · refine ⟨r, r', by simp only; rw [ho3 y' hy]; exact h1, by simp only; rw [hi3 y' hy]; exact h2, h3.congr ?_, h4.congr ?_⟩
      · intro z' t' a' b'; simp [hy]
      · intro z' t' a' b'; simp [hy]

theorem mem_takeWhile_sorted {l : List (Nat × Nat)} {x : Nat} (hs : l.Pairwise (fun p q => q.1 < p.1)) (p : Nat × Nat) :
    p ∈ l.takeWhile (fun p => decide (x < p.1)) ↔ p ∈ l ∧ x < p.1 := by
  induction l with
  | nil => simp
  | cons a l ih =>
    rw [List.takeWhile_cons]
    by_cases h : x < a.1
    · simp only [h, decide_true, if_true, List.mem_cons, ih hs.tail]
      constructor
      · rintro (rfl | ⟨h1, h2⟩)
        · exact ⟨.inl rfl, h⟩
        · exact ⟨.inr h1, h2⟩
      · rintro ⟨rfl | h1, h2⟩
        · exact .inl rfl
        · exact .inr ⟨h1, h2⟩
    · simp only [h, decide_false, List.mem_cons]
      constructor
      · intro h'; simp at h'
      · rintro ⟨rfl | h1, h2⟩
        · exact absurd h2 h
        · have := List.rel_of_pairwise_cons hs h1; omega

/-- One lower neighbour. -/
theorem custLow_spec (hg : Base n c) (hw : WOK c w) {x z ez : Nat} (hez : c.Edge ez z x)
    {S : Nat → Nat → Prop} (hS : ∀ y z', S y z' → z' < z) {ws : WS × WS} (h : WsInv n c w x S ws) :
    ∃ ws', custLow c w x ws (z, ez) = some ws' ∧ WsInv n c w x (fun y' z' => S y' z' ∨ z' = z) ws' := by
  have hzn := hg.edge_lt hez
  obtain ⟨a, b, hs, h1, h2, h3, h4, h5, h6, h7⟩ := hg.headIds hzn
  let L := (hs.zip ((List.range (b - a)).map (· + a))).reverse.takeWhile (fun p => decide (x < p.1))
  have hL : ∀ y e, (y, e) ∈ L ↔ c.Edge e z y ∧ x < y := by
    intro y e
    show (y, e) ∈ List.takeWhile _ _ ↔ _
    rw [mem_takeWhile_sorted (by rw [List.pairwise_reverse]; exact h5.imp (fun h => h.1)), List.mem_reverse, h7]
  have hLn : (L.map Prod.fst).Nodup := by
    rw [List.Nodup, List.pairwise_map]
    have : (hs.zip ((List.range (b - a)).map (· + a))).reverse.Pairwise (fun p q => q.1 < p.1 ∧ q.2 < p.2) := by
      rw [List.pairwise_reverse]; exact h5
    exact (this.sublist (List.takeWhile_sublist _)).imp (fun h => by omega)
  obtain ⟨ws', h8, h9⟩ := foldlM_inv (custTriangle w (w.u ez) (w.d ez) ez)
    (fun P ws => WsInv n c w x (fun y' z' => S y' z' ∨ (y' ∈ P.map Prod.fst ∧ z' = z)) ws) L (by
      rintro P ⟨y, e2⟩ Q ws hE hi
      obtain ⟨he2, hxy⟩ := (hL y e2).1 (by rw [hE]; simp)
      have hyP : y ∉ P.map Prod.fst := by
        intro hm
        rw [hE, List.map_append] at hLn
        exact (List.nodup_append.1 hLn).2.2 y hm y (by simp) rfl
      obtain ⟨ws', h1, h2⟩ := custTriangle_spec hg hw hez he2 (S := fun y' z' => S y' z' ∨ (y' ∈ P.map Prod.fst ∧ z' = z)) (by
        rintro z' (h | ⟨h, _⟩)
        · exact hS y z' h
        · exact absurd h hyP) hi
      refine ⟨ws', h1, h2.congr ?_⟩
      intro e a b y' z' _ _ _
      simp only [List.map_append, List.map_cons, List.map_nil, List.mem_append, List.mem_singleton]
      constructor
      · rintro ((h | ⟨h, h'⟩) | ⟨h, h'⟩)
        · exact .inl h
        · exact .inr ⟨.inl h, h'⟩
        · exact .inr ⟨.inr h, h'⟩
      · rintro (h | ⟨h | h, h'⟩)
        · exact .inl (.inl h)
        · exact .inl (.inr ⟨h, h'⟩)
        · exact .inr ⟨h, h'⟩) ws (h.congr (by intro e a b y' z' _ _ _; simp))
  refine ⟨ws', ?_, h9.congr ?_⟩
  · simp only [custLow, hw.down_get (Edge.lt hez), hw.up_get (Edge.lt hez), h1, h2, Option.bind_eq_bind, Option.bind_some]
    rw [slice_eq h3 (by rw [hw.ul]; exact h4), slice_eq h3 (by rw [hw.dl]; exact h4)]
    simp only [Option.bind_some]
    exact h8
  · intro e a' b' y z' he ha hb
    constructor
    · rintro (h | ⟨_, h⟩)
      · exact .inl h
      · exact .inr h
    · rintro (h | rfl)
      · exact .inl h
      · refine .inr ⟨?_, rfl⟩
        rw [List.mem_map]
        exact ⟨(y, b'), (hL y b').2 ⟨hb, (hg.up he).1⟩, rfl⟩

/-- What customizing a node does: only the edges of the node change, and they get the best values. -/
structure NodeDone (c : Cch) (x : Nat) (w w' : Weights) : Prop where
  same : ∀ e, c.tail[e]? ≠ some x → w'.u e = w.u e ∧ w'.d e = w.d e ∧ w'.uu e = w.uu e ∧ w'.du e = w.du e
  bestUp : ∀ e y, c.Edge e x y → IsBest (w.u e) (Tri c w x y) (w'.u e, w'.uu e)
  bestDown : ∀ e y, c.Edge e x y → IsBest (w.d e) (Tri c w y x) (w'.d e, w'.du e)

theorem getD_set {α : Type} {l : List α} {i j : Nat} {x d : α} (hi : i < l.length) :
    ((l.set i x)[j]?).getD d = if j = i then x else (l[j]?).getD d := by
  by_cases h : j = i
  · subst h; rw [List.getElem?_set_self hi]; simp
  · rw [List.getElem?_set_ne (fun h' => h h'.symm)]; simp [h]

theorem custNode_spec (hg : Base n c) (hw : WOK c w) {x : Nat} (hx : x < n) {ws : WS × WS} (hws : ws.1.length = n ∧ ws.2.length = n) :
    ∃ w' ws', custNode c x ws w = some (w', ws') ∧ (ws'.1.length = n ∧ ws'.2.length = n) ∧ WOK c w' ∧ NodeDone c x w w' := by
  obtain ⟨a, b, hs, h1, h2, h3, h4, h5, h6, h7⟩ := hg.headIds hx
  obtain ⟨lows, hl1, hl2, hl3⟩ := hg.inv x hx
  have hnd1 : ((hs.zip ((List.range (b - a)).map (· + a))).map Prod.fst).Nodup := by
    rw [List.Nodup, List.pairwise_map]; exact h5.imp (fun h => by omega)
  -- load
  obtain ⟨ws1, hA1, hA2, hA3, hA4⟩ := foldlM_inv (custLoad w)
    (fun P (ws : WS × WS) => ws.1.length = n ∧ ws.2.length = n ∧ ∀ y e, (y, e) ∈ P →
      ws.1[y]? = some (w.u e, none, none) ∧ ws.2[y]? = some (w.d e, none, none)) (hs.zip ((List.range (b - a)).map (· + a))) (by
      rintro P ⟨y, e⟩ Q ws hE ⟨ho, hi, hP⟩
      have he := (h7 y e).1 (by rw [hE]; simp)
      have hy := (hg.up he).2
      have hyP : ∀ e', (y, e') ∉ P := by
        intro e' hm
        rw [hE, List.map_append] at hnd1
        exact (List.nodup_append.1 hnd1).2.2 y (List.mem_map_of_mem hm) y (by simp) rfl
      refine ⟨(ws.1.set y (w.u e, none, none), ws.2.set y (w.d e, none, none)), ?_, by simp [ho], by simp [hi], ?_⟩
      · simp only [custLoad, hw.down_get (Edge.lt he), hw.up_get (Edge.lt he), Option.bind_eq_bind, Option.bind_some]
        rw [upd_of_lt _ (by omega), upd_of_lt _ (by omega)]; rfl
      · intro y' e' hm
        rw [List.mem_append] at hm
        simp only
        by_cases hyy : y' = y
        · subst hyy
          rcases hm with hm | hm
          · exact absurd hm (hyP e')
          · simp at hm; subst hm
            rw [List.getElem?_set_self (by omega), List.getElem?_set_self (by omega)]; exact ⟨rfl, rfl⟩
        · rw [List.getElem?_set_ne (fun h => hyy h.symm), List.getElem?_set_ne (fun h => hyy h.symm)]
          rcases hm with hm | hm
          · exact hP y' e' hm
          · simp at hm; exact absurd hm.1 hyy) ws ⟨hws.1, hws.2, by simp⟩
  have hinv0 : WsInv n c w x (fun _ _ => False) ws1 := by
    refine ⟨hA2, hA3, ?_⟩
    intro e y he
    obtain ⟨b1, b2⟩ := hA4 y e ((h7 y e).2 he)
    exact ⟨_, _, b1, b2, .nil (by simp), .nil (by simp)⟩
  -- triangles
  obtain ⟨ws2, hB1, hB2⟩ := foldlM_inv (custLow c w x)
    (fun P ws => WsInv n c w x (fun _ z' => z' ∈ P.map Prod.fst) ws) lows (by
      rintro P ⟨z, ez⟩ Q ws hE hi
      have hez := (hl3 z ez).1 (by rw [hE]; simp)
      obtain ⟨ws', h8, h9⟩ := custLow_spec hg hw hez (S := fun _ z' => z' ∈ P.map Prod.fst) (by
        intro y z' hz'
        rw [List.mem_map] at hz'
        obtain ⟨p, hp, rfl⟩ := hz'
        rw [hE] at hl2
        exact (List.pairwise_append.1 hl2).2.2 p hp (z, ez) (by simp)) hi
      exact ⟨ws', h8, h9.congr (by intro e a b y' z' _ _ _; simp)⟩) ws1 (hinv0.congr (by intro e a b y' z' _ _ _; simp))
  have hB3 : WsInv n c w x (fun _ _ => True) ws2 := hB2.congr (by
    intro e a b y' z' _ ha _
    simp only [iff_true, List.mem_map]
    exact ⟨(z', a), (hl3 z' a).2 ha, rfl⟩)
  -- store
  have hnd2 : ((hs.zip ((List.range (b - a)).map (· + a))).map Prod.snd).Nodup := by
    rw [List.Nodup, List.pairwise_map]; exact h5.imp (fun h => by omega)
  obtain ⟨w', hC1, hC2, hC3, hC4⟩ := foldlM_inv (custStore ws2)
    (fun P (w' : Weights) => (w'.up.length = c.head.length ∧ w'.down.length = c.head.length ∧ w'.upUnpack.length = c.head.length ∧
        w'.downUnpack.length = c.head.length) ∧
      (∀ y e, (y, e) ∈ P → ws2.1[y]? = some (w'.u e, w'.uu e) ∧ ws2.2[y]? = some (w'.d e, w'.du e)) ∧
      (∀ e, e ∉ P.map Prod.snd → w'.u e = w.u e ∧ w'.d e = w.d e ∧ w'.uu e = w.uu e ∧ w'.du e = w.du e))
    (hs.zip ((List.range (b - a)).map (· + a))) (by
      rintro P ⟨y, e⟩ Q w1 hE ⟨⟨l1, l2, l3, l4⟩, hP, hO⟩
      have he := (h7 y e).1 (by rw [hE]; simp)
      have helt := Edge.lt he
      have heP : ∀ y', (y', e) ∉ P := by
        intro y' hm
        rw [hE, List.map_append] at hnd2
        exact (List.nodup_append.1 hnd2).2.2 e (by rw [List.mem_map]; exact ⟨_, hm, rfl⟩) e (by simp) rfl
      obtain ⟨r, r', hr, hr', _⟩ := hB3.best e y he
      refine ⟨⟨w1.up.set e r.1, w1.down.set e r'.1, w1.upUnpack.set e r.2, w1.downUnpack.set e r'.2⟩, ?_, ?_, ?_, ?_⟩
      · simp only [custStore, hr, hr', Option.bind_eq_bind, Option.bind_some]
        rw [upd_of_lt (l := w1.down) _ (by omega), upd_of_lt (l := w1.up) _ (by omega),
          upd_of_lt (l := w1.downUnpack) _ (by omega), upd_of_lt (l := w1.upUnpack) _ (by omega)]; rfl
      · simp [l1, l2, l3, l4]
      · intro y' e' hm
        rw [List.mem_append] at hm
        simp only [Weights.u, Weights.d, Weights.uu, Weights.du]
        rw [getD_set (by omega), getD_set (by omega), getD_set (by omega), getD_set (by omega)]
        by_cases hee : e' = e
        · subst hee
          rcases hm with hm | hm
          · exact absurd hm (heP y')
          · simp at hm; subst hm; simp [hr, hr']
        · simp only [hee, if_false]
          rcases hm with hm | hm
          · exact hP y' e' hm
          · simp at hm; exact absurd hm.2 hee
      · intro e' hm
        simp only [List.map_append, List.map_cons, List.map_nil, List.mem_append, List.mem_singleton, not_or] at hm
        simp only [Weights.u, Weights.d, Weights.uu, Weights.du]
        rw [getD_set (by omega), getD_set (by omega), getD_set (by omega), getD_set (by omega)]
        simp only [hm.2, if_false]
        exact hO e' hm.1) w ⟨⟨hw.ul, hw.dl, hw.uul, hw.dul⟩, by simp, by simp⟩
  have hU : ∀ e y, c.Edge e x y → IsBest (w.u e) (Tri c w x y) (w'.u e, w'.uu e) ∧ IsBest (w.d e) (Tri c w y x) (w'.d e, w'.du e) := by
    intro e y he
    obtain ⟨r, r', hr, hr', hb, hb'⟩ := hB3.best e y he
    obtain ⟨h8, h9⟩ := hC3 y e ((h7 y e).2 he)
    rw [hr] at h8; rw [hr'] at h9; simp at h8 h9; subst h8; subst h9
    exact ⟨hb.congr (by simp), hb'.congr (by simp)⟩
  have hmemE : ∀ e, e ∈ (hs.zip ((List.range (b - a)).map (· + a))).map Prod.snd → ∃ y, c.Edge e x y := by
    intro e he
    rw [List.mem_map] at he
    obtain ⟨⟨y, e'⟩, hm, rfl⟩ := he
    exact ⟨y, (h7 y e').1 hm⟩
  have hsame : ∀ e, c.tail[e]? ≠ some x → w'.u e = w.u e ∧ w'.d e = w.d e ∧ w'.uu e = w.uu e ∧ w'.du e = w.du e := by
    intro e he
    apply hC4
    intro hm
    obtain ⟨y, hy⟩ := hmemE e hm
    exact he hy.1
  refine ⟨w', ws2, ?_, ⟨hB3.ol, hB3.il⟩, ⟨hC2.1, hC2.2.1, hC2.2.2.1, hC2.2.2.2, ?_, ?_⟩, ⟨hsame, fun e y he => (hU e y he).1, fun e y he => (hU e y he).2⟩⟩
  · simp only [custNode, h1, h2, hl1, Option.bind_eq_bind, Option.bind_some]
    rw [slice_eq h3 (by rw [hw.dl]; exact h4), slice_eq h3 (by rw [hw.ul]; exact h4)]
    simp only [Option.bind_some, hA1, hB1, hC1]; rfl
  · intro e he
    by_cases ht : c.tail[e]? = some x
    · have hE : c.Edge e x c.head[e] := ⟨ht, List.getElem?_eq_getElem he⟩
      have := (hU e _ hE).1.le_init
      have := hw.ub e he
      simp only at *; omega
    · rw [(hsame e ht).1]; exact hw.ub e he
  · intro e he
    by_cases ht : c.tail[e]? = some x
    · have hE : c.Edge e x c.head[e] := ⟨ht, List.getElem?_eq_getElem he⟩
      have := (hU e _ hE).2.le_init
      have := hw.db e he
      simp only at *; omega
    · rw [(hsame e ht).2.1]; exact hw.db e he

/-! ### Any order of the nodes in which lower neighbours come first -/

/-- The equation system of the basic customization with initial weights `w0`, for the edges of the nodes in `P`. -/
structure Solved (c : Cch) (w0 w : Weights) (P : Nat → Prop) : Prop where
  bestUp : ∀ x e y, P x → c.Edge e x y → IsBest (w0.u e) (Tri c w x y) (w.u e, w.uu e)
  bestDown : ∀ x e y, P x → c.Edge e x y → IsBest (w0.d e) (Tri c w y x) (w.d e, w.du e)

theorem IsBest.init_congr {i i' : Nat} {T : Nat → Nat → Nat → Nat → Prop} {r : Nat × Option Nat × Option Nat} (h : IsBest i T r) (hi : i = i') :
    IsBest i' T r := by subst hi; exact h

/-- Customizing one more node. -/
theorem Solved.step (hg : Base n c) {w0 w w' : Weights} {P : Nat → Prop} (h : Solved c w0 w P) (hsame : ∀ e x, c.tail[e]? = some x → ¬ P x →
      w.u e = w0.u e ∧ w.d e = w0.d e) {x : Nat} (hx : ¬ P x) (hlow : ∀ e z, c.Edge e z x → P z)
    (hclosed : ∀ e z y, P y → c.Edge e z y → P z)
    (hd : NodeDone c x w w') : Solved c w0 w' (fun y => P y ∨ y = x) ∧
      ∀ e y, c.tail[e]? = some y → ¬ (P y ∨ y = x) → w'.u e = w0.u e ∧ w'.d e = w0.d e := by
  have hne : ∀ e z y, c.Edge e z y → (z ≠ x) → w'.u e = w.u e ∧ w'.d e = w.d e ∧ w'.uu e = w.uu e ∧ w'.du e = w.du e := by
    intro e z y he hz
    apply hd.same
    rw [he.1]; simp; exact hz
  -- triangles with lower nodes different from x are the same before and after
  have htri : ∀ y y' z t a b, z ≠ x → (Tri c w y y' z t a b ↔ Tri c w' y y' z t a b) := by
    intro y y' z t a b hz
    constructor
    · rintro ⟨h1, h2, h3⟩
      refine ⟨h1, h2, ?_⟩
      rw [(hne a z y h1 hz).2.1, (hne b z y' h2 hz).1]; exact h3
    · rintro ⟨h1, h2, h3⟩
      refine ⟨h1, h2, ?_⟩
      rw [(hne a z y h1 hz).2.1, (hne b z y' h2 hz).1] at h3; exact h3
  have hkey : ∀ y y' z t a b, P y → (Tri c w y y' z t a b ↔ Tri c w' y y' z t a b) := by
    intro y y' z t a b hy
    by_cases hz : z = x
    · subst hz
      constructor
      · rintro ⟨h1, _⟩; exact absurd (hclosed a z y hy h1) hx
      · rintro ⟨h1, _⟩; exact absurd (hclosed a z y hy h1) hx
    · exact htri y y' z t a b hz
  have hkey' : ∀ y y' z t a b, P y' → (Tri c w y y' z t a b ↔ Tri c w' y y' z t a b) := by
    intro y y' z t a b hy
    by_cases hz : z = x
    · subst hz
      constructor
      · rintro ⟨_, h1, _⟩; exact absurd (hclosed b z y' hy h1) hx
      · rintro ⟨_, h1, _⟩; exact absurd (hclosed b z y' hy h1) hx
    · exact htri y y' z t a b hz
  refine ⟨⟨?_, ?_⟩, ?_⟩
  · intro y e y' hy he
    by_cases hyx : y = x
    · subst hyx
      refine ((hd.bestUp e y' he).init_congr (hsame e y he.1 hx).1).congr ?_
      intro z t a b
      by_cases hz : z = y
      · subst hz
        constructor
        · rintro ⟨h1, _⟩; have := hg.up h1; omega
        · rintro ⟨h1, _⟩; have := hg.up h1; omega
      · exact htri _ _ z t a b hz
    · have hP : P y := by rcases hy with h | h; exact h; exact absurd h hyx
      have := h.bestUp y e y' hP he
      obtain ⟨e1, e2, e3, e4⟩ := hne e y y' he hyx
      rw [e1, e3]
      exact this.congr (fun z t a b => hkey _ _ z t a b hP)
  · intro y e y' hy he
    by_cases hyx : y = x
    · subst hyx
      refine ((hd.bestDown e y' he).init_congr (hsame e y he.1 hx).2).congr ?_
      intro z t a b
      by_cases hz : z = y
      · subst hz
        constructor
        · rintro ⟨_, h1, _⟩; have := hg.up h1; omega
        · rintro ⟨_, h1, _⟩; have := hg.up h1; omega
      · exact htri _ _ z t a b hz
    · have hP : P y := by rcases hy with h | h; exact h; exact absurd h hyx
      have := h.bestDown y e y' hP he
      obtain ⟨e1, e2, e3, e4⟩ := hne e y y' he hyx
      rw [e2, e4]
      exact this.congr (fun z t a b => hkey' _ _ z t a b hP)
  · intro e y he hnot
    rw [not_or] at hnot
    obtain ⟨e1, e2, _⟩ := hd.same e (by rw [he]; simp; exact hnot.2)
    rw [e1, e2]
    exact hsame e y he hnot.1

/-- The equation system has one solution. -/
theorem Solved.unique (hg : Base n c) {w0 w w' : Weights} (h : Solved c w0 w (fun x => x < n)) (h' : Solved c w0 w' (fun x => x < n)) :
    ∀ e x y, c.Edge e x y → w.u e = w'.u e ∧ w.d e = w'.d e ∧ w.uu e = w'.uu e ∧ w.du e = w'.du e := by
  intro e x
  induction x using Nat.strongRecOn generalizing e with
  | ind x ih =>
    intro y he
    have hx := hg.edge_lt he
    have htri : ∀ y y' z t a b, (y = x ∨ y' = x) → (Tri c w y y' z t a b ↔ Tri c w' y y' z t a b) := by
      intro y y' z t a b hy
      have key : c.Edge a z y → c.Edge b z y' → w.d a = w'.d a ∧ w.u b = w'.u b := by
        intro h1 h2
        have hz : z < x := by
          rcases hy with rfl | rfl
          · exact (hg.up h1).1
          · exact (hg.up h2).1
        exact ⟨(ih z hz a y h1).2.1, (ih z hz b y' h2).1⟩
      constructor
      · rintro ⟨h1, h2, h3⟩; obtain ⟨k1, k2⟩ := key h1 h2; exact ⟨h1, h2, by rw [← k1, ← k2]; exact h3⟩
      · rintro ⟨h1, h2, h3⟩; obtain ⟨k1, k2⟩ := key h1 h2; exact ⟨h1, h2, by rw [k1, k2]; exact h3⟩
    have hfun : ∀ y y' z t a b t' a' b', Tri c w y y' z t a b → Tri c w y y' z t' a' b' → t = t' ∧ a = a' ∧ b = b' := by
      rintro y y' z t a b t' a' b' ⟨h1, h2, h3⟩ ⟨h4, h5, h6⟩
      have := hg.unique h1 h4; have := hg.unique h2 h5
      subst_vars; exact ⟨rfl, rfl, rfl⟩
    have e1 := IsBest.unique (hfun x y) (h.bestUp x e y hx he) ((h'.bestUp x e y hx he).congr (fun z t a b => (htri x y z t a b (.inl rfl)).symm))
    have e2 := IsBest.unique (hfun y x) (h.bestDown x e y hx he) ((h'.bestDown x e y hx he).congr (fun z t a b => (htri y x z t a b (.inr rfl)).symm))
    simp only [Prod.mk.injEq] at e1 e2
    exact ⟨e1.1, e2.1, e1.2, e2.2⟩

end CCH
end Verif
