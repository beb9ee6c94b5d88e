import Verif.Model.Directed
import Verif.Proof.PerfectQuery
set_option linter.unusedSimpArgs false
set_option linter.unusedVariables false
/- Customization with different edges for the two directions. -/
namespace Verif
namespace CCH
open Spec GraphOps FOGraph
variable {n : Nat}

/-- A direction of a directed CCH as a CCH of its own. -/
def DirSide.cch (s : DirSide) : Cch := ⟨s.fo, s.head, s.tail, ⟨[], []⟩, [], [], [], s.inv⟩

/-- Detour from `x` to `y` over the lower node `z`: down along edge `a` of `B`, up along edge `b` of `F`. -/
def DTri (F B : Cch) (w : Weights) (x y z t a b : Nat) : Prop := B.Edge a z x ∧ F.Edge b z y ∧ t = w.d a + w.u b

/-- Arrays of the right size with weights up to `INFINITY`. -/
structure DWOK (F B : Cch) (w : Weights) : Prop where
  ul : w.up.length = F.head.length
  dl : w.down.length = B.head.length
  uul : w.upUnpack.length = F.head.length
  dul : w.downUnpack.length = B.head.length
  ub : ∀ e, e < F.head.length → w.u e ≤ INFINITY
  db : ∀ e, e < B.head.length → w.d e ≤ INFINITY

/-- entry of an array -/
def at0 (l : List Nat) (e : Nat) : Nat := (l[e]?).getD 0
theorem at0_get {l : List Nat} {e : Nat} (h : e < l.length) : l[e]? = some (at0 l e) := by simp [at0, List.getElem?_eq_getElem h]

/-! ### One direction of one node -/

/-- Candidates: over the lower node `z`, with an edge of `o` and an edge of `s`. -/
def Cand (s o : Cch) (own other : List Nat) (flip : Bool) (x y z t a b : Nat) : Prop :=
  if flip then s.Edge a z y ∧ o.Edge b z x ∧ t = at0 own a + at0 other b else o.Edge a z x ∧ s.Edge b z y ∧ t = at0 other a + at0 own b

/-- The workspace holds, for each edge of `s` from `x`, the best value over the candidates with a lower node in `S y`. -/
structure SInv (n : Nat) (s o : Cch) (own other : List Nat) (flip : Bool) (x : Nat) (S : Nat → Nat → Prop) (ws : WS) : Prop where
  len : ws.length = n
  best : ∀ e y, s.Edge e x y → ∃ r, ws[y]? = some r ∧ IsBest (at0 own e) (fun z t a b => Cand s o own other flip x y z t a b ∧ S y z) r

section
variable {s o : Cch} {own other : List Nat} {flip : Bool}

theorem Cand.edges {x y z t a b : Nat} (h : Cand s o own other flip x y z t a b) : (∃ e, o.Edge e z x) ∧ ∃ e, s.Edge e z y := by
  unfold Cand at h
  cases flip with
  | true => exact ⟨⟨_, h.2.1⟩, ⟨_, h.1⟩⟩
  | false => exact ⟨⟨_, h.1⟩, ⟨_, h.2.1⟩⟩

theorem SInv.congr {x : Nat} {S S' : Nat → Nat → Prop} {ws : WS} (h : SInv n s o own other flip x S ws)
    (hS : ∀ e a b y z, s.Edge e x y → o.Edge a z x → s.Edge b z y → (S y z ↔ S' y z)) : SInv n s o own other flip x S' ws := by
  refine ⟨h.len, ?_⟩
  intro e y he
  obtain ⟨r, h1, h3⟩ := h.best e y he
  refine ⟨r, h1, h3.congr ?_⟩
  intro z t a b
  constructor
  · rintro ⟨ht, hs⟩; obtain ⟨⟨a', ha⟩, ⟨b', hb⟩⟩ := ht.edges; exact ⟨ht, (hS e a' b' y z he ha hb).1 hs⟩
  · rintro ⟨ht, hs⟩; obtain ⟨⟨a', ha⟩, ⟨b', hb⟩⟩ := ht.edges; exact ⟨ht, (hS e a' b' y z he ha hb).2 hs⟩

theorem dirTriangle_spec (hs : Base n s) (ho : Base n o) (hl : own.length = s.head.length) (hol : other.length = o.head.length)
    (hb : ∀ e, e < s.head.length → at0 own e ≤ INFINITY) (hob : ∀ e, e < o.head.length → at0 other e ≤ INFINITY)
    {x z ez y e2 : Nat} (hez : o.Edge ez z x) (he2 : s.Edge e2 z y) {S : Nat → Nat → Prop} (hS : ∀ z', S y z' → z' < z) {ws : WS}
    (h : SInv n s o own other flip x S ws) :
    ∃ ws', dirTriangle own (at0 other ez) ez flip ws (y, e2) = some ws' ∧
      SInv n s o own other flip x (fun y' z' => S y' z' ∨ (y' = y ∧ z' = z)) ws' := by
  have hyn := (hs.up he2).2
  have hle := Edge.lt hez
  have hle2 := Edge.lt he2
  have k1 := hb _ hle2
  have k2 := hob _ hle
  obtain ⟨o', ho1, ho2, ho3, ho4⟩ := relaxWs_eq (ws := ws) (y := y) (t := at0 own e2 + at0 other ez) (a := if flip then e2 else ez) (b := if flip then ez else e2)
    (by rw [h.len]; exact hyn)
  refine ⟨o', ?_, ?_⟩
  · simp only [dirTriangle, at0_get (show e2 < own.length by omega), Option.bind_eq_bind, Option.bind_some]
    rw [add32_of_lt (show at0 own e2 + at0 other ez < U32 by simp only [INFINITY, U32] at *; omega)]
    simp only [Option.bind_some]
    cases flip <;> exact ho1
  · refine ⟨by rw [ho2, h.len], ?_⟩
    intro e y' he
    obtain ⟨r, h1, h3⟩ := h.best e y' he
    by_cases hy : y' = y
    · subst hy
      refine ⟨_, ho4 r h1, ?_⟩
      refine (h3.step (z := z) (t := at0 own e2 + at0 other ez) (a := if flip then e2 else ez) (b := if flip then ez else e2)
        (fun z' t' a' b' h' => hS z' h'.2)).congr ?_
      intro z' t' a' b'
      constructor
      · rintro (⟨ht, hs⟩ | ⟨rfl, rfl, rfl, rfl⟩)
        · exact ⟨ht, .inl hs⟩
        · refine ⟨?_, .inr ⟨rfl, rfl⟩⟩
          unfold Cand
          cases flip with
          | true => exact ⟨he2, hez, rfl⟩
          | false => exact ⟨hez, he2, Nat.add_comm _ _⟩
      · rintro ⟨ht, hs' | ⟨_, rfl⟩⟩
        · exact .inl ⟨ht, hs'⟩
        · right
          unfold Cand at ht
          cases flip with
          | true =>
            obtain ⟨e1, e3, rfl⟩ := ht
            have := hs.unique e1 he2
            have := ho.unique e3 hez
            subst_vars
            exact ⟨rfl, rfl, rfl, rfl⟩
          | false =>
            obtain ⟨e1, e3, rfl⟩ := ht
            have := ho.unique e1 hez
            have := hs.unique e3 he2
            subst_vars
            exact ⟨rfl, Nat.add_comm _ _, rfl, rfl⟩
    · refine ⟨r, by rw [ho3 y' hy]; exact h1, h3.congr ?_⟩
      intro z' t' a' b'; simp [hy]

end

/-- The edges of a node as `DirSide.edges` lists them. -/
theorem edges_spec {s : DirSide} (h : Base n s.cch) {x : Nat} (hx : x < n) :
    ∃ es, s.edges x = some es ∧ es.Pairwise (fun p q => p.1 < q.1 ∧ p.2 < q.2) ∧ ∀ y e, (y, e) ∈ es ↔ s.cch.Edge e x y := by
  obtain ⟨a, b, hs, h1, h2, h3, h4, h5, h6, h7⟩ := h.headIds hx
  refine ⟨_, ?_, h5, h7⟩
  have h1' : s.topo.range x = some (a, b) := h1
  have h2' : slice s.head a b = some hs := h2
  simp only [DirSide.edges, h1', h2', Option.bind_eq_bind, Option.bind_some, Option.pure_def]

section
variable {s o : DirSide} {own other : List Nat} {flip : Bool}

/-- sizes and bounds of the two weight arrays -/
structure ArrOK (s : Cch) (own : List Nat) : Prop where
  len : own.length = s.head.length
  bound : ∀ e, e < s.head.length → at0 own e ≤ INFINITY

theorem dirLow_spec (hs : Base n s.cch) (ho : Base n o.cch) (hl : ArrOK s.cch own) (hol : ArrOK o.cch other)
    {x z ez : Nat} (hez : o.cch.Edge ez z x) {S : Nat → Nat → Prop} (hS : ∀ y z', S y z' → z' < z) {ws : WS}
    (h : SInv n s.cch o.cch own other flip x S ws) :
    ∃ ws', dirLow s own other flip x ws (z, ez) = some ws' ∧ SInv n s.cch o.cch own other flip x (fun y' z' => S y' z' ∨ z' = z) ws' := by
  have hzn := ho.edge_lt hez
  obtain ⟨es, h1, h5, h7⟩ := edges_spec hs hzn
  let L := es.reverse.takeWhile (fun p => decide (x < p.1))
  have hL : ∀ y e, (y, e) ∈ L ↔ s.cch.Edge e z y ∧ x < y := by
    intro y e
    show (y, e) ∈ List.takeWhile _ _ ↔ _
    rw [mem_takeWhile_sorted (by rw [List.pairwise_reverse]; exact h5.imp (fun h => h.1)), List.mem_reverse, h7]
  have hLn : (L.map Prod.fst).Nodup := by
    rw [List.Nodup, List.pairwise_map]
    have : es.reverse.Pairwise (fun p q => q.1 < p.1 ∧ q.2 < p.2) := by
      rw [List.pairwise_reverse]; exact h5
    exact (this.sublist (List.takeWhile_sublist _)).imp (fun h => by omega)
  obtain ⟨ws', h8, h9⟩ := foldlM_inv (dirTriangle own (at0 other ez) ez flip)
    (fun P ws => SInv n s.cch o.cch own other flip x (fun y' z' => S y' z' ∨ (y' ∈ P.map Prod.fst ∧ z' = z)) ws) L (by
      rintro P ⟨y, e2⟩ Q ws hE hi
      obtain ⟨he2, hxy⟩ := (hL y e2).1 (by rw [hE]; simp)
      have hyP : y ∉ P.map Prod.fst := by
        intro hm
        rw [hE, List.map_append] at hLn
        exact (List.nodup_append.1 hLn).2.2 y hm y (by simp) rfl
      obtain ⟨ws', h1, h2⟩ := dirTriangle_spec hs ho hl.len hol.len hl.bound hol.bound hez he2 (S := fun y' z' => S y' z' ∨ (y' ∈ P.map Prod.fst ∧ z' = z)) (by
        rintro z' (h | ⟨h, _⟩)
        · exact hS y z' h
        · exact absurd h hyP) hi
      refine ⟨ws', h1, h2.congr ?_⟩
      intro e a b y' z' _ _ _
      simp only [List.map_append, List.map_cons, List.map_nil, List.mem_append, List.mem_singleton]
      constructor
      · rintro ((h | ⟨h, h'⟩) | ⟨h, h'⟩)
        · exact .inl h
        · exact .inr ⟨.inl h, h'⟩
        · exact .inr ⟨.inr h, h'⟩
      · rintro (h | ⟨h | h, h'⟩)
        · exact .inl (.inl h)
        · exact .inl (.inr ⟨h, h'⟩)
        · exact .inr ⟨h, h'⟩) ws (h.congr (by intro e a b y' z' _ _ _; simp))
  refine ⟨ws', ?_, h9.congr ?_⟩
  · have hlt : ez < other.length := by rw [hol.len]; exact Edge.lt hez
    simp only [dirLow, at0_get hlt, h1, Option.bind_eq_bind, Option.bind_some]
    exact h8
  · intro e a' b' y z' he ha hb
    constructor
    · rintro (h | ⟨_, h⟩)
      · exact .inl h
      · exact .inr h
    · rintro (h | rfl)
      · exact .inl h
      · refine .inr ⟨?_, rfl⟩
        rw [List.mem_map]
        exact ⟨(y, b'), (hL y b').2 ⟨hb, (hs.up he).1⟩, rfl⟩

/-- loading the edges of a node -/
theorem dirLoad_spec (hs : Base n s.cch) (hl : ArrOK s.cch own) {x : Nat} (hx : x < n) {ws : WS} (hws : ws.length = n) :
    ∃ es ws', s.edges x = some es ∧ es.foldlM (dirLoad own) ws = some ws' ∧ SInv n s.cch o.cch own other flip x (fun _ _ => False) ws' := by
  obtain ⟨es, h1, h5, h7⟩ := edges_spec hs hx
  have hnd1 : (es.map Prod.fst).Nodup := by
    rw [List.Nodup, List.pairwise_map]; exact h5.imp (fun h => by omega)
  obtain ⟨ws1, hA1, hA2, hA4⟩ := foldlM_inv (dirLoad own)
    (fun P (ws : WS) => ws.length = n ∧ ∀ y e, (y, e) ∈ P → ws[y]? = some (at0 own e, none, none)) es (by
      rintro P ⟨y, e⟩ Q ws hE ⟨ho, hP⟩
      have he := (h7 y e).1 (by rw [hE]; simp)
      have hy := (hs.up he).2
      have hyP : ∀ e', (y, e') ∉ P := by
        intro e' hm
        rw [hE, List.map_append] at hnd1
        exact (List.nodup_append.1 hnd1).2.2 y (List.mem_map_of_mem hm) y (by simp) rfl
      refine ⟨ws.set y (at0 own e, none, none), ?_, by simp [ho], ?_⟩
      · have hlt : e < own.length := by rw [hl.len]; exact Edge.lt he
        simp only [dirLoad, at0_get hlt, Option.bind_eq_bind, Option.bind_some]
        rw [upd_of_lt _ (by omega)]
      · intro y' e' hm
        rw [List.mem_append] at hm
        by_cases hyy : y' = y
        · subst hyy
          rcases hm with hm | hm
          · exact absurd hm (hyP e')
          · simp at hm; subst hm
            rw [List.getElem?_set_self (by omega)]
        · rw [List.getElem?_set_ne (fun h => hyy h.symm)]
          rcases hm with hm | hm
          · exact hP y' e' hm
          · simp at hm; exact absurd hm.1 hyy) ws ⟨hws, by simp⟩
  refine ⟨es, ws1, h1, hA1, hA2, ?_⟩
  intro e y he
  exact ⟨_, hA4 y e ((h7 y e).2 he), .nil (by simp)⟩

/-- all candidates of a node -/
theorem dirPass_spec (hs : Base n s.cch) (ho : Base n o.cch) (hl : ArrOK s.cch own) (hol : ArrOK o.cch other) {x : Nat} (hx : x < n) {ws : WS}
    (h : SInv n s.cch o.cch own other flip x (fun _ _ => False) ws) :
    ∃ ls ws', o.inv.linkIter x = some ls ∧ ls.foldlM (dirLow s own other flip x) ws = some ws' ∧
      ws'.length = n ∧ ∀ e y, s.cch.Edge e x y → ∃ r, ws'[y]? = some r ∧ IsBest (at0 own e) (Cand s.cch o.cch own other flip x y) r := by
  obtain ⟨lows, hl1, hl2, hl3⟩ := ho.inv x hx
  obtain ⟨ws2, hB1, hB2⟩ := foldlM_inv (dirLow s own other flip x)
    (fun P ws => SInv n s.cch o.cch own other flip x (fun _ z' => z' ∈ P.map Prod.fst) ws) lows (by
      rintro P ⟨z, ez⟩ Q ws hE hi
      have hez := (hl3 z ez).1 (by rw [hE]; simp)
      obtain ⟨ws', h8, h9⟩ := dirLow_spec hs ho hl hol hez (S := fun _ z' => z' ∈ P.map Prod.fst) (by
        intro y z' hz'
        rw [List.mem_map] at hz'
        obtain ⟨p, hp, rfl⟩ := hz'
        rw [hE] at hl2
        exact (List.pairwise_append.1 hl2).2.2 p hp (z, ez) (by simp)) hi
      exact ⟨ws', h8, h9.congr (by intro e a b y' z' _ _ _; simp)⟩) ws (h.congr (by intro e a b y' z' _ _ _; simp))
  refine ⟨lows, ws2, hl1, hB1, hB2.len, ?_⟩
  intro e y he
  obtain ⟨r, h1, h2⟩ := hB2.best e y he
  refine ⟨r, h1, h2.congr ?_⟩
  intro z t a b
  constructor
  · rintro ⟨ht, _⟩; exact ht
  · intro ht
    obtain ⟨⟨a', ha⟩, _⟩ := ht.edges
    exact ⟨ht, List.mem_map.2 ⟨(z, a'), (hl3 z a').2 ha, rfl⟩⟩

/-- entry of an array of unpacking information -/
def at2 (l : List (Option Nat × Option Nat)) (e : Nat) : Option Nat × Option Nat := (l[e]?).getD (none, none)

/-- storing the edges of a node -/
theorem dirStore_spec (hs : Base n s.cch) {x : Nat} (hx : x < n) {es : List (Nat × Nat)} (hes : s.edges x = some es) {un : List (Option Nat × Option Nat)}
    (hl : own.length = s.head.length) (hul : un.length = s.head.length) {ws : WS} {R : Nat → Nat → Nat × Option Nat × Option Nat → Prop}
    (hws : ∀ e y, s.cch.Edge e x y → ∃ r, ws[y]? = some r ∧ R e y r) :
    ∃ st, es.foldlM (dirStore ws) (own, un) = some st ∧ (st.1.length = s.head.length ∧ st.2.length = s.head.length) ∧
      (∀ e y, s.cch.Edge e x y → R e y (at0 st.1 e, at2 st.2 e)) ∧
      ∀ e, s.tail[e]? ≠ some x → at0 st.1 e = at0 own e ∧ at2 st.2 e = at2 un e := by
  obtain ⟨es', h1, h5, h7⟩ := edges_spec hs hx
  rw [hes] at h1; simp at h1; subst h1
  have hnd2 : (es.map Prod.snd).Nodup := by
    rw [List.Nodup, List.pairwise_map]; exact h5.imp (fun h => by omega)
  obtain ⟨st, hC1, hC2, hC3, hC4⟩ := foldlM_inv (dirStore ws)
    (fun P (st : List Nat × List (Option Nat × Option Nat)) => (st.1.length = s.head.length ∧ st.2.length = s.head.length) ∧
      (∀ y e, (y, e) ∈ P → ws[y]? = some (at0 st.1 e, at2 st.2 e)) ∧
      (∀ e, e ∉ P.map Prod.snd → at0 st.1 e = at0 own e ∧ at2 st.2 e = at2 un e)) es (by
      rintro P ⟨y, e⟩ Q st hE ⟨⟨l1, l2⟩, hP, hO⟩
      have he := (h7 y e).1 (by rw [hE]; simp)
      have helt : e < s.head.length := Edge.lt he
      have heP : ∀ y', (y', e) ∉ P := by
        intro y' hm
        rw [hE, List.map_append] at hnd2
        exact (List.nodup_append.1 hnd2).2.2 e (by rw [List.mem_map]; exact ⟨_, hm, rfl⟩) e (by simp) rfl
      obtain ⟨r, hr, _⟩ := hws e y he
      refine ⟨(st.1.set e r.1, st.2.set e r.2), ?_, ?_, ?_, ?_⟩
      · simp only [dirStore, hr, Option.bind_eq_bind, Option.bind_some]
        rw [upd_of_lt (l := st.1) _ (by omega), upd_of_lt (l := st.2) _ (by omega)]; rfl
      · simp [l1, l2]
      · intro y' e' hm
        rw [List.mem_append] at hm
        simp only [at0, at2]
        rw [getD_set (by omega), getD_set (by omega)]
        by_cases hee : e' = e
        · subst hee
          rcases hm with hm | hm
          · exact absurd hm (heP y')
          · simp at hm; subst hm; simp [hr]
        · simp only [hee, if_false]
          rcases hm with hm | hm
          · exact hP y' e' hm
          · simp at hm; exact absurd hm.2 hee
      · intro e' hm
        simp only [List.map_append, List.map_cons, List.map_nil, List.mem_append, List.mem_singleton, not_or] at hm
        simp only [at0, at2]
        rw [getD_set (by omega), getD_set (by omega)]
        simp only [hm.2, if_false]
        exact hO e' hm.1) (own, un) ⟨⟨hl, hul⟩, by simp, by simp⟩
  refine ⟨st, hC1, hC2, ?_, ?_⟩
  · intro e y he
    obtain ⟨r, hr, hR⟩ := hws e y he
    have := hC3 y e ((h7 y e).2 he)
    rw [hr] at this; simp at this; subst this; exact hR
  · intro e he
    apply hC4
    intro hm
    rw [List.mem_map] at hm
    obtain ⟨⟨y, e'⟩, hm, rfl⟩ := hm
    exact he ((h7 y e').1 hm).1

end

/-! ### One node -/

/-- What customizing a node does. -/
structure DNodeDone (F B : Cch) (x : Nat) (w w' : Weights) : Prop where
  sameU : ∀ e, F.tail[e]? ≠ some x → w'.u e = w.u e ∧ w'.uu e = w.uu e
  sameD : ∀ e, B.tail[e]? ≠ some x → w'.d e = w.d e ∧ w'.du e = w.du e
  bestUp : ∀ e y, F.Edge e x y → IsBest (w.u e) (DTri F B w x y) (w'.u e, w'.uu e)
  bestDown : ∀ e y, B.Edge e x y → IsBest (w.d e) (DTri F B w y x) (w'.d e, w'.du e)

theorem dirNode_spec {c : DirCch} (hF : Base n c.fw.cch) (hB : Base n c.bw.cch) {w : Weights} (hw : DWOK c.fw.cch c.bw.cch w) {x : Nat} (hx : x < n)
    {ws : WS × WS} (hws : ws.1.length = n ∧ ws.2.length = n) :
    ∃ w' ws', dirNode c x ws w = some (w', ws') ∧ (ws'.1.length = n ∧ ws'.2.length = n) ∧ DWOK c.fw.cch c.bw.cch w' ∧
      DNodeDone c.fw.cch c.bw.cch x w w' := by
  have aF : ArrOK c.fw.cch w.up := ⟨hw.ul, hw.ub⟩
  have aB : ArrOK c.bw.cch w.down := ⟨hw.dl, hw.db⟩
  obtain ⟨fe, out1, f1, f2, f3⟩ := dirLoad_spec (o := c.bw) (other := w.down) (flip := false) hF aF hx hws.1
  obtain ⟨be, inc1, b1, b2, b3⟩ := dirLoad_spec (o := c.fw) (other := w.up) (flip := true) hB aB hx hws.2
  obtain ⟨bl, out2, f4, f5, f6, f7⟩ := dirPass_spec hF hB aF aB hx f3
  obtain ⟨fl, inc2, b4, b5, b6, b7⟩ := dirPass_spec hB hF aB aF hx b3
  obtain ⟨u, f8, f9, f10, f11⟩ := dirStore_spec hF hx f1 (un := w.upUnpack) hw.ul hw.uul f7
  obtain ⟨d, b8, b9, b10, b11⟩ := dirStore_spec hB hx b1 (un := w.downUnpack) hw.dl hw.dul b7
  refine ⟨⟨u.1, d.1, u.2, d.2⟩, (out2, inc2), ?_, ⟨f6, b6⟩, ⟨f9.1, b9.1, f9.2, b9.2, ?_, ?_⟩, ⟨f11, b11, ?_, ?_⟩⟩
  · simp only [dirNode, f1, b1, f2, b2, f4, b4, f5, b5, f8, b8, Option.bind_eq_bind, Option.bind_some, Option.pure_def]
  · intro e he
    by_cases ht : c.fw.cch.tail[e]? = some x
    · have := (f10 e c.fw.cch.head[e] ⟨ht, List.getElem?_eq_getElem he⟩).le_init
      have h2 := hw.ub e he
      show at0 u.1 e ≤ _
      have h3 : at0 w.up e = w.u e := rfl
      simp only at this; omega
    · have h2 := hw.ub e he
      have h3 := (f11 e ht).1
      show at0 u.1 e ≤ _
      rw [h3]; exact h2
  · intro e he
    by_cases ht : c.bw.cch.tail[e]? = some x
    · have := (b10 e c.bw.cch.head[e] ⟨ht, List.getElem?_eq_getElem he⟩).le_init
      have h2 := hw.db e he
      show at0 d.1 e ≤ _
      have h3 : at0 w.down e = w.d e := rfl
      simp only at this; omega
    · have h2 := hw.db e he
      have h3 := (b11 e ht).1
      show at0 d.1 e ≤ _
      rw [h3]; exact h2
  · intro e y he
    exact (f10 e y he).congr (fun z t a b => by simp only [Cand, Bool.false_eq_true, if_false]; rfl)
  · intro e y he
    exact (b10 e y he).congr (fun z t a b => by simp only [Cand, if_true]; rfl)

/-! ### All nodes -/

/-- The equation system for the edges of the nodes in `P`. -/
structure DSolved (F B : Cch) (w0 w : Weights) (P : Nat → Prop) : Prop where
  bestUp : ∀ x e y, P x → F.Edge e x y → IsBest (w0.u e) (DTri F B w x y) (w.u e, w.uu e)
  bestDown : ∀ x e y, P x → B.Edge e x y → IsBest (w0.d e) (DTri F B w y x) (w.d e, w.du e)

theorem Solved.directed {c : Cch} {w0 w : Weights} {P : Nat → Prop} (h : Solved c w0 w P) : DSolved c c w0 w P := ⟨h.bestUp, h.bestDown⟩

section
variable {F B : Cch}

theorem DSolved.step (hF : Base n F) (hB : Base n B) {w0 w w' : Weights} {P : Nat → Prop} (h : DSolved F B w0 w P)
    (hsu : ∀ e x, F.tail[e]? = some x → ¬ P x → w.u e = w0.u e) (hsd : ∀ e x, B.tail[e]? = some x → ¬ P x → w.d e = w0.d e)
    {x : Nat} (hx : ¬ P x) (hcF : ∀ e z y, P y → F.Edge e z y → P z) (hcB : ∀ e z y, P y → B.Edge e z y → P z)
    (hd : DNodeDone F B x w w') : DSolved F B w0 w' (fun y => P y ∨ y = x) ∧
      (∀ e y, F.tail[e]? = some y → ¬ (P y ∨ y = x) → w'.u e = w0.u e) ∧ (∀ e y, B.tail[e]? = some y → ¬ (P y ∨ y = x) → w'.d e = w0.d e) := by
  have hneU : ∀ e z y, F.Edge e z y → (z ≠ x) → w'.u e = w.u e ∧ w'.uu e = w.uu e := by
    intro e z y he hz; apply hd.sameU; rw [he.1]; simp; exact hz
  have hneD : ∀ e z y, B.Edge e z y → (z ≠ x) → w'.d e = w.d e ∧ w'.du e = w.du e := by
    intro e z y he hz; apply hd.sameD; rw [he.1]; simp; exact hz
  have htri : ∀ y y' z t a b, z ≠ x → (DTri F B w y y' z t a b ↔ DTri F B w' y y' z t a b) := by
    intro y y' z t a b hz
    constructor
    · rintro ⟨h1, h2, h3⟩
      exact ⟨h1, h2, by rw [(hneD a z y h1 hz).1, (hneU b z y' h2 hz).1]; exact h3⟩
    · rintro ⟨h1, h2, h3⟩
      exact ⟨h1, h2, by rw [(hneD a z y h1 hz).1, (hneU b z y' h2 hz).1] at h3; exact h3⟩
  have hkey : ∀ y y' z t a b, (P y ∨ P y' ∨ y = x ∨ y' = x) → (DTri F B w y y' z t a b ↔ DTri F B w' y y' z t a b) := by
    intro y y' z t a b hy
    by_cases hz : z = x
    · have key : ¬ (B.Edge a z y ∧ F.Edge b z y') := by
        rintro ⟨h1, h2⟩
        rcases hy with hy | hy | rfl | rfl
        · exact hx (hz ▸ hcB a z y hy h1)
        · exact hx (hz ▸ hcF b z y' hy h2)
        · have := hB.up h1; omega
        · have := hF.up h2; omega
      constructor
      · rintro ⟨h1, h2, _⟩; exact absurd ⟨h1, h2⟩ key
      · rintro ⟨h1, h2, _⟩; exact absurd ⟨h1, h2⟩ key
    · exact htri y y' z t a b hz
  refine ⟨⟨?_, ?_⟩, ?_, ?_⟩
  · intro y e y' hy he
    by_cases hyx : y = x
    · subst hyx
      exact ((hd.bestUp e y' he).init_congr (hsu e y he.1 hx)).congr (fun z t a b => hkey _ _ z t a b (.inr (.inr (.inl rfl))))
    · have hP : P y := by rcases hy with h | h; exact h; exact absurd h hyx
      obtain ⟨e1, e2⟩ := hneU e y y' he hyx
      rw [e1, e2]
      exact (h.bestUp y e y' hP he).congr (fun z t a b => hkey _ _ z t a b (.inl hP))
  · intro y e y' hy he
    by_cases hyx : y = x
    · subst hyx
      exact ((hd.bestDown e y' he).init_congr (hsd e y he.1 hx)).congr (fun z t a b => hkey _ _ z t a b (.inr (.inr (.inr rfl))))
    · have hP : P y := by rcases hy with h | h; exact h; exact absurd h hyx
      obtain ⟨e1, e2⟩ := hneD e y y' he hyx
      rw [e1, e2]
      exact (h.bestDown y e y' hP he).congr (fun z t a b => hkey _ _ z t a b (.inr (.inl hP)))
  · intro e y he hnot
    rw [not_or] at hnot
    rw [(hd.sameU e (by rw [he]; simp; exact hnot.2)).1]
    exact hsu e y he hnot.1
  · intro e y he hnot
    rw [not_or] at hnot
    rw [(hd.sameD e (by rw [he]; simp; exact hnot.2)).1]
    exact hsd e y he hnot.1

/-- The equation system has one solution. -/
theorem DSolved.unique (hF : Base n F) (hB : Base n B) {w0 w w' : Weights} (h : DSolved F B w0 w (fun x => x < n))
    (h' : DSolved F B w0 w' (fun x => x < n)) : ∀ x e y, (F.Edge e x y → w.u e = w'.u e ∧ w.uu e = w'.uu e) ∧
      (B.Edge e x y → w.d e = w'.d e ∧ w.du e = w'.du e) := by
  intro x
  induction x using Nat.strongRecOn with
  | ind x ih =>
    intro e y
    have htri : ∀ y y' z t a b, (y = x ∨ y' = x) → (DTri F B w y y' z t a b ↔ DTri F B w' y y' z t a b) := by
      intro y y' z t a b hy
      have key : B.Edge a z y → F.Edge b z y' → w.d a = w'.d a ∧ w.u b = w'.u b := by
        intro h1 h2
        have hz : z < x := by
          rcases hy with rfl | rfl
          · exact (hB.up h1).1
          · exact (hF.up h2).1
        exact ⟨((ih z hz a y).2 h1).1, ((ih z hz b y').1 h2).1⟩
      constructor
      · rintro ⟨h1, h2, h3⟩; obtain ⟨k1, k2⟩ := key h1 h2; exact ⟨h1, h2, by rw [← k1, ← k2]; exact h3⟩
      · rintro ⟨h1, h2, h3⟩; obtain ⟨k1, k2⟩ := key h1 h2; exact ⟨h1, h2, by rw [k1, k2]; exact h3⟩
    have hfun : ∀ y y' z t a b t' a' b', DTri F B w y y' z t a b → DTri F B w y y' z t' a' b' → t = t' ∧ a = a' ∧ b = b' := by
      rintro y y' z t a b t' a' b' ⟨h1, h2, h3⟩ ⟨h4, h5, h6⟩
      have := hB.unique h1 h4; have := hF.unique h2 h5
      subst_vars; exact ⟨rfl, rfl, rfl⟩
    constructor
    · intro he
      have e1 := IsBest.unique (hfun x y) (h.bestUp x e y (hF.edge_lt he) he)
        ((h'.bestUp x e y (hF.edge_lt he) he).congr (fun z t a b => (htri x y z t a b (.inl rfl)).symm))
      simp only [Prod.mk.injEq] at e1; exact ⟨e1.1, e1.2⟩
    · intro he
      have e1 := IsBest.unique (hfun y x) (h.bestDown x e y (hB.edge_lt he) he)
        ((h'.bestDown x e y (hB.edge_lt he) he).congr (fun z t a b => (htri y x z t a b (.inr rfl)).symm))
      simp only [Prod.mk.injEq] at e1; exact ⟨e1.1, e1.2⟩

theorem DSolved.eq (hF : Base n F) (hB : Base n B) {w0 w w' : Weights} (hw : DWOK F B w) (hw' : DWOK F B w') (h : DSolved F B w0 w (fun x => x < n))
    (h' : DSolved F B w0 w' (fun x => x < n)) : w = w' := by
  have kU : ∀ e, e < F.head.length → w.u e = w'.u e ∧ w.uu e = w'.uu e := by
    intro e he
    have ht : e < F.tail.length := by rw [hF.tailLen]; exact he
    exact (DSolved.unique hF hB h h' _ e _).1 ⟨List.getElem?_eq_getElem ht, List.getElem?_eq_getElem he⟩
  have kD : ∀ e, e < B.head.length → w.d e = w'.d e ∧ w.du e = w'.du e := by
    intro e he
    have ht : e < B.tail.length := by rw [hB.tailLen]; exact he
    exact (DSolved.unique hF hB h h' _ e _).2 ⟨List.getElem?_eq_getElem ht, List.getElem?_eq_getElem he⟩
  have h1 : w.up = w'.up := ext_getD (d := 0) (by rw [hw.ul, hw'.ul]) (fun e he => (kU e (by rw [← hw.ul]; exact he)).1)
  have h2 : w.down = w'.down := ext_getD (d := 0) (by rw [hw.dl, hw'.dl]) (fun e he => (kD e (by rw [← hw.dl]; exact he)).1)
  have h3 : w.upUnpack = w'.upUnpack := ext_getD (d := (none, none)) (by rw [hw.uul, hw'.uul]) (fun e he => (kU e (by rw [← hw.uul]; exact he)).2)
  have h4 : w.downUnpack = w'.downUnpack := ext_getD (d := (none, none)) (by rw [hw.dul, hw'.dul]) (fun e he => (kD e (by rw [← hw.dul]; exact he)).2)
  cases w; cases w'; simp at h1 h2 h3 h4; simp [h1, h2, h3, h4]

/-- State after some of the nodes are done. -/
structure DRunInv (F B : Cch) (w0 w : Weights) (P : List Nat) : Prop where
  ok : DWOK F B w
  solved : DSolved F B w0 w (fun x => x ∈ P)
  restU : ∀ e x, F.tail[e]? = some x → x ∉ P → w.u e = w0.u e
  restD : ∀ e x, B.tail[e]? = some x → x ∉ P → w.d e = w0.d e

theorem DRunInv.init {w0 : Weights} (h : DWOK F B w0) : DRunInv F B w0 w0 [] :=
  ⟨h, ⟨by simp, by simp⟩, fun _ _ _ _ => rfl, fun _ _ _ _ => rfl⟩

end

/-- Customize nodes in the given order; each step finds its own workspace content. -/
def runDirected (c : DirCch) : List (Nat × (WS × WS)) → Weights → Option Weights
  | [], w => some w
  | p :: L, w => do
    let r ← dirNode c p.1 p.2 w
    runDirected c L r.1

section
variable {c : DirCch}

theorem DRunInv.step (hF : Base n c.fw.cch) (hB : Base n c.bw.cch) {L P Q : List Nat} {x : Nat} (hLF : TopoOrder n c.fw.cch L) (hLB : TopoOrder n c.bw.cch L)
    (hE : L = P ++ x :: Q) {w0 w : Weights} (h : DRunInv c.fw.cch c.bw.cch w0 w P) {ws : WS × WS} (hws : ws.1.length = n ∧ ws.2.length = n) :
    ∃ w' ws', dirNode c x ws w = some (w', ws') ∧ (ws'.1.length = n ∧ ws'.2.length = n) ∧ DRunInv c.fw.cch c.bw.cch w0 w' (P ++ [x]) := by
  have hx : x < n := (hLF.mem x).1 (by rw [hE]; simp)
  obtain ⟨w', ws', h1, h2, h3, h4⟩ := dirNode_spec hF hB h.ok hx hws
  have hxP : x ∉ P := by
    intro hm
    have := hLF.nodup
    rw [hE] at this
    exact (List.nodup_append.1 this).2.2 x hm x (by simp) rfl
  have hcl : ∀ {d : Cch}, TopoOrder n d L → ∀ e z y, y ∈ P → d.Edge e z y → z ∈ P := by
    intro d hL e z y hy he
    obtain ⟨P1, P2, rfl⟩ := List.append_of_mem hy
    have := hL.before P1 y (P2 ++ x :: Q) (by rw [hE]; simp) e z he
    exact List.mem_append_left _ this
  obtain ⟨h5, h6, h7⟩ := DSolved.step hF hB h.solved h.restU h.restD hxP (hcl hLF) (hcl hLB) h4
  refine ⟨w', ws', h1, h2, h3, ⟨?_, ?_⟩, ?_, ?_⟩
  · intro y e z hy; exact h5.bestUp y e z (by simpa using hy)
  · intro y e z hy; exact h5.bestDown y e z (by simpa using hy)
  · intro e y he hy; exact h6 e y he (by simpa using hy)
  · intro e y he hy; exact h7 e y he (by simpa using hy)

/-- Any order, any workspace contents. -/
theorem runDirected_spec (hF : Base n c.fw.cch) (hB : Base n c.bw.cch) {w0 : Weights} (hw : DWOK c.fw.cch c.bw.cch w0) {S : List (Nat × (WS × WS))}
    (hLF : TopoOrder n c.fw.cch (S.map Prod.fst)) (hLB : TopoOrder n c.bw.cch (S.map Prod.fst)) (hws : ∀ p ∈ S, p.2.1.length = n ∧ p.2.2.length = n) :
    ∃ w, runDirected c S w0 = some w ∧ DWOK c.fw.cch c.bw.cch w ∧ DSolved c.fw.cch c.bw.cch w0 w (fun x => x < n) := by
  have key : ∀ (Q P : List (Nat × (WS × WS))), S = P ++ Q → ∀ w, DRunInv c.fw.cch c.bw.cch w0 w (P.map Prod.fst) →
      ∃ w', runDirected c Q w = some w' ∧ DRunInv c.fw.cch c.bw.cch w0 w' (S.map Prod.fst) := by
    intro Q
    induction Q with
    | nil => intro P h w hi; simp at h; subst h; exact ⟨w, rfl, hi⟩
    | cons p Q ih =>
      intro P h w hi
      obtain ⟨w', ws', h1, _, h3⟩ := DRunInv.step hF hB hLF hLB (P := P.map Prod.fst) (x := p.1) (Q := Q.map Prod.fst) (by rw [h]; simp) hi
        (hws p (by rw [h]; simp))
      obtain ⟨w'', h4, h5⟩ := ih (P ++ [p]) (by simpa using h) w' (by simpa using h3)
      exact ⟨w'', by simp only [runDirected, h1, Option.bind_eq_bind, Option.bind_some]; exact h4, h5⟩
  obtain ⟨w, h1, h2⟩ := key S [] rfl w0 (DRunInv.init hw)
  refine ⟨w, h1, h2.ok, ⟨?_, ?_⟩⟩
  · intro x e y hx; exact h2.solved.bestUp x e y ((hLF.mem x).2 hx)
  · intro x e y hx; exact h2.solved.bestDown x e y ((hLB.mem x).2 hx)

/-- The sequential customization. -/
theorem dirNodes_spec (hF : Base n c.fw.cch) (hB : Base n c.bw.cch) {w0 : Weights} (hw : DWOK c.fw.cch c.bw.cch w0) :
    ∃ w, dirNodes c (List.range n) w0 = some w ∧ DWOK c.fw.cch c.bw.cch w ∧ DSolved c.fw.cch c.bw.cch w0 w (fun x => x < n) := by
  unfold dirNodes
  have hnn : c.numNodes = n := hF.nn
  have hLF := topo_range hF
  have hLB := topo_range hB
  obtain ⟨st, h1, h2, h3⟩ := foldlM_inv (fun (st : Weights × (WS × WS)) v => dirNode c v st.2 st.1)
    (fun P st => DRunInv c.fw.cch c.bw.cch w0 st.1 P ∧ (st.2.1.length = n ∧ st.2.2.length = n)) (List.range n) (by
      rintro P x Q ⟨w, ws⟩ hE ⟨hi, hl⟩
      obtain ⟨w', ws', h1, h2, h3⟩ := DRunInv.step hF hB hLF hLB hE hi hl
      exact ⟨(w', ws'), h1, h3, h2⟩) (w0, freshWS c.numNodes) ⟨DRunInv.init hw, by simp [freshWS, hnn]⟩
  refine ⟨st.1, by rw [h1]; rfl, h2.ok, ⟨?_, ?_⟩⟩
  · intro x e y hx; exact h2.solved.bestUp x e y ((hLF.mem x).2 hx)
  · intro x e y hx; exact h2.solved.bestDown x e y ((hLB.mem x).2 hx)

end

end CCH
end Verif
