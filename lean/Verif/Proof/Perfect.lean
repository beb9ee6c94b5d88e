import Verif.Model.Perfect
import Verif.Proof.CCHExact
import Verif.Proof.CCHPath
import Verif.Proof.Reversed
import Verif.Spec.Hierarchy
set_option linter.unusedSimpArgs false
set_option linter.unusedVariables false
/- Lemmas about perfect customization. -/
namespace Verif
namespace CCH
open Spec

def PW.u (p : PW) (e : Nat) : Nat := (p.up[e]?).getD 0
def PW.d (p : PW) (e : Nat) : Nat := (p.down[e]?).getD 0
def PW.um (p : PW) (e : Nat) : Bool := (p.upMod[e]?).getD false
def PW.dm (p : PW) (e : Nat) : Bool := (p.downMod[e]?).getD false

/-- sizes and bounds -/
structure POK (c : Cch) (p : PW) : Prop where
  ul : p.up.length = c.head.length
  dl : p.down.length = c.head.length
  uml : p.upMod.length = c.head.length
  dml : p.downMod.length = c.head.length
  ub : ∀ e, e < c.head.length → p.u e ≤ INFINITY
  db : ∀ e, e < c.head.length → p.d e ≤ INFINITY

variable {n : Nat} {c : Cch}

theorem POK.up_get {p : PW} (h : POK c p) {e : Nat} (he : e < c.head.length) : p.up[e]? = some (p.u e) := by
  have : e < p.up.length := by rw [h.ul]; exact he
  simp [PW.u, List.getElem?_eq_getElem this]
theorem POK.down_get {p : PW} (h : POK c p) {e : Nat} (he : e < c.head.length) : p.down[e]? = some (p.d e) := by
  have : e < p.down.length := by rw [h.dl]; exact he
  simp [PW.d, List.getElem?_eq_getElem this]

/-- From `p` to `p'`, nothing but edges with tail `x` improved, marked as modified, by sums of sound values. -/
structure PStep (c : Cch) (x : Nat) (p p' : PW) : Prop where
  ok : POK c p'
  frame : ∀ e, c.tail[e]? ≠ some x → p'.u e = p.u e ∧ p'.d e = p.d e ∧ p'.um e = p.um e ∧ p'.dm e = p.dm e
  up : ∀ e, (p'.u e = p.u e ∧ p'.um e = p.um e) ∨ (p'.u e < p.u e ∧ p'.um e = true)
  down : ∀ e, (p'.d e = p.d e ∧ p'.dm e = p.dm e) ∨ (p'.d e < p.d e ∧ p'.dm e = true)
  sound : ∀ V : Nat → Nat → Nat → Prop, (∀ a b d l m, V a b l → V b d m → V a d (l + m)) →
    (∀ e a b, c.Edge e a b → (p.u e < INFINITY → V a b (p.u e)) ∧ (p.d e < INFINITY → V b a (p.d e))) →
    ∀ e a b, c.Edge e a b → (p'.u e < INFINITY → V a b (p'.u e)) ∧ (p'.d e < INFINITY → V b a (p'.d e))

theorem PStep.refl {x : Nat} {p : PW} (h : POK c p) : PStep c x p p :=
  ⟨h, fun _ _ => ⟨rfl, rfl, rfl, rfl⟩, fun _ => .inl ⟨rfl, rfl⟩, fun _ => .inl ⟨rfl, rfl⟩, fun _ _ h => h⟩

theorem PStep.trans {x : Nat} {p q r : PW} (h1 : PStep c x p q) (h2 : PStep c x q r) : PStep c x p r := by
  refine ⟨h2.ok, ?_, ?_, ?_, fun V hV h => h2.sound V hV (h1.sound V hV h)⟩
  · intro e he
    obtain ⟨a1, a2, a3, a4⟩ := h1.frame e he
    obtain ⟨b1, b2, b3, b4⟩ := h2.frame e he
    exact ⟨b1.trans a1, b2.trans a2, b3.trans a3, b4.trans a4⟩
  · intro e
    rcases h1.up e with ⟨a1, a2⟩ | ⟨a1, a2⟩ <;> rcases h2.up e with ⟨b1, b2⟩ | ⟨b1, b2⟩
    · exact .inl ⟨b1.trans a1, b2.trans a2⟩
    · exact .inr ⟨by omega, b2⟩
    · exact .inr ⟨by omega, b2.trans a2⟩
    · exact .inr ⟨by omega, b2⟩
  · intro e
    rcases h1.down e with ⟨a1, a2⟩ | ⟨a1, a2⟩ <;> rcases h2.down e with ⟨b1, b2⟩ | ⟨b1, b2⟩
    · exact .inl ⟨b1.trans a1, b2.trans a2⟩
    · exact .inr ⟨by omega, b2⟩
    · exact .inr ⟨by omega, b2.trans a2⟩
    · exact .inr ⟨by omega, b2⟩

theorem PStep.leU {x : Nat} {p q : PW} (h : PStep c x p q) (e : Nat) : q.u e ≤ p.u e := by
  rcases h.up e with h | h <;> omega
theorem PStep.leD {x : Nat} {p q : PW} (h : PStep c x p q) (e : Nat) : q.d e ≤ p.d e := by
  rcases h.down e with h | h <;> omega

theorem relaxMod_spec {w : List Nat} {m : List Bool} {e x k : Nat} (hw : w.length = k) (hm : m.length = k) (he : e < k) :
    ∃ w' m', relaxMod w m e x = some (w', m') ∧ w'.length = k ∧ m'.length = k ∧ (∀ i, i ≠ e → (w'[i]?).getD 0 = (w[i]?).getD 0 ∧ (m'[i]?).getD false = (m[i]?).getD false) ∧
      ((((w'[e]?).getD 0 = (w[e]?).getD 0 ∧ (m'[e]?).getD false = (m[e]?).getD false) ∧ (w[e]?).getD 0 ≤ x) ∨
        ((w'[e]?).getD 0 = x ∧ x < (w[e]?).getD 0 ∧ (m'[e]?).getD false = true)) := by
  have h1 : w[e]? = some (w[e]'(by omega)) := List.getElem?_eq_getElem _
  by_cases hx : x < w[e]'(by omega)
  · refine ⟨w.set e x, m.set e true, ?_, by simp [hw], by simp [hm], ?_, .inr ?_⟩
    · simp only [relaxMod, h1, Option.bind_eq_bind, Option.bind_some, hx, if_true, upd_of_lt x (show e < w.length by omega), upd_of_lt true (show e < m.length by omega), Option.pure_def]
    · intro i hi
      rw [List.getElem?_set_ne (by omega), List.getElem?_set_ne (by omega)]
      exact ⟨rfl, rfl⟩
    · rw [List.getElem?_set_self (by omega), List.getElem?_set_self (by omega), h1]
      exact ⟨rfl, hx, rfl⟩
  · refine ⟨w, m, by simp [relaxMod, h1, hx], hw, hm, fun _ _ => ⟨rfl, rfl⟩, .inl ⟨⟨rfl, rfl⟩, ?_⟩⟩
    rw [h1]; simp; omega

theorem relaxUp_spec (hg : Base n c) {p : PW} (hp : POK c p) {x y z e : Nat} (he : c.Edge e x z) {a b : Nat} (ha : a ≤ INFINITY) (hb : b ≤ INFINITY)
    (hab : ∀ V : Nat → Nat → Nat → Prop, (∀ e a b, c.Edge e a b → (p.u e < INFINITY → V a b (p.u e)) ∧ (p.d e < INFINITY → V b a (p.d e))) →
      (a < INFINITY → V x y a) ∧ (b < INFINITY → V y z b)) :
    ∃ p', p.relaxUp e a b = some p' ∧ PStep c x p p' ∧ p'.u e ≤ a + b ∧ p'.down = p.down := by
  obtain ⟨w', m', h1, h2, h3, h4, h5⟩ := relaxMod_spec (x := a + b) hp.ul hp.uml (Edge.lt he)
  have hadd : add32 a b = some (a + b) := add32_of_lt (by simp only [INFINITY, U32] at *; omega)
  refine ⟨{ p with up := w', upMod := m' }, by simp only [PW.relaxUp, hadd, h1, Option.bind_eq_bind, Option.bind_some, Option.pure_def], ?_, ?_, rfl⟩
  · have hub := hp.ub e (Edge.lt he)
    refine ⟨⟨h2, hp.dl, h3, hp.dml, ?_, hp.db⟩, ?_, ?_, fun i => .inl ⟨rfl, rfl⟩, ?_⟩
    · intro i hi
      by_cases hie : i = e
      · subst hie
        have : (w'[i]?).getD 0 ≤ p.u i := by
          rcases h5 with ⟨⟨h5, _⟩, _⟩ | ⟨h5, h6, _⟩
          · rw [h5]; exact Nat.le_refl _
          · rw [h5]; exact Nat.le_of_lt h6
        exact Nat.le_trans this hub
      · have := hp.ub i hi
        show (w'[i]?).getD 0 ≤ _
        rw [(h4 i hie).1]; exact this
    · intro i hi
      have hie : i ≠ e := by rintro rfl; exact hi he.1
      exact ⟨(h4 i hie).1, rfl, (h4 i hie).2, rfl⟩
    · intro i
      by_cases hie : i = e
      · subst hie
        rcases h5 with ⟨⟨h5, h6⟩, _⟩ | ⟨h5, h6, h7⟩
        · exact .inl ⟨h5, h6⟩
        · refine .inr ⟨?_, h7⟩
          show (w'[i]?).getD 0 < _
          rw [h5]; exact h6
      · exact .inl ⟨(h4 i hie).1, (h4 i hie).2⟩
    · intro V hV hs i a' b' hi
      refine ⟨fun hlt => ?_, (hs i a' b' hi).2⟩
      by_cases hie : i = e
      · subst hie
        obtain ⟨rfl, rfl⟩ := Edge.inj he hi
        have hlt' : (w'[i]?).getD 0 < INFINITY := hlt
        show V _ _ ((w'[i]?).getD 0)
        rcases h5 with ⟨⟨h5, h6⟩, _⟩ | ⟨h5, h6, h7⟩
        · rw [h5] at hlt' ⊢; exact (hs i _ _ hi).1 hlt'
        · rw [h5] at hlt' ⊢
          obtain ⟨h8, h9⟩ := hab V hs
          exact hV _ _ _ _ _ (h8 (by omega)) (h9 (by omega))
      · have hlt' : (w'[i]?).getD 0 < INFINITY := hlt
        show V _ _ ((w'[i]?).getD 0)
        rw [(h4 i hie).1] at hlt' ⊢
        exact (hs i _ _ hi).1 hlt'
  · show (w'[e]?).getD 0 ≤ _
    rcases h5 with ⟨⟨h5, h6⟩, h7⟩ | ⟨h5, h6, h7⟩ <;> omega

theorem relaxDown_spec (hg : Base n c) {p : PW} (hp : POK c p) {x y z e : Nat} (he : c.Edge e x z) {a b : Nat} (ha : a ≤ INFINITY) (hb : b ≤ INFINITY)
    (hab : ∀ V : Nat → Nat → Nat → Prop, (∀ e a b, c.Edge e a b → (p.u e < INFINITY → V a b (p.u e)) ∧ (p.d e < INFINITY → V b a (p.d e))) →
      (a < INFINITY → V y x a) ∧ (b < INFINITY → V z y b)) :
    ∃ p', p.relaxDown e a b = some p' ∧ PStep c x p p' ∧ p'.d e ≤ a + b ∧ p'.up = p.up := by
  obtain ⟨w', m', h1, h2, h3, h4, h5⟩ := relaxMod_spec (x := a + b) hp.dl hp.dml (Edge.lt he)
  have hadd : add32 a b = some (a + b) := add32_of_lt (by simp only [INFINITY, U32] at *; omega)
  refine ⟨{ p with down := w', downMod := m' }, by simp only [PW.relaxDown, hadd, h1, Option.bind_eq_bind, Option.bind_some, Option.pure_def], ?_, ?_, rfl⟩
  · have hub := hp.db e (Edge.lt he)
    refine ⟨⟨hp.ul, h2, hp.uml, h3, hp.ub, ?_⟩, ?_, fun i => .inl ⟨rfl, rfl⟩, ?_, ?_⟩
    · intro i hi
      by_cases hie : i = e
      · subst hie
        have : (w'[i]?).getD 0 ≤ p.d i := by
          rcases h5 with ⟨⟨h5, _⟩, _⟩ | ⟨h5, h6, _⟩
          · rw [h5]; exact Nat.le_refl _
          · rw [h5]; exact Nat.le_of_lt h6
        exact Nat.le_trans this hub
      · have := hp.db i hi
        show (w'[i]?).getD 0 ≤ _
        rw [(h4 i hie).1]; exact this
    · intro i hi
      have hie : i ≠ e := by rintro rfl; exact hi he.1
      exact ⟨rfl, (h4 i hie).1, rfl, (h4 i hie).2⟩
    · intro i
      by_cases hie : i = e
      · subst hie
        rcases h5 with ⟨⟨h5, h6⟩, _⟩ | ⟨h5, h6, h7⟩
        · exact .inl ⟨h5, h6⟩
        · refine .inr ⟨?_, h7⟩
          show (w'[i]?).getD 0 < _
          rw [h5]; exact h6
      · exact .inl ⟨(h4 i hie).1, (h4 i hie).2⟩
    · intro V hV hs i a' b' hi
      refine ⟨(hs i a' b' hi).1, fun hlt => ?_⟩
      by_cases hie : i = e
      · subst hie
        obtain ⟨rfl, rfl⟩ := Edge.inj he hi
        have hlt' : (w'[i]?).getD 0 < INFINITY := hlt
        show V _ _ ((w'[i]?).getD 0)
        rcases h5 with ⟨⟨h5, h6⟩, _⟩ | ⟨h5, h6, h7⟩
        · rw [h5] at hlt' ⊢; exact (hs i _ _ hi).2 hlt'
        · rw [h5] at hlt' ⊢
          obtain ⟨h8, h9⟩ := hab V hs
          rw [Nat.add_comm a b]
          exact hV _ _ _ _ _ (h9 (by omega)) (h8 (by omega))
      · have hlt' : (w'[i]?).getD 0 < INFINITY := hlt
        show V _ _ ((w'[i]?).getD 0)
        rw [(h4 i hie).1] at hlt' ⊢
        exact (hs i _ _ hi).2 hlt'
  · show (w'[e]?).getD 0 ≤ _
    rcases h5 with ⟨⟨h5, h6⟩, h7⟩ | ⟨h5, h6, h7⟩ <;> omega

/-- All four triangle inequalities for `e : x → y`, `o : x → z`, `s : y → z`, with the old values on the right. -/
def FourTri (p p' : PW) (e s o : Nat) : Prop :=
  p'.u o ≤ p.u e + p.u s ∧ p'.u e ≤ p.u o + p.d s ∧ p'.d o ≤ p.d e + p.d s ∧ p'.d e ≤ p.d o + p.u s

theorem perfTriangle_spec (hg : Base n c) {p : PW} (hp : POK c p) {x y z e s o : Nat} (he : c.Edge e x y) (hs : c.Edge s y z) (ho : c.Edge o x z) :
    ∃ p', perfTriangle e s o p = some p' ∧ PStep c x p p' ∧ FourTri p p' e s o := by
  have hy := (hg.up he).1
  have hsx : c.tail[s]? ≠ some x := by rw [hs.1]; simp; omega
  obtain ⟨p1, a1, a2, a3, a4⟩ := relaxUp_spec hg hp (y := y) ho (hp.ub e (Edge.lt he)) (hp.ub s (Edge.lt hs))
    (fun V h => ⟨(h e _ _ he).1, (h s _ _ hs).1⟩)
  obtain ⟨p2, b1, b2, b3, b4⟩ := relaxUp_spec hg a2.ok (y := z) he (a2.ok.ub o (Edge.lt ho)) (a2.ok.db s (Edge.lt hs))
    (fun V h => ⟨(h o _ _ ho).1, (h s _ _ hs).2⟩)
  obtain ⟨p3, c1, c2, c3, c4⟩ := relaxDown_spec hg b2.ok (y := y) ho (b2.ok.db e (Edge.lt he)) (b2.ok.db s (Edge.lt hs))
    (fun V h => ⟨(h e _ _ he).2, (h s _ _ hs).2⟩)
  obtain ⟨p4, d1, d2, d3, d4⟩ := relaxDown_spec hg c2.ok (y := z) he (c2.ok.db o (Edge.lt ho)) (c2.ok.ub s (Edge.lt hs))
    (fun V h => ⟨(h o _ _ ho).2, (h s _ _ hs).1⟩)
  have s1 := a2.frame s hsx
  have s2 := b2.frame s hsx
  have s3 := c2.frame s hsx
  have g1 := a2.leU o
  have g2 := b2.leU o
  have g3 := c2.leU o
  have g4 := d2.leU o
  have k1 := a2.leU e
  have k3 := c2.leU e
  have k4 := d2.leU e
  have m1 := a2.leD e
  have m2 := b2.leD e
  have m3 := c2.leD o
  have m4 := d2.leD o
  have m5 := a2.leD o
  have m6 := b2.leD o
  refine ⟨p4, ?_, ((a2.trans b2).trans c2).trans d2, by omega, by omega, by omega, by omega⟩
  simp only [perfTriangle, hp.up_get (Edge.lt he), hp.up_get (Edge.lt hs), a1, a2.ok.up_get (Edge.lt ho), a2.ok.down_get (Edge.lt hs), b1, b2.ok.down_get (Edge.lt he),
    b2.ok.down_get (Edge.lt hs), c1, c2.ok.down_get (Edge.lt ho), c2.ok.up_get (Edge.lt hs), Option.bind_eq_bind, Option.bind_some]
  exact d1

theorem edgesOf_spec (hg : Base n c) {x : Nat} (hx : x < n) : ∃ es, edgesOf c x = some es ∧ (es.Pairwise fun p q => p.1 < q.1) ∧ ∀ y e, (y, e) ∈ es ↔ c.Edge e x y := by
  obtain ⟨a, b, hs, h1, h2, h3, h4, h5, h6, h7⟩ := hg.headIds hx
  exact ⟨hs.zip ((List.range (b - a)).map (· + a)), by simp [edgesOf, h1, h2], h5.imp (fun h => h.1), h7⟩

/-- The workspace while `x` is processed. -/
theorem loadWs_spec (hg : Base n c) {x : Nat} {es : List (Nat × Nat)} (hes : ∀ y e, (y, e) ∈ es ↔ c.Edge e x y) {ws : List (Option Nat)}
    (hws : ws = List.replicate n none) : ∃ ws', es.foldlM (fun ws l => upd ws l.1 (some l.2)) ws = some ws' ∧ ws'.length = n ∧
      ∀ z, z < n → ∃ o, ws'[z]? = some o ∧ ∀ e, o = some e ↔ c.Edge e x z := by
  obtain ⟨ws', h1, h2, h3⟩ := GraphOps.foldlM_inv (fun (ws : List (Option Nat)) (l : Nat × Nat) => upd ws l.1 (some l.2))
    (fun P ws => ws.length = n ∧ ∀ z, z < n → ∃ o, ws[z]? = some o ∧ ∀ e, o = some e ↔ (z, e) ∈ P) es (by
      rintro P ⟨y, e⟩ Q ws hE ⟨h1, h2⟩
      have he : c.Edge e x y := (hes y e).1 (by rw [hE]; simp)
      have hy := (hg.up he).2
      refine ⟨ws.set y (some e), upd_of_lt _ (by simp; omega), by simp [h1], ?_⟩
      intro z hz
      by_cases hzy : z = y
      · subst hzy
        refine ⟨some e, List.getElem?_set_self (by omega), ?_⟩
        intro e'
        simp only [Option.some.injEq, List.mem_append, List.mem_singleton, Prod.mk.injEq, true_and]
        constructor
        · rintro rfl; exact .inr rfl
        · rintro (h | h)
          · exact hg.unique he ((hes z e').1 (by rw [hE]; simp [h]))
          · exact h.symm
      · obtain ⟨o, h3, h4⟩ := h2 z hz
        refine ⟨o, by rw [List.getElem?_set_ne (by omega)]; exact h3, ?_⟩
        intro e'
        rw [h4]
        simp [hzy]) ws ⟨by simp [hws], by
          intro z hz
          exact ⟨none, by simp [hws, List.getElem?_replicate, hz], by simp⟩⟩
  refine ⟨ws', h1, h2, ?_⟩
  intro z hz
  obtain ⟨o, h4, h5⟩ := h3 z hz
  exact ⟨o, h4, fun e => by rw [h5, hes]⟩

theorem clearWs_spec (hg : Base n c) {x : Nat} {es : List (Nat × Nat)} (hes : ∀ y e, (y, e) ∈ es ↔ c.Edge e x y) {ws : List (Option Nat)}
    (hl : ws.length = n) (hws : ∀ z, z < n → ∃ o, ws[z]? = some o ∧ ∀ e, o = some e ↔ c.Edge e x z) :
    es.foldlM (fun ws l => upd ws l.1 none) ws = some (List.replicate n none) := by
  obtain ⟨ws', h1, h2, h3⟩ := GraphOps.foldlM_inv (fun (ws : List (Option Nat)) (l : Nat × Nat) => upd ws l.1 none)
    (fun P ws => ws.length = n ∧ ∀ z, z < n → ∃ o, ws[z]? = some o ∧ ∀ e, o = some e → c.Edge e x z ∧ ∀ e', (z, e') ∉ P) es (by
      rintro P ⟨y, e⟩ Q ws hE ⟨h1, h2⟩
      have he : c.Edge e x y := (hes y e).1 (by rw [hE]; simp)
      have hy := (hg.up he).2
      refine ⟨ws.set y none, upd_of_lt _ (by simp; omega), by simp [h1], ?_⟩
      intro z hz
      by_cases hzy : z = y
      · subst hzy
        exact ⟨none, List.getElem?_set_self (by omega), by simp⟩
      · obtain ⟨o, h3, h4⟩ := h2 z hz
        refine ⟨o, by rw [List.getElem?_set_ne (by omega)]; exact h3, ?_⟩
        intro e' he'
        refine ⟨(h4 e' he').1, ?_⟩
        intro e2
        simp [hzy, (h4 e' he').2 e2]) ws ⟨hl, by
          intro z hz
          obtain ⟨o, h1, h2⟩ := hws z hz
          exact ⟨o, h1, fun e he => ⟨(h2 e).1 he, by simp⟩⟩⟩
  rw [h1]
  congr 1
  apply List.ext_getElem? 
  intro z
  by_cases hz : z < n
  · obtain ⟨o, h4, h5⟩ := h3 z hz
    rw [h4, List.getElem?_replicate, if_pos hz]
    cases o with
    | none => rfl
    | some e =>
      exfalso
      obtain ⟨h6, h7⟩ := h5 e rfl
      exact h7 e ((hes z e).2 h6)
  · rw [List.getElem?_eq_none (by omega), List.getElem?_eq_none (by simp; omega)]

theorem fourTri_mono {x : Nat} {p q r s : PW} {e i o : Nat} (h : FourTri q r e i o) (h1 : PStep c x p q) (h2 : PStep c x r s) : FourTri p s e i o := by
  obtain ⟨t1, t2, t3, t4⟩ := h
  have a1 := h1.leU e; have a2 := h1.leU i; have a3 := h1.leU o
  have b1 := h1.leD e; have b2 := h1.leD i; have b3 := h1.leD o
  have c1 := h2.leU e; have c2 := h2.leU o
  have d1 := h2.leD e; have d2 := h2.leD o
  exact ⟨by omega, by omega, by omega, by omega⟩

theorem PStep.ok0 {x : Nat} {p q : PW} (h : PStep c x p q) : POK c q := h.ok

/-- One node. -/
theorem perfNode_spec (hg : Base n c) {p : PW} (hp : POK c p) {x : Nat} (hx : x < n) :
    ∃ p', perfNode c x (List.replicate n none) p = some (p', List.replicate n none) ∧ PStep c x p p' ∧
      ∀ y z e s o, c.Edge e x y → c.Edge s y z → c.Edge o x z → FourTri p p' e s o := by
  obtain ⟨es, e1, _, e3⟩ := edgesOf_spec hg hx
  obtain ⟨ws, w1, w2, w3⟩ := loadWs_spec hg e3 (ws := List.replicate n none) rfl
  have w4 := clearWs_spec hg e3 w2 w3
  obtain ⟨p', h1, h2, h3⟩ := GraphOps.foldlM_inv (fun (p : PW) (l : Nat × Nat) => do
      let es ← edgesOf c l.1
      es.foldlM (perfEdge ws l.2) p)
    (fun P q => PStep c x p q ∧ ∀ y e, (y, e) ∈ P → ∀ z s o, c.Edge s y z → c.Edge o x z → FourTri p q e s o) es (by
      rintro P ⟨y, e⟩ Q q hE ⟨i1, i2⟩
      have he : c.Edge e x y := (e3 y e).1 (by rw [hE]; simp)
      have hyn := (hg.up he).2
      obtain ⟨fs, f1, _, f3⟩ := edgesOf_spec hg hyn
      obtain ⟨q', g1, g2, g3⟩ := GraphOps.foldlM_inv (perfEdge ws e)
        (fun R r => PStep c x q r ∧ ∀ z s, (z, s) ∈ R → ∀ o, c.Edge o x z → FourTri q r e s o) fs (by
          rintro R ⟨z, s⟩ T r hF ⟨j1, j2⟩
          have hs : c.Edge s y z := (f3 z s).1 (by rw [hF]; simp)
          have hzn := (hg.up hs).2
          obtain ⟨o, k1, k2⟩ := w3 z hzn
          cases o with
          | none =>
            refine ⟨r, by simp [perfEdge, k1], j1, ?_⟩
            intro z' s' hm o' ho'
            rcases List.mem_append.1 hm with hm | hm
            · exact j2 z' s' hm o' ho'
            · simp at hm
              obtain ⟨rfl, rfl⟩ := hm
              have := (k2 o').2 ho'
              simp at this
          | some o =>
            have ho := (k2 o).1 rfl
            obtain ⟨r', l1, l2, l3⟩ := perfTriangle_spec hg j1.ok he hs ho
            refine ⟨r', by simp only [perfEdge, k1, Option.bind_eq_bind, Option.bind_some]; exact l1, j1.trans l2, ?_⟩
            intro z' s' hm o' ho'
            rcases List.mem_append.1 hm with hm | hm
            · exact fourTri_mono (j2 z' s' hm o' ho') (PStep.refl i1.ok) l2
            · simp at hm
              obtain ⟨rfl, rfl⟩ := hm
              have := hg.unique ho ho'
              subst this
              exact fourTri_mono l3 j1 (PStep.refl l2.ok)) q ⟨PStep.refl i1.ok, by simp⟩
      refine ⟨q', by simp only [f1, Option.bind_eq_bind, Option.bind_some]; exact g1, i1.trans g2, ?_⟩
      intro y' e' hm z s o hs ho
      rcases List.mem_append.1 hm with hm | hm
      · exact fourTri_mono (i2 y' e' hm z s o hs ho) (PStep.refl hp) g2
      · simp at hm
        obtain ⟨rfl, rfl⟩ := hm
        exact fourTri_mono (g3 z s ((f3 z s).2 hs) o ho) i1 (PStep.refl g2.ok)) p ⟨PStep.refl hp, by simp⟩
  refine ⟨p', ?_, h2, ?_⟩
  · simp only [Option.bind_eq_bind] at h1
    simp only [perfNode, e1, w1, Option.bind_eq_bind, Option.bind_some, h1, w4, Option.pure_def]
  · intro y z e s o he hs ho
    exact h3 y e ((e3 y e).2 he) z s o hs ho

/-! ### All nodes -/

/-- Every node once, and upper neighbours first. -/
structure TopDown (n : Nat) (c : Cch) (L : List Nat) : Prop where
  nodup : L.Nodup
  mem : ∀ x, x ∈ L ↔ x < n
  before : ∀ P x Q, L = P ++ x :: Q → ∀ e z, c.Edge e x z → z ∈ P

theorem topDown_of_reverse (hg : Base n c) {L : List Nat} (h : TopoOrder n c L) : TopDown n c L.reverse := by
  refine ⟨(List.reverse_perm L).nodup_iff.2 h.nodup, fun x => by rw [List.mem_reverse, h.mem], ?_⟩
  intro P x Q hE e z he
  have hL : L = Q.reverse ++ x :: P.reverse := by
    have := congrArg List.reverse hE
    simpa using this
  obtain ⟨h1, h2⟩ := hg.up he
  have hz : z ∈ L := (h.mem z).2 h2
  rw [hL] at hz
  rcases List.mem_append.1 hz with hz | hz
  · exfalso
    obtain ⟨A, B, hAB⟩ := List.append_of_mem hz
    have hL2 : L = A ++ z :: (B ++ x :: P.reverse) := by rw [hL, hAB]; simp
    have hxA := h.before _ _ _ hL2 e x he
    have hnd := h.nodup
    rw [hL2, List.nodup_append] at hnd
    exact hnd.2.2 x hxA x (by simp) rfl
  · rcases List.mem_cons.1 hz with rfl | hz
    · omega
    · simpa using hz

theorem topDown_range (hg : Base n c) : TopDown n c (List.range n).reverse := topDown_of_reverse hg (topo_range hg)

/-- The basic weights as start. -/
def PW.start (w : Weights) : PW := ⟨w.up, w.down, List.replicate w.up.length false, List.replicate w.down.length false⟩

theorem getD_replicate_false (k e : Nat) : ((List.replicate k false)[e]?).getD false = false := by
  rw [List.getElem?_replicate]; split <;> rfl

theorem start_ok {w : Weights} (hw : WOK c w) : POK c (PW.start w) :=
  ⟨hw.ul, hw.dl, by simp [PW.start, hw.ul], by simp [PW.start, hw.dl], hw.ub, hw.db⟩

/-- State after the nodes of `P` are done. -/
structure PRun (c : Cch) (w : Weights) (P : List Nat) (p : PW) : Prop where
  ok : POK c p
  up : ∀ e, (p.u e = w.u e ∧ p.um e = false) ∨ (p.u e < w.u e ∧ p.um e = true)
  down : ∀ e, (p.d e = w.d e ∧ p.dm e = false) ∨ (p.d e < w.d e ∧ p.dm e = true)
  rest : ∀ e x, c.tail[e]? = some x → x ∉ P → p.u e = w.u e ∧ p.d e = w.d e
  sound : ∀ V : Nat → Nat → Nat → Prop, (∀ a b d l m, V a b l → V b d m → V a d (l + m)) →
    (∀ e a b, c.Edge e a b → (w.u e < INFINITY → V a b (w.u e)) ∧ (w.d e < INFINITY → V b a (w.d e))) →
    ∀ e a b, c.Edge e a b → (p.u e < INFINITY → V a b (p.u e)) ∧ (p.d e < INFINITY → V b a (p.d e))
  exact : ∀ e x y, x ∈ P → c.Edge e x y → (∀ d, UpDown (fwGraph c w).Arc (bwGraph c w).Arc x y d → p.u e ≤ d) ∧
    (∀ d, UpDown (fwGraph c w).Arc (bwGraph c w).Arc y x d → p.d e ≤ d)

theorem UpDown.nil_or {A B : Nat → Nat → Nat → Prop} {x y d : Nat} (h : UpDown A B x y d) (hxy : x < y) :
    ∃ z w d', A x z w ∧ x < z ∧ d = w + d' ∧ UpDown A B z y d' := by
  obtain ⟨m, a, b, h1, h2, rfl⟩ := h
  cases h1 with
  | nil => have := h2.le; omega
  | @cons _ z _ w d' h3 h4 h5 => exact ⟨z, w, d' + b, h3, h4, by omega, m, d', b, h5, h2, rfl⟩

theorem PRun.step (hg : Good n c) {w : Weights} (hw : WOK c w) {L P Q : List Nat} {x : Nat} (hL : TopDown n c L) (hE : L = P ++ x :: Q) {p : PW} (h : PRun c w P p) :
    ∃ p', perfNode c x (List.replicate n none) p = some (p', List.replicate n none) ∧ PRun c w (P ++ [x]) p' := by
  have hx : x < n := (hL.mem x).1 (by rw [hE]; simp)
  have hxP : x ∉ P := by
    intro hm
    have hnd := hL.nodup
    rw [hE, List.nodup_append] at hnd
    exact hnd.2.2 x hm x (by simp) rfl
  obtain ⟨p', h1, h2, h3⟩ := perfNode_spec hg.toBase h.ok hx
  refine ⟨p', h1, h2.ok, ?_, ?_, ?_, fun V hV hs => h2.sound V hV (h.sound V hV hs), ?_⟩
  · intro e
    rcases h2.up e with ⟨a1, a2⟩ | ⟨a1, a2⟩ <;> rcases h.up e with ⟨b1, b2⟩ | ⟨b1, b2⟩
    · exact .inl ⟨by omega, a2.trans b2⟩
    · exact .inr ⟨by omega, a2.trans b2⟩
    · exact .inr ⟨by omega, a2⟩
    · exact .inr ⟨by omega, a2⟩
  · intro e
    rcases h2.down e with ⟨a1, a2⟩ | ⟨a1, a2⟩ <;> rcases h.down e with ⟨b1, b2⟩ | ⟨b1, b2⟩
    · exact .inl ⟨by omega, a2.trans b2⟩
    · exact .inr ⟨by omega, a2.trans b2⟩
    · exact .inr ⟨by omega, a2⟩
    · exact .inr ⟨by omega, a2⟩
  · intro e y he hy
    simp only [List.mem_append, List.mem_singleton, not_or] at hy
    obtain ⟨a1, a2, _⟩ := h2.frame e (by rw [he]; simp; omega)
    obtain ⟨b1, b2⟩ := h.rest e y he hy.1
    exact ⟨a1.trans b1, a2.trans b2⟩
  · intro e y z hy he
    rcases List.mem_append.1 hy with hyP | hyP
    · have hne : y ≠ x := fun h => hxP (h ▸ hyP)
      obtain ⟨a1, a2, _⟩ := h2.frame e (by rw [he.1]; simp; omega)
      rw [a1, a2]
      exact h.exact e y z hyP he
    · simp at hyP
      subst hyP
      have hyz := (hg.up he).1
      refine ⟨?_, ?_⟩
      · intro d hd
        obtain ⟨v, l, d', f1, f2, rfl, f3⟩ := UpDown.nil_or hd hyz
        obtain ⟨e0, f4, rfl⟩ := (fwGraph_arc hg.toBase hw).1 f1
        have hv : v ∈ P := hL.before _ _ _ hE _ _ f4
        have hz : z ∈ P := hL.before _ _ _ hE _ _ he
        obtain ⟨r1, r2⟩ := h.rest e0 y f4.1 hxP
        rcases Nat.lt_trichotomy v z with hlt | heq | hgt
        · obtain ⟨s, hs⟩ := hg.chordal f4 he hlt
          have k1 := (h3 v z e0 s e f4 hs he).1
          have k2 := (h.exact s v z hv hs).1 d' f3
          omega
        · subst heq
          have := hg.unique f4 he
          subst this
          have := h2.leU e0
          omega
        · obtain ⟨s, hs⟩ := hg.chordal he f4 hgt
          have k1 := (h3 z v e s e0 he hs f4).2.1
          have k2 := (h.exact s z v hz hs).2 d' f3
          omega
      · intro d hd
        obtain ⟨v, l, d', f1, f2, rfl, f3⟩ := UpDown.nil_or (UpDown.flip hd) hyz
        obtain ⟨e0, f4, rfl⟩ := (bwGraph_arc hg.toBase hw).1 f1
        have hv : v ∈ P := hL.before _ _ _ hE _ _ f4
        have hz : z ∈ P := hL.before _ _ _ hE _ _ he
        obtain ⟨r1, r2⟩ := h.rest e0 y f4.1 hxP
        rcases Nat.lt_trichotomy v z with hlt | heq | hgt
        · obtain ⟨s, hs⟩ := hg.chordal f4 he hlt
          have k1 := (h3 v z e0 s e f4 hs he).2.2.1
          have k2 := (h.exact s v z hv hs).2 d' (UpDown.flip f3)
          omega
        · subst heq
          have := hg.unique f4 he
          subst this
          have := h2.leD e0
          omega
        · obtain ⟨s, hs⟩ := hg.chordal he f4 hgt
          have k1 := (h3 z v e s e0 he hs f4).2.2.2
          have k2 := (h.exact s z v hz hs).1 d' (UpDown.flip f3)
          omega

/-- Perfect customization in any permitted order. -/
theorem perfect_spec (hg : Good n c) {w : Weights} (hw : WOK c w) {L : List Nat} (hL : TopDown n c L) : ∃ p, perfect c L w = some p ∧ PRun c w L p := by
  obtain ⟨st, h1, h2, h3⟩ := GraphOps.foldlM_inv (fun (st : PW × List (Option Nat)) v => perfNode c v st.2 st.1)
    (fun P st => st.2 = List.replicate n none ∧ PRun c w P st.1) L (by
      rintro P x Q ⟨p, ws⟩ hE ⟨i1, i2⟩
      simp only at i1 i2
      subst i1
      obtain ⟨p', j1, j2⟩ := PRun.step hg hw hL hE i2
      exact ⟨_, j1, rfl, j2⟩) (PW.start w, List.replicate c.numNodes none) ⟨by rw [show c.numNodes = n from hg.nn], start_ok hw,
        fun e => .inl ⟨rfl, getD_replicate_false _ _⟩, fun e => .inl ⟨rfl, getD_replicate_false _ _⟩, fun _ _ _ _ => ⟨rfl, rfl⟩, fun _ _ h => h, by simp⟩
  refine ⟨st.1, ?_, h3⟩
  simp only [perfect, PW.start] at *
  simp only [h1, Option.bind_eq_bind, Option.bind_some, Option.pure_def]

end CCH
end Verif
