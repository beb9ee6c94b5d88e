import Verif.Proof.CCHQuery
set_option linter.unusedSimpArgs false
set_option linter.unusedVariables false
/- Path unpacking of the CCH query. The code unpacks in place, in an array with one entry per node; this is correct because the
unpacked path visits no node twice. With zero weights that needs the tie-breaking of customization and query. -/
namespace Verif

namespace Spec

theorem PathOf.split {O : Nat → Nat → Nat → Prop} {v : Nat} {p2 : List Nat} : ∀ {p1 : List Nat} {d : Nat}, PathOf O (p1 ++ v :: p2) d →
    ∃ d1 d2, PathOf O (p1 ++ [v]) d1 ∧ PathOf O (v :: p2) d2 ∧ d = d1 + d2 := by
  intro p1
  induction p1 with
  | nil => intro d h; exact ⟨0, d, .single v, h, by omega⟩
  | cons u p1 ih =>
    intro d h
    cases p1 with
    | nil =>
      cases h with
      | cons ha hp => exact ⟨_, _, by simpa using PathOf.cons ha (.single v), hp, rfl⟩
    | cons u' p1 =>
      cases h with
      | cons ha hp =>
        obtain ⟨d1, d2, h1, h2, h3⟩ := ih hp
        exact ⟨_, d2, .cons ha h1, h2, by omega⟩

theorem PathOf.join {O : Nat → Nat → Nat → Prop} {v : Nat} {p2 : List Nat} {d2 : Nat} (h2 : PathOf O (v :: p2) d2) :
    ∀ {p1 : List Nat} {d1 : Nat}, PathOf O (p1 ++ [v]) d1 → PathOf O (p1 ++ v :: p2) (d1 + d2) := by
  intro p1
  induction p1 with
  | nil => intro d1 h; cases h; simpa using h2
  | cons u p1 ih =>
    intro d1 h
    cases p1 with
    | nil =>
      cases h with
      | cons ha hp =>
        cases hp
        exact PathOf.cons ha h2
    | cons u' p1 =>
      cases h with
      | cons ha hp =>
        have := ih hp
        have := PathOf.cons ha this
        rwa [← Nat.add_assoc] at this

theorem PathOf.walk_restrict {O : Nat → Nat → Nat → Prop} {Q : Nat → Prop} {p : List Nat} {d : Nat} (h : PathOf O p d) :
    ∀ {q : List Nat} {s t : Nat}, p = q ++ [t] → p.head? = some s → (∀ u ∈ q, Q u) → Walk (fun u v w => O u v w ∧ Q u) s t d := by
  induction h with
  | single u =>
    intro q s t h1 h2 _
    cases q with
    | nil => simp at h1 h2; subst h1; subst h2; exact .nil u
    | cons a q => simp at h1
  | @cons u v w d p ha hp ih =>
    intro q s t h1 h2 h3
    simp at h2; subst h2
    cases q with
    | nil => simp at h1
    | cons a q =>
      simp at h1
      obtain ⟨rfl, h1⟩ := h1
      exact .cons ⟨ha, h3 u (by simp)⟩ (ih h1 (by simp) (fun x hx => h3 x (by simp [hx])))

theorem PathOf.flip {O : Nat → Nat → Nat → Prop} {p : List Nat} {d : Nat} (h : PathOf O p d) : PathOf (fun u v w => O v u w) p.reverse d := by
  induction h with
  | single u => exact .single u
  | @cons u v w d p ha hp ih =>
    rw [List.reverse_cons] at ih ⊢
    have h2 : PathOf (fun u v w => O v u w) (v :: [u]) (w + 0) := .cons ha (.single u)
    rw [List.reverse_cons, List.append_assoc, Nat.add_comm]
    have := PathOf.join (v := v) (p2 := [u]) h2 (p1 := p.reverse) ih
    simpa using this

end Spec

namespace CCH
open Spec GraphOps FOGraph

variable {n : Nat} {c : Cch}

/-! ### Peaks of walks -/

section
variable {O A : Nat → Nat → Nat → Prop}

/-- arcs that satisfy the lower triangle inequality -/
def TriOK (A : Nat → Nat → Nat → Prop) : Prop :=
  ∀ s v v' w w', A s v w → A v v' w' → v < s → v < v' → s ≠ v' → ∃ w'', w'' ≤ w + w' ∧ A s v' w''

theorem TriOK.flip (h : TriOK A) : TriOK (fun x y w => A y x w) := by
  intro s v v' w w' h1 h2 h3 h4 h5
  obtain ⟨w'', h6, h7⟩ := h v' v s w' w h2 h1 h4 h3 (Ne.symm h5)
  exact ⟨w'', by omega, h7⟩

/-- arcs `A` are at least as good as the arcs `O` -/
def Covers (O A : Nat → Nat → Nat → Prop) : Prop := ∀ x y w, O x y w → x ≠ y → ∃ w', w' ≤ w ∧ A x y w'

theorem Covers.flip (h : Covers O A) : Covers (fun x y w => O y x w) (fun x y w => A y x w) :=
  fun x y w ho hne => h y x w ho (Ne.symm hne)

theorem upwalk_last {s f a : Nat} (h : UpWalk A s f a) : (s = f ∧ a = 0) ∨ ∃ y a' wt, UpWalk A s y a' ∧ A y f wt ∧ y < f ∧ a = a' + wt := by
  induction h with
  | nil => exact .inl ⟨rfl, rfl⟩
  | @cons u v t w d h1 h2 h3 ih =>
    rcases ih with ⟨rfl, rfl⟩ | ⟨y, a', wt, h4, h5, h6, rfl⟩
    · exact .inr ⟨u, 0, w, .nil u, h1, h2, by omega⟩
    · exact .inr ⟨y, w + a', wt, .cons h1 h2 h4, h5, h6, by omega⟩

/-- A walk whose nodes lie below `k`, except for the last one, which lies at or above `k`. -/
theorem peak_up (ht : TriOK A) (hc : Covers O A) {k s y d : Nat} (h : Walk (fun u v w => O u v w ∧ u < k) s y d) (hs : s < k) (hy : k ≤ y) :
    ∃ z a b, z < k ∧ UpWalk A s z a ∧ A z y b ∧ a + b ≤ d := by
  have hud := UD.of_walk (A := fun u v w => A u v w ∧ u < k) (O := fun u v w => O u v w ∧ u < k) (by
    intro s v v' w w' h1 h2 h3 h4 h5
    obtain ⟨w'', h6, h7⟩ := ht s v v' w w' h1.1 h2.1 h3 h4 h5
    exact ⟨w'', h6, h7, h1.2⟩) (by
    intro x y w h1 hne
    obtain ⟨w', h2, h3⟩ := hc x y w h1.1 hne
    exact ⟨w', h2, h3, h1.2⟩) h
  obtain ⟨m, a, b, h1, h2, h3⟩ := hud
  rcases upwalk_last h2 with ⟨rfl, rfl⟩ | ⟨z, a', wt, h4, h5, h6, _⟩
  · rcases upwalk_last h1 with ⟨rfl, _⟩ | ⟨z, a', wt, h4, h5, h6, rfl⟩
    · omega
    · exact ⟨z, a', wt, h5.2, h4.mono (fun _ _ _ _ h => h.1), h5.1, by omega⟩
  · have := h5.2; have := h4.le; omega

/-- An arc followed by an upward walk below the first node. -/
theorem arc_upwalk (ht : TriOK A) {x v z l a : Nat} (h : A x v l) (hu : UpWalk A v z a) (hz : z < x) : ∃ l', l' ≤ l + a ∧ A x z l' := by
  induction hu generalizing l with
  | nil => exact ⟨l, by omega, h⟩
  | @cons v v' z w d h1 h2 h3 ih =>
    have := h3.le
    obtain ⟨w'', h4, h5⟩ := ht x v v' l w h h1 (by omega) h2 (by omega)
    obtain ⟨l', h6, h7⟩ := ih h5 hz
    exact ⟨l', by omega, h7⟩

/-- A walk with all nodes below `k` has an up-down path below `k`. -/
theorem peak_updown (ht : TriOK A) (hc : Covers O A) {k s t d : Nat} (h : Walk (fun u v w => O u v w ∧ u < k) s t d) (hs : s < k) (htk : t < k) :
    ∃ z a b, z < k ∧ UpWalk A s z a ∧ UpWalk (fun x y w => A y x w) t z b ∧ a + b ≤ d := by
  have hud := UD.of_walk (A := fun u v w => A u v w ∧ u < k) (O := fun u v w => O u v w ∧ u < k) (by
    intro s v v' w w' h1 h2 h3 h4 h5
    obtain ⟨w'', h6, h7⟩ := ht s v v' w w' h1.1 h2.1 h3 h4 h5
    exact ⟨w'', h6, h7, h1.2⟩) (by
    intro x y w h1 hne
    obtain ⟨w', h2, h3⟩ := hc x y w h1.1 hne
    exact ⟨w', h2, h3, h1.2⟩) h
  obtain ⟨m, a, b, h1, h2, h3⟩ := hud
  refine ⟨m, a, b, ?_, h1.mono (fun _ _ _ _ h => h.1), h2.mono (fun _ _ _ _ h => h.1), h3⟩
  rcases upwalk_last h2 with ⟨rfl, rfl⟩ | ⟨z, a', wt, h4, h5, h6, _⟩
  · exact htk
  · exact h5.2
end

/-! ### Unpacking an edge -/

/-- `e` is the edge between `x` and `y`, in either direction. -/
def Hop (c : Cch) (e x y : Nat) : Prop := c.Edge e x y ∨ c.Edge e y x

/-- weight and unpacking information of `e` when used from `x` to `y` -/
def hopW (w : Weights) (e x y : Nat) : Nat := if x < y then w.u e else w.d e
def hopU (w : Weights) (e x y : Nat) : Option Nat × Option Nat := if x < y then w.uu e else w.du e

/-- the unpacking array that is used from `x` to `y` -/
def hopArr (w : Weights) (x y : Nat) : List (Option Nat × Option Nat) := if x < y then w.upUnpack else w.downUnpack

/-- `Unp tl w x y e L`: completely unpacked, the edge `e` leads from `x` over the nodes `L` to `y`, the last node of `L`;
`tl` are the tails of the downward edges. -/
inductive Unp (tl : List Nat) (w : Weights) : Nat → Nat → Nat → List Nat → Prop
  | leaf {x y e : Nat} : (hopArr w x y)[e]? = some (none, none) → Unp tl w x y e [y]
  | node {x y e a b z : Nat} {L1 L2 : List Nat} : (hopArr w x y)[e]? = some (some a, some b) → tl[a]? = some z →
      z < x → z < y → Unp tl w x z a L1 → Unp tl w z y b L2 → Unp tl w x y e (L1 ++ L2)

theorem Unp.last {tl : List Nat} {w : Weights} {x y e : Nat} {L : List Nat} (h : Unp tl w x y e L) : ∃ I, L = I ++ [y] := by
  induction h with
  | leaf => exact ⟨[], rfl⟩
  | node _ _ _ _ _ _ _ ih2 =>
    obtain ⟨I, rfl⟩ := ih2
    exact ⟨_, by rw [← List.append_assoc]⟩

theorem hopArr_get {w : Weights} (hw : WOK c w) {e x y : Nat} (he : Hop c e x y) : (hopArr w x y)[e]? = some (hopU w e x y) := by
  have hel : e < c.head.length := by rcases he with he | he <;> exact Edge.lt he
  unfold hopArr hopU
  by_cases hxy : x < y
  · simp only [hxy, if_true]; exact hw.uu_get hel
  · simp only [hxy, if_false]; exact hw.du_get hel

theorem Solved.hop (hg : Base n c) {w0 w : Weights} (h : Solved c w0 w (fun x => x < n)) {e x y : Nat} (he : Hop c e x y) :
    IsBest (hopW w0 e x y) (Tri c w x y) (hopW w e x y, hopU w e x y) := by
  rcases he with he | he
  · have hlt := (hg.up he).1
    have := h.bestUp x e y (hg.edge_lt he) he
    simpa [hopW, hopU, hlt] using this
  · have hlt := (hg.up he).1
    have := h.bestDown y e x (hg.edge_lt he) he
    simpa [hopW, hopU, Nat.not_lt.2 (Nat.le_of_lt hlt)] using this

theorem carc_iff (hg : Base n c) {w : Weights} {x y l : Nat} : CArc c w x y l ↔ ∃ e, Hop c e x y ∧ l = hopW w e x y := by
  constructor
  · rintro (⟨e, he, rfl⟩ | ⟨e, he, rfl⟩)
    · have hlt := (hg.up he).1
      exact ⟨e, .inl he, by simp [hopW, hlt]⟩
    · have hlt := (hg.up he).1
      exact ⟨e, .inr he, by simp [hopW, Nat.not_lt.2 (Nat.le_of_lt hlt)]⟩
  · rintro ⟨e, he | he, rfl⟩
    · have hlt := (hg.up he).1
      exact .inl ⟨e, he, by simp [hopW, hlt]⟩
    · have hlt := (hg.up he).1
      exact .inr ⟨e, he, by simp [hopW, Nat.not_lt.2 (Nat.le_of_lt hlt)]⟩

/-- Every edge with a finite weight can be unpacked to a path without repeated nodes, below the edge. -/
theorem unpack_edge (hg : Good n c) {O : Nat → Nat → Nat → Prop} {w0 w : Weights} (hw : WOK c w) (h0 : InitOK c O w0) (h : Solved c w0 w (fun x => x < n))
    (hO : Covers O (CArc c w)) : ∀ (k : Nat) {e x y : Nat}, min x y = k → Hop c e x y → hopW w e x y < INFINITY →
    ∃ I, Unp c.tail w x y e (I ++ [y]) ∧ I.Nodup ∧ (∀ v ∈ I, v < x ∧ v < y) ∧ PathOf O (x :: (I ++ [y])) (hopW w e x y) := by
  have htri : TriOK (CArc c w) := Solved.tri hg h
  intro k
  induction k using Nat.strongRecOn with
  | ind k ih =>
    intro e x y hk he hlt
    have hne : x ≠ y := by rcases he with he | he <;> (have := (hg.up he).1; omega)
    rcases (h.hop hg.toBase he).wit with h1 | ⟨z, t, a, b, ⟨ha, hb, rfl⟩, h2, _, hlow⟩
    · simp only [Prod.mk.injEq] at h1
      refine ⟨[], .leaf (by rw [hopArr_get hw he, h1.2]), by simp, by simp, ?_⟩
      have harc : O x y (hopW w e x y) := by
        rw [h1.1] at hlt ⊢
        rcases he with he | he
        · have hxy := (hg.up he).1
          simp only [hopW, hxy, if_true] at hlt ⊢
          exact h0.upArc he hlt
        · have hxy := (hg.up he).1
          simp only [hopW, Nat.not_lt.2 (Nat.le_of_lt hxy), if_false] at hlt ⊢
          exact h0.downArc he hlt
      have := PathOf.cons harc (.single y)
      simpa using this
    · simp only [Prod.mk.injEq] at h2
      have hzx := (hg.up ha).1
      have hzy := (hg.up hb).1
      have hw1 : hopW w a x z = w.d a := by simp [hopW, Nat.not_lt.2 (Nat.le_of_lt hzx)]
      have hw2 : hopW w b z y = w.u b := by simp [hopW, hzy]
      obtain ⟨I1, u1, n1, l1, p1⟩ := ih z (by omega) (e := a) (x := x) (y := z) (by omega) (.inr ha) (by rw [hw1]; omega)
      obtain ⟨I2, u2, n2, l2, p2⟩ := ih z (by omega) (e := b) (x := z) (y := y) (by omega) (.inl hb) (by rw [hw2]; omega)
      rw [hw1] at p1; rw [hw2] at p2
      refine ⟨I1 ++ z :: I2, ?_, ?_, ?_, ?_⟩
      · have := Unp.node (by rw [hopArr_get hw he, h2.2]) ha.1 hzx hzy u1 u2
        simpa using this
      · rw [List.nodup_append]
        refine ⟨n1, ?_, ?_⟩
        · rw [List.nodup_cons]; exact ⟨fun hm => by have := (l2 z hm).1; omega, n2⟩
        · intro v hv v' hv' hvv
          subst hvv
          have hvz := (l1 v hv).2
          rcases List.mem_cons.1 hv' with h5 | h5
          · omega
          · -- a node on both sides: a shorter way over a lower node
            exfalso
            obtain ⟨P1, P2, rfl⟩ := List.append_of_mem hv
            obtain ⟨Q1, Q2, rfl⟩ := List.append_of_mem h5
            have e1 : x :: ((P1 ++ v :: P2) ++ [z]) = (x :: P1) ++ v :: (P2 ++ [z]) := by simp
            have e2 : z :: ((Q1 ++ v :: Q2) ++ [y]) = (z :: Q1) ++ v :: (Q2 ++ [y]) := by simp
            rw [e1] at p1; rw [e2] at p2
            obtain ⟨d1, d2, q1, _, hd1⟩ := p1.split
            obtain ⟨d3, d4, _, q4, hd2⟩ := p2.split
            have q5 := PathOf.join q4 q1
            have hpre : ∃ v0 R, P1 ++ v :: Q2 = v0 :: R := by
              cases P1 with
              | nil => exact ⟨_, _, rfl⟩
              | cons a l => exact ⟨_, _, rfl⟩
            obtain ⟨v0, R, hR⟩ := hpre
            have hall : ∀ u ∈ P1 ++ v :: Q2, u < z := by
              intro u hu
              rw [List.mem_append, List.mem_cons] at hu
              rcases hu with hu | rfl | hu
              · exact (l1 u (by simp [hu])).2
              · exact hvz
              · exact (l2 u (by simp [hu])).1
            have e3 : (x :: P1) ++ v :: (Q2 ++ [y]) = x :: v0 :: (R ++ [y]) := by
              rw [List.cons_append, ← List.cons_append (a := v0), ← hR]; simp
            rw [e3] at q5
            generalize hdd : d1 + d4 = dd at q5
            cases q5 with
            | @cons _ _ l d' _ harc hrest =>
              have hv0 : v0 < z := hall v0 (by rw [hR]; simp)
              have hwk := PathOf.walk_restrict (Q := fun u => u < z) hrest (q := v0 :: R) (s := v0) (t := y) rfl rfl (by rw [← hR]; exact hall)
              obtain ⟨z', a', b', hz', hu', hA', hle'⟩ := peak_up htri hO hwk hv0 (by omega)
              obtain ⟨l', hl', hAl⟩ := hO x v0 l harc (by omega)
              obtain ⟨l'', hl'', hA''⟩ := arc_upwalk htri hAl hu' (by omega)
              obtain ⟨ea, hea, rfl⟩ := hA''.down hg.toBase (by omega)
              obtain ⟨eb, heb, rfl⟩ := hA'.up hg.toBase (by omega)
              have := hlow z' _ ea eb ⟨hea, heb, rfl⟩ hz'
              omega
      · intro v hv
        rw [List.mem_append, List.mem_cons] at hv
        rcases hv with hv | rfl | hv
        · have := l1 v hv; omega
        · omega
        · have := l2 v hv; omega
      · rw [h2.1]
        have := PathOf.join p2 (p1 := x :: I1) p1
        simpa using this

/-! ### The unpacked chains -/

/-- The chain of parent pointers from `s` to `x`; `J` lists the nodes of the unpacked path before `x`, where `R e y x I` says
that the pointer from `x` to `y` with edge `e` stands for the inner nodes `I`. -/
inductive ChainI (R : Nat → Nat → Nat → List Nat → Prop) (P : Nat → Nat × Nat) (s : Nat) : Nat → List Nat → Prop
  | nil : ChainI R P s s []
  | snoc {y x e : Nat} {J I : List Nat} : ChainI R P s y J → (∀ v ∈ J, v < y) → P x = (y, e) → R e y x I → ChainI R P s x (J ++ y :: I)

theorem chain_unpack {tree : List (Option Nat)} {g : FOGraph} (hg : DirOK n tree g) {O A : Nat → Nat → Nat → Prop} (htri : TriOK A) (hc : Covers O A)
    (hA : ∀ x y w, A x y w → x < y → g.Arc x y w) {R : Nat → Nat → Nat → List Nat → Prop}
    (hR : ∀ e y x w, g.E e y x w → w < INFINITY → ∃ I, R e y x I ∧ I.Nodup ∧ (∀ v ∈ I, v < y) ∧ PathOf O (y :: (I ++ [x])) w)
    {s x d : Nat} {P : Nat → Nat × Nat} (h : Chain Strict g s P x d) : d < INFINITY →
    ∃ J, ChainI R P s x J ∧ J.Nodup ∧ (∀ v ∈ J, v < x) ∧ PathOf O (J ++ [x]) d ∧ (J ++ [x]).head? = some s := by
  induction h with
  | nil => intro _; exact ⟨[], .nil, by simp, by simp, .single s, rfl⟩
  | @snoc y x e w d hch hp he hlow ih =>
    intro hd
    obtain ⟨J, h1, h2, h3, h4, h5⟩ := ih (by omega)
    obtain ⟨I, h6, h7, h8, h9⟩ := hR e y x w he (by omega)
    have hyx := hg.up (hg.arc he)
    refine ⟨J ++ y :: I, .snoc h1 h3 hp h6, ?_, ?_, ?_, ?_⟩
    · rw [List.nodup_append]
      refine ⟨h2, ?_, ?_⟩
      · rw [List.nodup_cons]; exact ⟨fun hm => by have := h8 y hm; omega, h7⟩
      · intro v hv v' hv' hvv
        subst hvv
        have hvy := h3 v hv
        rcases List.mem_cons.1 hv' with h10 | h10
        · omega
        · exfalso
          obtain ⟨P1, P2, rfl⟩ := List.append_of_mem hv
          obtain ⟨Q1, Q2, rfl⟩ := List.append_of_mem h10
          have e1 : (P1 ++ v :: P2) ++ [y] = P1 ++ v :: (P2 ++ [y]) := by simp
          have e2 : y :: ((Q1 ++ v :: Q2) ++ [x]) = (y :: Q1) ++ v :: (Q2 ++ [x]) := by simp
          rw [e1] at h4; rw [e2] at h9
          obtain ⟨d1, d2, q1, _, hd1⟩ := h4.split
          obtain ⟨d3, d4, _, q4, hd2⟩ := h9.split
          have q5 := PathOf.join q4 q1
          have hall : ∀ u ∈ P1 ++ v :: Q2, u < y := by
            intro u hu
            rw [List.mem_append, List.mem_cons] at hu
            rcases hu with hu | rfl | hu
            · exact h3 u (by simp [hu])
            · exact hvy
            · exact h8 u (by simp [hu])
          have hhead : (P1 ++ v :: (Q2 ++ [x])).head? = some s := by
            rw [e1] at h5
            cases P1 <;> simpa using h5
          have hs : s < y := by
            apply hall
            cases P1 with
            | nil => simp at hhead; simp [hhead]
            | cons a l => simp at hhead; simp [hhead]
          have hwk := PathOf.walk_restrict (Q := fun u => u < y) q5 (q := P1 ++ v :: Q2) (s := s) (t := x) (by simp) hhead hall
          obtain ⟨z, a, b, hz, hu, hAz, hle⟩ := peak_up htri hc hwk hs (by omega)
          have := hlow z b a hz (hA z x b hAz (by omega)) (hu.mono (fun u v w huv ha => hA u v w ha huv))
          unfold Strict at this
          omega
    · intro v hv
      rw [List.mem_append, List.mem_cons] at hv
      rcases hv with hv | rfl | hv
      · have := h3 v hv; omega
      · exact hyx
      · have := h8 v hv; omega
    · have := PathOf.join (v := y) (p2 := I ++ [x]) h9 h4
      simpa using this
    · cases J with
      | nil => simpa using h5
      | cons a l => simpa using h5

/-! ### The array of pointers -/

/-- an entry of the array -/
def gp (ps : List (Nat × Nat)) (x : Nat) : Nat × Nat := (ps[x]?).getD (0, 0)

theorem gp_get {ps : List (Nat × Nat)} {x : Nat} (h : x < ps.length) : ps[x]? = some (gp ps x) := by
  simp [gp, List.getElem?_eq_getElem h]

theorem gp_set {ps : List (Nat × Nat)} {x y : Nat} {p : Nat × Nat} (h : y < ps.length) : gp (ps.set y p) x = if x = y then p else gp ps x :=
  getD_set' h

/-- Following the pointers from `x` one arrives at `t` after the hops `H` (node and edge). -/
inductive Enc (B : Nat → Nat × Nat) (t : Nat) : Nat → List (Nat × Nat) → Prop
  | nil : Enc B t t []
  | cons {x y e : Nat} {H : List (Nat × Nat)} : B x = (y, e) → Enc B t y H → Enc B t x ((y, e) :: H)

theorem Enc.frame {B B' : Nat → Nat × Nat} {t x : Nat} {H : List (Nat × Nat)} (h : Enc B t x H) (hB : ∀ v, v ∈ x :: H.map Prod.fst → B' v = B v) :
    Enc B' t x H := by
  induction h with
  | nil => exact .nil
  | cons h1 _ ih =>
    refine .cons (by rw [hB _ (by simp), h1]) (ih ?_)
    intro v hv; exact hB v (by simp at hv ⊢; exact .inr hv)

/-- The hops `H` from `x`, unpacked completely, visit the nodes `N`. -/
inductive Full (tl : List Nat) (w : Weights) : Nat → List (Nat × Nat) → List Nat → Prop
  | nil {x : Nat} : Full tl w x [] []
  | cons {x y e : Nat} {L N : List Nat} {H : List (Nat × Nat)} : Unp tl w x y e L → Full tl w y H N → Full tl w x ((y, e) :: H) (L ++ N)

theorem Full.mem {tl : List Nat} {w : Weights} {x : Nat} {H : List (Nat × Nat)} {N : List Nat} (h : Full tl w x H N) : ∀ v ∈ H.map Prod.fst, v ∈ N := by
  induction h with
  | nil => simp
  | cons hu _ ih =>
    intro v hv
    obtain ⟨I, rfl⟩ := hu.last
    simp at hv
    rcases hv with rfl | ⟨e, hv⟩
    · simp
    · rw [List.mem_append]; right; exact ih v (by simp; exact ⟨e, hv⟩)

theorem Full.len {tl : List Nat} {w : Weights} {x : Nat} {H : List (Nat × Nat)} {N : List Nat} (h : Full tl w x H N) : H.length ≤ N.length := by
  induction h with
  | nil => simp
  | cons hu _ ih =>
    obtain ⟨I, rfl⟩ := hu.last
    simp; omega

/-- The pointers of the backward search are already in the right direction. -/
theorem enc_bw {tl : List Nat} {w : Weights} {P : Nat → Nat × Nat} {t x : Nat} {J : List Nat} (h : ChainI (fun e y x I => Unp tl w x y e (I.reverse ++ [y])) P t x J) :
    ∃ H, Enc P t x H ∧ Full tl w x H J.reverse := by
  induction h with
  | nil => exact ⟨[], .nil, .nil⟩
  | @snoc y x e J I h1 _ h2 h3 ih =>
    obtain ⟨H, h4, h5⟩ := ih
    refine ⟨(y, e) :: H, .cons h2 h4, ?_⟩
    have := Full.cons h3 h5
    simpa using this

theorem ChainI.src {R : Nat → Nat → Nat → List Nat → Prop} {P : Nat → Nat × Nat} {s x : Nat} {J : List Nat} (h : ChainI R P s x J) :
    (x = s ∧ J = []) ∨ s ∈ J := by
  induction h with
  | nil => exact .inl ⟨rfl, rfl⟩
  | snoc _ _ _ _ ih =>
    rcases ih with ⟨rfl, _⟩ | ih
    · exact .inr (by simp)
    · exact .inr (by simp [ih])

/-- The loop that turns the forward pointers around. -/
theorem joinParents_spec {tl : List Nat} {w : Weights} {fps : List (Nat × Nat)} {s t : Nat} (hf : fps.length = n) : ∀ (fuel : Nat) {x : Nat} {J : List Nat} {B : List (Nat × Nat)}
    {H : List (Nat × Nat)} {N : List Nat}, ChainI (fun e y x I => Unp tl w y x e (I ++ [x])) (gp fps) s x J → J.Nodup → (∀ v ∈ J, v < x) →
    B.length = n → x < n → Enc (gp B) t x H → Full tl w x H N → (∀ v ∈ J, v ∉ x :: H.map Prod.fst) → J.length < fuel →
    ∃ B' H' N', joinParents fps s fuel x B = some B' ∧ B'.length = n ∧ Enc (gp B') t s H' ∧ Full tl w s H' N' ∧ s :: N' = J ++ x :: N := by
  intro fuel
  induction fuel with
  | zero => intro x J B H N _ _ _ _ _ _ _ _ h; omega
  | succ fuel ih =>
    intro x J B H N hch hnd hlt hB hx henc hfull hdis hlen
    have hsrc := hch.src
    cases hch with
    | nil => exact ⟨B, H, N, by simp [joinParents], hB, henc, hfull, rfl⟩
    | @snoc y _ e J' I h1 h2 h3 h4 =>
      have hxs : x ≠ s := by
        rintro rfl
        rcases hsrc with ⟨_, h⟩ | h
        · simp at h
        · have := hlt x h; omega
      have hyx := hlt y (by simp)
      have hyB : y < B.length := by omega
      have hget : fps[x]? = some (y, e) := by rw [gp_get (by omega), h3]
      have hyd := hdis y (by simp)
      simp only [List.mem_cons, not_or] at hyd
      have hnd' := List.nodup_append.1 hnd
      obtain ⟨B', H', N', k1, k2, k3, k4, k5⟩ := ih (x := y) (J := J') (B := B.set y (x, e)) (H := (x, e) :: H) (N := (I ++ [x]) ++ N) h1
        hnd'.1 h2 (by simpa using hB) (by omega)
        (.cons (by rw [gp_set hyB]; simp) (henc.frame (by
          intro v hv
          rw [gp_set hyB, if_neg]
          rintro rfl
          simp only [List.mem_cons] at hv
          rcases hv with hv | hv
          · omega
          · exact hyd.2 hv)))
        (.cons h4 hfull) (by
          intro v hv
          have h5 := hdis v (by simp [hv])
          have h6 := h2 v hv
          simp only [List.map_cons, List.mem_cons, not_or] at h5 ⊢
          exact ⟨by omega, h5⟩) (by simp at hlen ⊢; omega)
      refine ⟨B', H', N', ?_, k2, k3, k4, ?_⟩
      · simp only [joinParents, if_neg hxs, hget, Option.bind_eq_bind, Option.bind_some, upd_of_lt _ hyB]; exact k1
      · rw [k5]; simp

/-- The nodes `V` are linked by pointers with edges that need no unpacking, and the last one points to `x`. -/
inductive Links (tl : List Nat) (w : Weights) (B : Nat → Nat × Nat) : List Nat → Nat → Prop
  | nil {x : Nat} : Links tl w B [] x
  | snoc {V : List Nat} {v x e : Nat} : Links tl w B V v → B v = (x, e) → Unp tl w v x e [x] → Links tl w B (V ++ [v]) x

theorem Links.frame {tl : List Nat} {w : Weights} {B B' : Nat → Nat × Nat} {V : List Nat} {x : Nat} (h : Links tl w B V x) : (∀ v ∈ V, B' v = B v) → Links tl w B' V x := by
  induction h with
  | nil => intro _; exact .nil
  | snoc _ h2 h3 ih => intro hB; exact .snoc (ih (fun v hv => hB v (by simp [hv]))) (by rw [hB _ (by simp), h2]) h3

/-- The pointers from any of the linked nodes on. -/
theorem Links.enc {tl : List Nat} {w : Weights} {B : Nat → Nat × Nat} {V : List Nat} {t : Nat} (h : Links tl w B V t) : ∀ {V1 N : List Nat} {x : Nat}, V ++ [t] = V1 ++ x :: N →
    ∃ H, Enc B t x H ∧ Full tl w x H N := by
  have key : ∀ {V x}, Links tl w B V x → ∀ {H N}, Enc B t x H → Full tl w x H N → ∀ {V1 N' : List Nat} {y : Nat}, V ++ x :: N = V1 ++ y :: N' → N.length ≤ N'.length →
      ∃ H, Enc B t y H ∧ Full tl w y H N' := by
    intro V x h
    induction h with
    | nil =>
      intro H N h1 h2 V1 N' y hE hle
      have hl := congrArg List.length hE
      simp at hl
      have : V1 = [] := List.length_eq_zero_iff.1 (by omega)
      subst this; simp at hE; obtain ⟨rfl, rfl⟩ := hE
      exact ⟨H, h1, h2⟩
    | @snoc V v x e h1 h2 h3 ih =>
      intro H N h4 h5 V1 N' y hE hle
      by_cases hlt : N.length = N'.length
      · have hE' : (V ++ [v] ++ [x]) ++ N = (V1 ++ [y]) ++ N' := by simpa using hE
        obtain ⟨h6, rfl⟩ := List.append_inj' hE' hlt
        obtain ⟨_, h7⟩ := List.append_inj' h6 rfl
        simp at h7; subst h7
        exact ⟨H, h4, h5⟩
      · exact ih (.cons h2 h4) (.cons h3 h5) (by simpa using hE) (by simp; omega)
  intro V1 N x hE
  exact key h .nil .nil hE (by simp)

theorem unpackEdge_none {un : List (Option Nat × Option Nat)} {tail : List Nat} {e : Nat} (h : un[e]? = some (none, none)) :
    unpackEdge un tail e = some none := by
  simp [unpackEdge, h]

theorem unpackEdge_some {un : List (Option Nat × Option Nat)} {tail : List Nat} {e a b z : Nat} (h : un[e]? = some (some a, some b)) (hz : tail[a]? = some z) :
    unpackEdge un tail e = some (some (a, b, z)) := by
  simp [unpackEdge, h, hz]

theorem unpackPath_spec {tl : List Nat} {w : Weights} {t : Nat} : ∀ (fuel : Nat) {x : Nat} {B H : List (Nat × Nat)} {V N : List Nat}, B.length = n →
    (∀ v ∈ V ++ x :: N, v < n) → (V ++ x :: N).Nodup → Links tl w (gp B) V x → Enc (gp B) t x H → Full tl w x H N → 2 * N.length < fuel + H.length →
    ∃ B' V', unpackPath w tl t fuel x B = some B' ∧ B'.length = n ∧ Links tl w (gp B') V' t ∧ V' ++ [t] = V ++ x :: N := by
  intro fuel
  induction fuel with
  | zero =>
    intro x B H V N hB hn hnd hl he hf hlen
    have := hf.len; omega
  | succ fuel ih =>
    intro x B H V N hB hn hnd hl he hf hlen
    have hxn : x < n := hn x (by simp)
    cases he with
    | nil =>
      cases hf
      exact ⟨B, V, by simp [unpackPath], hB, hl, rfl⟩
    | @cons _ y e H hp he' =>
      cases hf with
      | @cons _ _ _ L N' _ hu hf' =>
        have hnd2 := (List.nodup_append.1 hnd).2.1
        have hxN : x ∉ L ++ N' := (List.nodup_cons.1 hnd2).1
        have hNnd : (L ++ N').Nodup := (List.nodup_cons.1 hnd2).2
        have hVd : ∀ v ∈ V, v ≠ x ∧ v ∉ L ++ N' := by
          intro v hv
          have := (List.nodup_append.1 hnd).2.2 v hv
          exact ⟨this x (by simp), fun hm => this v (by simp at hm ⊢; exact .inr hm) rfl⟩
        have htmem : t = y ∨ t ∈ N' := by
          have key : ∀ {B : Nat → Nat × Nat} {x H}, Enc B t x H → t = x ∨ t ∈ H.map Prod.fst := by
            intro B x H h
            induction h with
            | nil => exact .inl rfl
            | cons _ _ ih => right; simp at ih ⊢; exact ih
          rcases key he' with h | h
          · exact .inl h
          · exact .inr (hf'.mem t h)
        obtain ⟨I, hI⟩ := hu.last
        have hxt : x ≠ t := by
          rintro rfl
          apply hxN
          rw [List.mem_append]
          rcases htmem with h | h
          · left; rw [hI, h]; simp
          · exact .inr h
        have hget : B[x]? = some (y, e) := by rw [gp_get (by omega), hp]
        have hstep : unpackPath w tl t (fuel + 1) x B = (unpackStep w tl B x).bind (fun r => unpackPath w tl t fuel r.1 (r.2.getD B)) := by
          simp only [unpackPath, if_neg hxt, Option.bind_eq_bind]
        have hstep2 : ∀ r, unpackEdge (hopArr w x y) tl e = some r →
            (if y > x then unpackEdge w.upUnpack tl e else unpackEdge w.downUnpack tl e) = some r := by
          intro r hr
          unfold hopArr at hr
          by_cases hxy : y > x
          · simpa only [gt_iff_lt, show x < y from hxy, if_true] using hr
          · simpa only [gt_iff_lt, show ¬ x < y from hxy, if_false] using hr
        cases hu with
        | leaf hun =>
          -- an original edge: go on
          obtain ⟨B', V', k1, k2, k3, k4⟩ := ih (x := y) (B := B) (H := H) (V := V ++ [x]) (N := N') hB (by simpa using hn) (by simpa using hnd)
            (.snoc hl hp (.leaf hun)) he' hf' (by simp at hlen ⊢; omega)
          refine ⟨B', V', ?_, k2, k3, by rw [k4]; simp⟩
          rw [hstep]
          have := hstep2 _ (unpackEdge_none hun)
          by_cases hxy : y > x
          · simp only [if_pos hxy] at this
            simp only [unpackStep, hget, Option.bind_eq_bind, Option.bind_some, if_pos hxy, this]
            exact k1
          · simp only [if_neg hxy] at this
            simp only [unpackStep, hget, Option.bind_eq_bind, Option.bind_some, if_neg hxy, this]
            exact k1
        | @node _ _ _ a b z L1 L2 hun hz hzx hzy u1 u2 =>
          obtain ⟨I1, rfl⟩ := u1.last
          obtain ⟨I2, rfl⟩ := u2.last
          have hzn : z < n := hn z (by simp)
          have hzB : z < (B.set x (z, a)).length := by simp; omega
          have hxB : x < B.length := by omega
          have hzx' : z ≠ x := by omega
          have hgB : ∀ v, gp ((B.set x (z, a)).set z (y, b)) v = if v = z then (y, b) else if v = x then (z, a) else gp B v := by
            intro v; rw [gp_set hzB, gp_set hxB]
          have hzrest : z ∉ (I2 ++ [y]) ++ N' := by
            have : ((I1 ++ [z]) ++ ((I2 ++ [y]) ++ N')).Nodup := by simpa using hNnd
            intro hm
            exact (List.nodup_append.1 this).2.2 z (by simp) z hm rfl
          obtain ⟨B', V', k1, k2, k3, k4⟩ := ih (x := x) (B := (B.set x (z, a)).set z (y, b)) (H := (z, a) :: (y, b) :: H) (V := V)
            (N := (I1 ++ [z]) ++ ((I2 ++ [y]) ++ N')) (by simpa using hB) (by simpa using hn) (by simpa using hnd)
            (hl.frame (by
              intro v hv
              have := hVd v hv
              rw [hgB, if_neg (by rintro rfl; exact this.2 (by simp)), if_neg this.1]))
            (.cons (by rw [hgB, if_neg (Ne.symm hzx'), if_pos rfl]) (.cons (by rw [hgB, if_pos rfl]) (he'.frame (by
              intro v hv
              have hvN : v ∈ (I2 ++ [y]) ++ N' := by
                simp only [List.mem_cons] at hv
                rcases hv with rfl | hv
                · simp
                · rw [List.mem_append]; exact .inr (hf'.mem v hv)
              rw [hgB, if_neg, if_neg]
              · rintro rfl; apply hxN; simp at hvN ⊢; tauto
              · rintro rfl; exact hzrest hvN))))
            (.cons u1 (.cons u2 hf')) (by simp at hlen ⊢; omega)
          refine ⟨B', V', ?_, k2, k3, by rw [k4]; simp⟩
          rw [hstep]
          have := hstep2 _ (unpackEdge_some hun hz)
          by_cases hxy : y > x
          · simp only [if_pos hxy] at this
            simp only [unpackStep, hget, Option.bind_eq_bind, Option.bind_some, if_pos hxy, this, upd_of_lt _ hxB, upd_of_lt _ hzB]
            exact k1
          · simp only [if_neg hxy] at this
            simp only [unpackStep, hget, Option.bind_eq_bind, Option.bind_some, if_neg hxy, this, upd_of_lt _ hxB, upd_of_lt _ hzB]
            exact k1

/-- Following the pointers. -/
theorem followParents_spec {tl : List Nat} {w : Weights} {B : List (Nat × Nat)} {t : Nat} (hB : B.length = n) : ∀ (fuel : Nat) {V2 V1 : List Nat}, Links tl w (gp B) (V1 ++ V2) t →
    (V1 ++ V2 ++ [t]).Nodup → (∀ v ∈ V2, v < n) → V2.length < fuel → ∀ {x}, (V2 ++ [t]).head? = some x → followParents B t fuel x = some (V2 ++ [t]) := by
  have hlink : ∀ {V t}, Links tl w (gp B) V t → ∀ {V1 V2 x y}, V ++ [t] = V1 ++ x :: y :: V2 → (gp B x).1 = y := by
    intro V t h
    induction h with
    | nil =>
      intro V1 V2 x y h
      have := congrArg List.length h
      simp at this; omega
    | @snoc V v t e h1 h2 _ ih =>
      intro V1 V2 x y h
      rcases List.eq_nil_or_concat V2 with rfl | ⟨V3, b, rfl⟩
      · have h' : (V ++ [v]) ++ [t] = (V1 ++ [x]) ++ [y] := by rw [h]; simp
        have h3 := List.append_inj' h' rfl
        have h4 := List.append_inj' h3.1 rfl
        simp at h3 h4
        rw [← h4.2, h2, ← h3.2]
      · have h' : (V ++ [v]) ++ [t] = (V1 ++ x :: y :: V3) ++ [b] := by rw [h]; simp
        have h3 := List.append_inj' h' rfl
        exact ih h3.1
  intro fuel
  induction fuel with
  | zero => intro V2 V1 _ _ _ h; omega
  | succ fuel ih =>
    intro V2 V1 hl hnd hn hlen x hx
    cases V2 with
    | nil => simp at hx; subst hx; simp [followParents]
    | cons a V2 =>
      simp at hx; subst hx
      have hat : a ≠ t := by
        intro h
        have := (List.nodup_append.1 hnd).2.2 a (by simp) t (by simp)
        exact this h
      have han : a < n := hn a (by simp)
      obtain ⟨y, hy⟩ : ∃ y, (V2 ++ [t]).head? = some y := by cases V2 <;> simp
      have hlast : ∃ R, V2 ++ [t] = y :: R := by
        cases h : V2 ++ [t] with
        | nil => simp at h
        | cons z R => rw [h] at hy; simp at hy; subst hy; exact ⟨R, rfl⟩
      obtain ⟨R, hR⟩ := hlast
      have hp : (gp B a).1 = y := hlink hl (V1 := V1) (V2 := R) (by rw [List.append_assoc, List.cons_append, hR])
      have := ih (V2 := V2) (V1 := V1 ++ [a]) (by simpa using hl) (by simpa using hnd) (fun v hv => hn v (by simp [hv])) (by simp at hlen; omega) hy
      simp only [followParents, if_neg hat, gp_get (show a < B.length by omega), Option.bind_eq_bind, Option.bind_some, hp, this]
      rfl

/-! ### The customized CCH -/

theorem Good.treeOK (hg : Good n c) : TreeOK n c.elimTree :=
  ⟨hg.treeLen, fun {x p} h => by obtain ⟨⟨e, he⟩, _⟩ := hg.parent_edge (x := x) (p := p) h; exact hg.up he⟩

theorem fw_E (hg : Base n c) {w : Weights} (hw : WOK c w) {e x y l : Nat} : (fwGraph c w).E e x y l ↔ c.Edge e x y ∧ l = w.u e := by
  constructor
  · rintro ⟨a, b, h1, h2, h3, h4, h5, h6⟩
    have he : c.Edge e x y := ⟨(hg.range e x).2 ⟨a, b, h1, h2, h3, h4⟩, h5⟩
    have h6' : w.up[e]? = some l := h6
    rw [hw.up_get (Edge.lt he)] at h6'
    simp at h6'; exact ⟨he, h6'.symm⟩
  · rintro ⟨he, rfl⟩
    obtain ⟨a, b, h1, h2, h3, h4⟩ := (hg.range e x).1 he.1
    exact ⟨a, b, h1, h2, h3, h4, he.2, hw.up_get (Edge.lt he)⟩

theorem bw_E (hg : Base n c) {w : Weights} (hw : WOK c w) {e x y l : Nat} : (bwGraph c w).E e x y l ↔ c.Edge e x y ∧ l = w.d e := by
  constructor
  · rintro ⟨a, b, h1, h2, h3, h4, h5, h6⟩
    have he : c.Edge e x y := ⟨(hg.range e x).2 ⟨a, b, h1, h2, h3, h4⟩, h5⟩
    have h6' : w.down[e]? = some l := h6
    rw [hw.down_get (Edge.lt he)] at h6'
    simp at h6'; exact ⟨he, h6'.symm⟩
  · rintro ⟨he, rfl⟩
    obtain ⟨a, b, h1, h2, h3, h4⟩ := (hg.range e x).1 he.1
    exact ⟨a, b, h1, h2, h3, h4, he.2, hw.down_get (Edge.lt he)⟩

theorem fw_dirOK (hg : Good n c) {w : Weights} (hw : WOK c w) : DirOK n c.elimTree (fwGraph c w) := by
  refine ⟨fwGraph_wf hg.toBase hw, hg.nn, ?_, ?_, ?_⟩
  · intro u v l h; obtain ⟨e, he, _⟩ := (fwGraph_arc hg.toBase hw).1 h; exact (hg.up he).1
  · intro u v l h; obtain ⟨e, he, _⟩ := (fwGraph_arc hg.toBase hw).1 h; exact hg.anc he
  · intro u v l h; obtain ⟨e, he, rfl⟩ := (fwGraph_arc hg.toBase hw).1 h; exact hw.ub e (Edge.lt he)

theorem bw_dirOK (hg : Good n c) {w : Weights} (hw : WOK c w) : DirOK n c.elimTree (bwGraph c w) := by
  refine ⟨bwGraph_wf hg.toBase hw, hg.nn, ?_, ?_, ?_⟩
  · intro u v l h; obtain ⟨e, he, _⟩ := (bwGraph_arc hg.toBase hw).1 h; exact (hg.up he).1
  · intro u v l h; obtain ⟨e, he, _⟩ := (bwGraph_arc hg.toBase hw).1 h; exact hg.anc he
  · intro u v l h; obtain ⟨e, he, rfl⟩ := (bwGraph_arc hg.toBase hw).1 h; exact hw.db e (Edge.lt he)

/-- Customized weights, with the facts that the proofs of query and unpacking use. -/
structure Customized (n : Nat) (c : Cch) (O : Nat → Nat → Nat → Prop) (w0 w : Weights) : Prop where
  good : Good n c
  ok : WOK c w
  init : InitOK c O w0
  solved : Solved c w0 w (fun x => x < n)
  cover : ∀ x y l, O x y l → x ≠ y → ∃ e, c.Edge e (min x y) (max x y)

theorem Customized.covers {O : Nat → Nat → Nat → Prop} {w0 w : Weights} (h : Customized n c O w0 w) : Covers O (CArc c w) :=
  fun _ _ _ ho hne => Solved.le_arc h.good h.init h.solved h.cover ho hne

theorem Customized.tri {O : Nat → Nat → Nat → Prop} {w0 w : Weights} (h : Customized n c O w0 w) : TriOK (CArc c w) :=
  Solved.tri h.good h.solved

/-- The query answers with the shortest distance. -/
theorem Customized.query {O : Nat → Nat → Nat → Prop} {w0 w : Weights} (h : Customized n c O w0 w) {srv : Server} (hc : Clean n srv) {s t : Nat}
    (hs : s < n) (ht : t < n) :
    ∃ r srv', queryRanks (fwGraph c w) (bwGraph c w) c.elimTree srv s t = some (r, srv') ∧ Clean n srv' ∧ Answer O s t r ∧
      ∀ d, r = some d → d < INFINITY ∧ (∀ d', UpDown (fwGraph c w).Arc (bwGraph c w).Arc s t d' → d ≤ d') ∧
        Meeting (fwGraph c w) (bwGraph c w) s t (gp srv'.fwParents) (gp srv'.bwParents) srv'.meeting d := by
  obtain ⟨r, srv', h1, h2, h3, h4⟩ := queryRanks_spec h.good.treeOK (fw_dirOK h.good h.ok) (bw_dirOK h.good h.ok) hc hs ht
  refine ⟨r, srv', h1, h2, ?_, h4⟩
  obtain ⟨u1, u2⟩ := Solved.updown h.good h.ok h.init h.solved h.cover s t
  intro d
  constructor
  · intro hr
    obtain ⟨k1, k2, k3⟩ := h4 d hr
    obtain ⟨a, b, rfl, c1, c2⟩ := k3.ex
    refine ⟨⟨u2 _ ⟨_, a, b, c1.upwalk (fw_dirOK h.good h.ok), c2.upwalk (bw_dirOK h.good h.ok), rfl⟩ k1, ?_⟩, k1⟩
    intro d' hd'
    obtain ⟨d'', k4, k5⟩ := u1 d' hd'
    have := k2 d'' k5
    omega
  · rintro ⟨⟨k1, k2⟩, k3⟩
    obtain ⟨d'', k4, k5⟩ := u1 d k1
    cases r with
    | none => have := h3 rfl d'' k5; omega
    | some x =>
      obtain ⟨q1, q2, q3⟩ := h4 x rfl
      obtain ⟨a, b, hab, c1, c2⟩ := q3.ex
      have := k2 _ (u2 x ⟨_, a, b, c1.upwalk (fw_dirOK h.good h.ok), c2.upwalk (bw_dirOK h.good h.ok), hab⟩ q1)
      have := q2 d'' k5
      congr 1; omega

/-- The pointers stand for a path with nodes `p`. -/
structure PState (n : Nat) (tl : List Nat) (w : Weights) (fps bps : List (Nat × Nat)) (s t m : Nat) (p : List Nat) : Prop where
  fl : fps.length = n
  bl : bps.length = n
  ex : ∃ Jf N H, ChainI (fun e y x I => Unp tl w y x e (I ++ [x])) (gp fps) s m Jf ∧ (∀ v ∈ Jf, v < m) ∧ Enc (gp bps) t m H ∧ Full tl w m H N ∧
    p = Jf ++ m :: N
  nodup : p.Nodup
  lt : ∀ v ∈ p, v < n

/-- Path extraction gives the path, and leaves the pointers in such a state that it can be repeated. -/
theorem PState.run {tl : List Nat} {w : Weights} {fps bps : List (Nat × Nat)} {s t m : Nat} {p : List Nat} (h : PState n tl w fps bps s t m p) :
    ∃ B1 B2, joinParents fps s (n + 1) m bps = some B1 ∧ unpackPath w tl t (2 * n + 1) s B1 = some B2 ∧
      followParents B2 t (n + 1) s = some p ∧ PState n tl w fps B2 s t m p ∧ p.head? = some s ∧ p.getLast? = some t := by
  obtain ⟨Jf, N, H, f1, f3, e1, e2, rfl⟩ := h.ex
  have hnd := h.nodup
  have hlt := h.lt
  have hlen : (Jf ++ m :: N).length ≤ n := by
    have : (Jf ++ m :: N).Subperm (List.range n) := List.subperm_of_subset hnd (fun v hv => List.mem_range.2 (hlt v hv))
    simpa using this.length_le
  have hnd' := List.nodup_append.1 hnd
  obtain ⟨B1, H', N', j1, j2, j3, j4, j5⟩ := joinParents_spec h.fl (n + 1) f1 hnd'.1 f3 h.bl (hlt m (by simp)) e1 e2 (by
      intro v hv hm'
      simp only [List.mem_cons] at hm'
      rcases hm' with rfl | hm'
      · have := f3 v hv; omega
      · have := e2.mem v hm'
        exact hnd'.2.2 v hv v (by simp [this]) rfl) (by simp at hlen; omega)
  have hnd2 := hnd
  have hlt2 := hlt
  rw [← j5] at hnd2 hlt2 hlen
  obtain ⟨B2, V', u1, u2, u3, u4⟩ := unpackPath_spec (2 * n + 1) (x := s) (V := []) (N := N') j2 hlt2 hnd2 .nil j3 j4 (by simp at hlen; omega)
  simp only [List.nil_append] at u4
  have hfol := followParents_spec u2 (n + 1) (V2 := V') (V1 := []) u3 (by simpa [u4] using hnd2)
    (fun v hv => hlt2 v (by rw [← u4]; simp [hv])) (by rw [← u4] at hlen; simp at hlen; omega) (x := s) (by rw [u4]; rfl)
  rw [u4, j5] at hfol
  obtain ⟨H2, k1, k2⟩ := u3.enc (V1 := Jf) (N := N) (x := m) (by rw [u4, j5])
  refine ⟨B1, B2, j1, u1, hfol, ⟨h.fl, u2, ⟨Jf, N, H2, f1, f3, k1, k2, rfl⟩, hnd, hlt⟩, by rw [← j5]; rfl, ?_⟩
  rw [← j5, ← u4]; simp

/-- The path is a path of the input of the reported length that visits no node twice. -/
theorem Customized.path {O : Nat → Nat → Nat → Prop} {w0 w : Weights} (h : Customized n c O w0 w) {fps bps : List (Nat × Nat)}
    (hf : fps.length = n) (hb : bps.length = n) {s t m d : Nat} (hs : s < n) (ht : t < n) (hd : d < INFINITY)
    (hm : Meeting (fwGraph c w) (bwGraph c w) s t (gp fps) (gp bps) m d) :
    ∃ Jf Jb, ChainI (fun e y x I => Unp c.tail w y x e (I ++ [x])) (gp fps) s m Jf ∧ (∀ v ∈ Jf, v < m) ∧
      ChainI (fun e y x I => Unp c.tail w x y e (I.reverse ++ [y])) (gp bps) t m Jb ∧ (∀ v ∈ Jb, v < m) ∧
      PState n c.tail w fps bps s t m (Jf ++ m :: Jb.reverse) ∧ PathOf O (Jf ++ m :: Jb.reverse) d := by
  have hg := h.good
  have hF := fw_dirOK hg h.ok
  have hB := bw_dirOK hg h.ok
  obtain ⟨a, b, rfl, c1, c2⟩ := hm.ex
  have hmn : m < n := hg.treeOK.anc_lt (hm.anc hF hB).1 hs
  -- forward part
  obtain ⟨Jf, f1, f2, f3, f4, f5⟩ := chain_unpack hF h.tri h.covers (A := CArc c w) (R := fun e y x I => Unp c.tail w y x e (I ++ [x])) (by
      intro x y l ha hxy; exact (fwGraph_arc hg.toBase h.ok).2 (ha.up hg.toBase hxy)) (by
      intro e y x l he' hl
      obtain ⟨he, rfl⟩ := (fw_E hg.toBase h.ok).1 he'
      have hyx := (hg.up he).1
      have hhw : hopW w e y x = w.u e := by simp [hopW, hyx]
      obtain ⟨I, k1, k2, k3, k4⟩ := unpack_edge hg h.ok h.init h.solved h.covers _ rfl (.inl he) (by rw [hhw]; exact hl)
      exact ⟨I, k1, k2, fun v hv => (k3 v hv).1, by rw [← hhw]; exact k4⟩) c1 (by omega)
  -- backward part
  obtain ⟨Jb, b1, b2, b3, b4, b5⟩ := chain_unpack hB h.tri.flip h.covers.flip (A := fun x y l => CArc c w y x l)
      (R := fun e y x I => Unp c.tail w x y e (I.reverse ++ [y])) (by
      intro x y l ha hxy; exact (bwGraph_arc hg.toBase h.ok).2 (ha.down hg.toBase hxy)) (by
      intro e y x l he' hl
      obtain ⟨he, rfl⟩ := (bw_E hg.toBase h.ok).1 he'
      have hyx := (hg.up he).1
      have hhw : hopW w e x y = w.d e := by simp [hopW, Nat.not_lt.2 (Nat.le_of_lt hyx)]
      obtain ⟨I, k1, k2, k3, k4⟩ := unpack_edge hg h.ok h.init h.solved h.covers _ rfl (e := e) (x := x) (y := y) (.inr he) (by rw [hhw]; exact hl)
      refine ⟨I.reverse, by simpa using k1, (List.reverse_perm I).nodup_iff.2 k2, fun v hv => (k3 v (by simpa using hv)).2, ?_⟩
      rw [← hhw]
      have := k4.flip
      simpa using this) c2 (by omega)
  have b4' := b4.flip
  simp only [List.reverse_append, List.reverse_cons, List.reverse_nil, List.nil_append, List.cons_append] at b4'
  have hpath : PathOf O (Jf ++ m :: Jb.reverse) (a + b) := PathOf.join b4' f4
  -- the two parts have no node in common
  have hdis : ∀ v ∈ Jf, v ∉ Jb := by
    intro v hv hv'
    obtain ⟨P1, P2, rfl⟩ := List.append_of_mem hv
    obtain ⟨Q1, Q2, rfl⟩ := List.append_of_mem hv'
    have e1 : (P1 ++ v :: P2) ++ [m] = P1 ++ v :: (P2 ++ [m]) := by simp
    have e2 : m :: (Q1 ++ v :: Q2).reverse = (m :: Q2.reverse) ++ v :: Q1.reverse := by simp
    rw [e1] at f4 f5; rw [e2] at b4'
    obtain ⟨d1, d2, p1, _, hd1⟩ := f4.split
    obtain ⟨d3, d4, _, p4, hd2⟩ := b4'.split
    have q5 := PathOf.join p4 p1
    have hall : ∀ u ∈ P1 ++ v :: Q1.reverse, u < m := by
      intro u hu
      rw [List.mem_append, List.mem_cons] at hu
      rcases hu with hu | rfl | hu
      · exact f3 u (by simp [hu])
      · exact f3 u (by simp)
      · exact b3 u (by simp at hu; simp [hu])
    have hhs : (P1 ++ v :: Q1.reverse).head? = some s := by cases P1 <;> simpa using f5
    have hts : ∃ R, P1 ++ v :: Q1.reverse = R ++ [t] := by
      cases Q1 with
      | nil => simp at b5; subst b5; exact ⟨P1, by simp⟩
      | cons q Q1 => simp at b5; subst b5; exact ⟨P1 ++ v :: Q1.reverse, by simp⟩
    obtain ⟨R, hR⟩ := hts
    have hsm : s < m := hall s (List.mem_of_mem_head? hhs)
    have htm : t < m := hall t (by rw [hR]; simp)
    have hwk := PathOf.walk_restrict (Q := fun u => u < m) q5 (q := R) (s := s) (t := t) hR hhs (fun u hu => hall u (by rw [hR]; simp [hu]))
    obtain ⟨z, a', b', hz, k1, k2, k3⟩ := peak_updown h.tri h.covers hwk hsm htm
    have := hm.low z a' b' hz (k1.mono (fun u v w huv ha => (fwGraph_arc hg.toBase h.ok).2 (ha.up hg.toBase huv)))
      (k2.mono (fun u v w huv ha => (bwGraph_arc hg.toBase h.ok).2 (ha.down hg.toBase huv)))
    omega
  have hnd : (Jf ++ m :: Jb.reverse).Nodup := by
    rw [List.nodup_append, List.nodup_cons]
    refine ⟨f2, ⟨fun hm => by simp at hm; have := b3 m hm; omega, (List.reverse_perm Jb).nodup_iff.2 b2⟩, ?_⟩
    intro v hv v' hv' hvv
    subst hvv
    simp only [List.mem_cons, List.mem_reverse] at hv'
    rcases hv' with hv' | hv'
    · have := f3 v hv; omega
    · exact hdis v hv hv'
  have hlt : ∀ v ∈ Jf ++ m :: Jb.reverse, v < n := by
    intro v hv
    simp only [List.mem_append, List.mem_cons, List.mem_reverse] at hv
    rcases hv with hv | rfl | hv
    · have := f3 v hv; omega
    · exact hmn
    · have := b3 v hv; omega
  obtain ⟨H, e1, e2⟩ := enc_bw b1
  exact ⟨Jf, Jb, f1, f3, b1, b3, ⟨hf, hb, ⟨Jf, _, H, f1, f3, e1, e2, rfl⟩, hnd, hlt⟩, hpath⟩

end CCH
end Verif
