import Verif.Proof.CHWitness
import Verif.Spec.Hierarchy
set_option linter.unusedSimpArgs false
set_option linter.unusedVariables false
/- The contraction: what one step and the whole loop do to walks. -/
namespace Verif
open Spec DData
namespace CH
open BiD

/-! ### walks -/

theorem walk_mono {A B : Nat → Nat → Nat → Prop} (h : ∀ u v w, A u v w → ∃ w', w' ≤ w ∧ B u v w') {x y d : Nat} (hw : Walk A x y d) :
    ∃ d', d' ≤ d ∧ Walk B x y d' := by
  induction hw with
  | nil u => exact ⟨0, Nat.le_refl _, .nil u⟩
  | cons ha _ ih =>
    obtain ⟨w', h1, h2⟩ := h _ _ _ ha
    obtain ⟨d', h3, h4⟩ := ih
    exact ⟨w' + d', by omega, .cons h2 h4⟩

theorem walk_flat {A B : Nat → Nat → Nat → Prop} (h : ∀ u v w, A u v w → Walk B u v w) {x y d : Nat} (hw : Walk A x y d) : Walk B x y d := by
  induction hw with
  | nil u => exact .nil u
  | cons ha _ ih => exact (h _ _ _ ha).append ih

theorem walk_last {A : Nat → Nat → Nat → Prop} {x y d : Nat} (h : Walk A x y d) (hne : x ≠ y) : ∃ u a w, Walk A x u a ∧ A u y w ∧ d = a + w := by
  have := h.rev
  generalize ha : y = s at this
  generalize hb : x = t at this
  cases this with
  | nil => omega
  | @cons _ v _ w e h1 h2 =>
    subst ha hb
    exact ⟨v, e, w, walk_rev.1 h2, h1, Nat.add_comm _ _⟩

theorem walk_split (W : Nat → Nat → Option Nat) (k : Nat) {u v d : Nat} (h : Walk (WA W) u v d) :
    Walk (WA (drop k W)) u v d ∨ ∃ p q, Walk (WA W) u k p ∧ Walk (WA W) k v q ∧ p + q = d := by
  induction h with
  | nil u => exact .inl (.nil u)
  | @cons u v t w d ha hr ih =>
    by_cases hu : u = k
    · subst hu; exact .inr ⟨0, w + d, .nil _, .cons ha hr, Nat.zero_add _⟩
    · by_cases hv : v = k
      · subst hv
        exact .inr ⟨w, d, by have := Walk.cons ha (.nil v); simpa using this, hr, rfl⟩
      · rcases ih with h1 | ⟨p, q, h1, h2, h3⟩
        · exact .inl (.cons (by show drop k W u v = some w; rw [drop, if_neg (by omega)]; exact ha) h1)
        · exact .inr ⟨w + p, q, .cons ha h1, h2, by omega⟩

/-! ### one node -/

/-- `W'` is the rest of `W` after contracting node `k`. -/
structure Step (k : Nat) (W W' : Nat → Nat → Option Nat) : Prop where
  dom : ∀ u v w, drop k W u v = some w → ∃ w', w' ≤ w ∧ W' u v = some w'
  cov : ∀ u v a b, W u k = some a → W k v = some b → u ≠ v → ∃ d, d ≤ a + b ∧ Walk (WA W') u v d
  snd : ∀ u v x, W' u v = some x → drop k W u v = some x ∨ ∃ a b, W u k = some a ∧ W k v = some b ∧ x = a + b ∧ u ≠ v ∧
    ∀ d, Walk (WA (drop k W)) u v d → d < INFINITY → x ≤ d

theorem drop_sub {k : Nat} {W : Nat → Nat → Option Nat} {u v w : Nat} (h : drop k W u v = some w) : W u v = some w := by
  unfold drop at h; split at h
  · simp at h
  · exact h

theorem Step.sound {k : Nat} {W W' : Nat → Nat → Option Nat} (h : Step k W W') {u v x : Nat} (hx : W' u v = some x) : Walk (WA W) u v x := by
  rcases h.snd u v x hx with h1 | ⟨a, b, h1, h2, rfl, _⟩
  · have := Walk.cons (A := WA W) (drop_sub h1) (.nil v); simpa using this
  · have := Walk.cons (A := WA W) h1 (.cons (show WA W k v b from h2) (.nil v)); simpa using this

theorem Step.walk' {k : Nat} {W W' : Nat → Nat → Option Nat} (h : Step k W W') (hloop : ∀ u w, W u u ≠ some w) {x y d : Nat}
    (hw : Walk (WA W) x y d) (hy : y ≠ k) :
    (x ≠ k → ∃ d', d' ≤ d ∧ Walk (WA W') x y d') ∧ (x = k → ∀ u a, W u k = some a → ∃ d', d' ≤ a + d ∧ Walk (WA W') u y d') := by
  induction hw with
  | nil u => exact ⟨fun _ => ⟨0, Nat.le_refl _, .nil u⟩, fun he => absurd he hy⟩
  | @cons x v t w d ha hr ih =>
    obtain ⟨ih1, ih2⟩ := ih hy
    constructor
    · intro hx
      by_cases hv : v = k
      · subst hv
        exact ih2 rfl x w ha
      · obtain ⟨d', h1, h2⟩ := ih1 hv
        obtain ⟨w', h3, h4⟩ := h.dom x v w (by rw [drop, if_neg (by omega)]; exact ha)
        exact ⟨w' + d', by omega, .cons h4 h2⟩
    · intro hx u a hu
      subst hx
      have hv : v ≠ x := by rintro rfl; exact hloop _ _ ha
      obtain ⟨d', h1, h2⟩ := ih1 hv
      by_cases huv : u = v
      · subst huv; exact ⟨d', by omega, h2⟩
      · obtain ⟨e, h3, h4⟩ := h.cov u v a w hu ha huv
        exact ⟨e + d', by omega, h4.append h2⟩

theorem Step.walk {k : Nat} {W W' : Nat → Nat → Option Nat} (h : Step k W W') (hloop : ∀ u w, W u u ≠ some w) {x y d : Nat}
    (hw : Walk (WA W) x y d) (hx : x ≠ k) (hy : y ≠ k) : ∃ d', d' ≤ d ∧ Walk (WA W') x y d' := (h.walk' hloop hw hy).1 hx

/-- Progress within one node: the pairs in `done` have been looked at. -/
structure Mid (k : Nat) (W : Nat → Nat → Option Nat) (done : Nat → Nat → Nat → Nat → Prop) (W' : Nat → Nat → Option Nat) : Prop where
  dom : ∀ u v w, drop k W u v = some w → ∃ w', w' ≤ w ∧ W' u v = some w'
  cov : ∀ u v a b, done u a v b → u ≠ v → ∃ d, d ≤ a + b ∧ Walk (WA W') u v d
  snd : ∀ u v x, W' u v = some x → drop k W u v = some x ∨ ∃ a b, W u k = some a ∧ W k v = some b ∧ x = a + b ∧ u ≠ v ∧
    ∀ d, Walk (WA (drop k W)) u v d → d < INFINITY → x ≤ d

theorem Mid.start (k : Nat) (W : Nat → Nat → Option Nat) : Mid k W (fun _ _ _ _ => False) (drop k W) :=
  ⟨fun u v w h => ⟨w, Nat.le_refl _, h⟩, fun _ _ _ _ h => h.elim, fun u v x h => .inl h⟩

theorem ins_le {W : Nat → Nat → Option Nat} {a b w u v x : Nat} (h : W u v = some x) : ∃ x', x' ≤ x ∧ ins W a b w u v = some x' := by
  unfold ins
  split
  · rename_i he
    obtain ⟨rfl, rfl⟩ := he
    refine ⟨_, ?_, rfl⟩
    rw [h]; simp only [better]; split <;> omega
  · exact ⟨x, Nat.le_refl _, h⟩

theorem ins_cases {W : Nat → Nat → Option Nat} {a b w u v x : Nat} (h : ins W a b w u v = some x) : W u v = some x ∨ u = a ∧ v = b ∧ x = w := by
  unfold ins at h
  split at h
  · rename_i he
    obtain ⟨rfl, rfl⟩ := he
    simp only [Option.some.injEq] at h
    cases hw : W u v with
    | none => rw [hw] at h; simp only [better] at h; exact .inr ⟨rfl, rfl, h.symm⟩
    | some y =>
      rw [hw] at h; simp only [better] at h
      split at h
      · exact .inr ⟨rfl, rfl, h.symm⟩
      · exact .inl (by rw [h])
  · exact .inl h

/-- The invariant of the two loops over the neighbours. -/
structure PInv (n k : Nat) (W : Nat → Nat → Option Nat) (base : List CNode) (done : Nat → Nat → Nat → Nat → Prop) (st : CState) : Prop where
  ex : ∃ W', Mir n (k + 1) st.nodes W' ∧ Mid k W done W'
  rf : ∃ a, Refines n st.fd a
  rb : ∃ b, Refines n st.bd b
  low : ∀ u : Nat, u ≤ k → st.nodes[u]? = base[u]?

def addDone (done : Nat → Nat → Nat → Nat → Prop) (src dst : Link) (u a v b : Nat) : Prop :=
  done u a v b ∨ (u = src.node ∧ a = src.weight ∧ v = dst.node ∧ b = dst.weight)

theorem pair_spec {n k : Nat} {W : Nat → Nat → Option Nat} {base : List CNode} {done : Nat → Nat → Nat → Nat → Prop} {st st' : CState}
    (hd : ∀ u v w, W u v = some w → k ≤ u ∧ k ≤ v ∧ u < n ∧ v < n ∧ u ≠ v)
    (h : PInv n k W base done st) {src dst : Entry} (hs : W src.1.node k = some src.1.weight) (ht : W k dst.1.node = some dst.1.weight)
    (hr : contractPair (k + 1) src dst st = some st') : PInv n k W base (addDone done src.1 dst.1) st' := by
  obtain ⟨⟨W', hm, hmid⟩, ⟨x, hx⟩, ⟨y, hy⟩, hlow⟩ := h
  have d1 := hd _ _ _ hs
  have d2 := hd _ _ _ ht
  unfold contractPair at hr
  simp only [Option.bind_eq_bind, Option.bind_eq_some_iff] at hr
  obtain ⟨w, hw, ⟨req, fd, bd⟩, hreq, hr⟩ := hr
  have hw' : w = src.1.weight + dst.1.weight := by
    unfold add32 at hw; split at hw
    · simp at hw; exact hw.symm
    · simp at hw
  obtain ⟨⟨x', y', r1, r2⟩, r3, r4⟩ := required_spec hm (a := src.1.node) (b := dst.1.node) (w := w) (by omega) (by omega) (by omega) (by omega) hx hy hreq
  have hdw : ∀ {d}, Walk (WA (drop k W)) src.1.node dst.1.node d → ∃ d', d' ≤ d ∧ Walk (WA W') src.1.node dst.1.node d' :=
    fun hwk => walk_mono (B := WA W') hmid.dom hwk
  cases req with
  | false =>
    simp only [Bool.false_eq_true, if_false, Option.pure_def, Option.some.injEq] at hr
    subst hr
    refine ⟨⟨W', hm, hmid.dom, ?_, hmid.snd⟩, ⟨x', r1⟩, ⟨y', r2⟩, hlow⟩
    rintro u v a b (hdone | ⟨rfl, rfl, rfl, rfl⟩) huv
    · exact hmid.cov u v a b hdone huv
    · obtain ⟨d, e1, e2⟩ := r3 huv rfl
      exact ⟨d, by omega, e2⟩
  | true =>
    simp only [if_true, Option.bind_eq_some_iff, Option.pure_def, Option.some.injEq] at hr
    obtain ⟨nodes', hn, hr⟩ := hr
    subst hr
    obtain ⟨hne, hle⟩ := r4 rfl
    obtain ⟨nodes2, i1, i2, i3⟩ := insertShortcut_spec hm (a := src.1.node) (b := dst.1.node) (w := w) (o := k + 1 - 1) (by omega) (by omega) (by omega)
      (by omega) hne
    rw [hn] at i1
    simp only [Option.some.injEq] at i1
    subst i1
    refine ⟨⟨_, i2, ?_, ?_, ?_⟩, ⟨x', r1⟩, ⟨y', r2⟩, fun u hu => by rw [← hlow u hu]; exact i3 u (by omega)⟩
    · intro u v z hz
      obtain ⟨z', e1, e2⟩ := hmid.dom u v z hz
      obtain ⟨z2, e3, e4⟩ := ins_le (a := src.1.node) (b := dst.1.node) (w := w) e2
      exact ⟨z2, by omega, e4⟩
    · rintro u v a b (hdone | ⟨rfl, rfl, rfl, rfl⟩) huv
      · obtain ⟨d, e1, e2⟩ := hmid.cov u v a b hdone huv
        obtain ⟨d', e3, e4⟩ := walk_mono (B := WA (ins W' src.1.node dst.1.node w)) (fun u v w h => ins_le h) e2
        exact ⟨d', by omega, e4⟩
      · have : WA (ins W' src.1.node dst.1.node w) src.1.node dst.1.node (better (W' src.1.node dst.1.node) w) := by
          show ins _ _ _ _ _ _ = _
          rw [ins, if_pos ⟨rfl, rfl⟩]
        refine ⟨_, ?_, by have := Walk.cons this (.nil _); simpa using this⟩
        cases W' src.1.node dst.1.node with
        | none => simp only [better]; omega
        | some z => simp only [better]; split <;> omega
    · intro u v z hz
      rcases ins_cases hz with hz | ⟨rfl, rfl, rfl⟩
      · exact hmid.snd u v z hz
      · refine .inr ⟨_, _, hs, ht, hw', hne, ?_⟩
        intro d hd hinf
        obtain ⟨d', e1, e2⟩ := hdw hd
        have := hle d' e2 (by omega)
        omega

/-- With all arcs of the remaining graph at most `INFINITY`, a pair does not fail. -/
theorem pair_total {n k : Nat} {W : Nat → Nat → Option Nat} {base : List CNode} {done : Nat → Nat → Nat → Nat → Prop} {st : CState}
    (hd : ∀ u v w, W u v = some w → k ≤ u ∧ k ≤ v ∧ u < n ∧ v < n ∧ u ≠ v)
    (h : PInv n k W base done st) {src dst : Entry} (hs : W src.1.node k = some src.1.weight) (ht : W k dst.1.node = some dst.1.weight)
    (hb : ∀ W', Mid k W done W' → ∀ u v w, W' u v = some w → w ≤ INFINITY) (hws : src.1.weight ≤ INFINITY) (hwt : dst.1.weight ≤ INFINITY) :
    ∃ st', contractPair (k + 1) src dst st = some st' := by
  obtain ⟨⟨W', hm, hmid⟩, ⟨x, hx⟩, ⟨y, hy⟩, hlow⟩ := h
  have d1 := hd _ _ _ hs
  have d2 := hd _ _ _ ht
  have hadd : add32 src.1.weight dst.1.weight = some (src.1.weight + dst.1.weight) := add32_of_lt (by simp only [INFINITY, U32] at *; omega)
  obtain ⟨⟨req, fd, bd⟩, hreq⟩ := required_total hm (a := src.1.node) (b := dst.1.node) (w := src.1.weight + dst.1.weight) (by omega) (by omega) (by omega)
    (by omega) hx hy (hb W' hmid)
  obtain ⟨_, _, r4⟩ := required_spec hm (by omega) (by omega) (by omega) (by omega) hx hy hreq
  unfold contractPair
  rw [hadd]
  simp only [Option.bind_eq_bind, Option.bind_some, hreq]
  cases req with
  | false => exact ⟨_, rfl⟩
  | true =>
    obtain ⟨nodes2, i1, i2, i3⟩ := insertShortcut_spec hm (a := src.1.node) (b := dst.1.node) (w := src.1.weight + dst.1.weight) (o := k + 1 - 1) (by omega)
      (by omega) (by omega) (by omega) (r4 rfl).1
    simp only [if_true, i1, Option.bind_some]
    exact ⟨_, rfl⟩

/-- A fold that succeeds, by an invariant on prefixes. -/
theorem foldlM_part {α σ : Type} (body : σ → α → Option σ) (Inv : List α → σ → Prop) (E : List α)
    (hstep : ∀ P x Q s s', E = P ++ x :: Q → Inv P s → body s x = some s' → Inv (P ++ [x]) s') {s s' : σ} (h0 : Inv [] s)
    (h : E.foldlM body s = some s') : Inv E s' := by
  have key : ∀ Q P s, E = P ++ Q → Inv P s → Q.foldlM body s = some s' → Inv E s' := by
    intro Q
    induction Q with
    | nil => intro P s h hi hf; simp at h hf; subst h hf; exact hi
    | cons x Q ih =>
      intro P s h hi hf
      rw [List.foldlM_cons] at hf
      simp only [Option.bind_eq_bind, Option.bind_eq_some_iff] at hf
      obtain ⟨s1, h1, h2⟩ := hf
      exact ih (P ++ [x]) s1 (by simpa using h) (hstep P x Q s s1 h hi h1) h2
  exact key E [] s rfl h0 h

/-- The pairs of the first loop over `P`, and of the second loop over `Q` for the current entry. -/
def donePairs (P out : List Entry) (u a v b : Nat) : Prop := ∃ s ∈ P, ∃ t ∈ out, u = s.1.node ∧ a = s.1.weight ∧ v = t.1.node ∧ b = t.1.weight

theorem PInv.congr {n k : Nat} {W : Nat → Nat → Option Nat} {base : List CNode} {d1 d2 : Nat → Nat → Nat → Nat → Prop} {st : CState}
    (h : PInv n k W base d1 st) (he : ∀ u a v b, d2 u a v b → d1 u a v b) : PInv n k W base d2 st := by
  obtain ⟨⟨W', h1, h2⟩, h3, h4, h5⟩ := h
  exact ⟨⟨W', h1, h2.dom, fun u v a b hd => h2.cov u v a b (he _ _ _ _ hd), h2.snd⟩, h3, h4, h5⟩

theorem pairs_spec {n k : Nat} {W : Nat → Nat → Option Nat} {base : List CNode} {st st' : CState} {node : CNode}
    (hd : ∀ u v w, W u v = some w → k ≤ u ∧ k ≤ v ∧ u < n ∧ v < n ∧ u ≠ v)
    (ho : ∀ e ∈ node.out, W k e.1.node = some e.1.weight) (hi : ∀ e ∈ node.inc, W e.1.node k = some e.1.weight)
    (h : PInv n k W base (fun _ _ _ _ => False) st) (hr : contractPairs (k + 1) node st = some st') :
    PInv n k W base (donePairs node.inc node.out) st' := by
  unfold contractPairs at hr
  refine foldlM_part _ (fun P st => PInv n k W base (donePairs P node.out) st) node.inc ?_ (h.congr (by rintro u a v b ⟨s, hs, _⟩; simp at hs)) hr
  intro P x Q s s' hE hP hf
  have := foldlM_part _ (fun P2 st => PInv n k W base (fun u a v b => donePairs P node.out u a v b ∨ donePairs [x] P2 u a v b) st) node.out ?_
    (hP.congr (by
      rintro u a v b (h1 | ⟨s, _, t, ht, _⟩)
      · exact h1
      · simp at ht)) hf
  · refine this.congr ?_
    rintro u a v b ⟨s, hs, hrest⟩
    rcases List.mem_append.1 hs with hs | hs
    · exact .inl ⟨s, hs, hrest⟩
    · exact .inr ⟨s, hs, hrest⟩
  · intro P2 y Q2 s1 s2 hE2 hP2 hf2
    refine (pair_spec hd hP2 (hi x (by rw [hE]; simp)) (ho y (by rw [hE2]; simp)) hf2).congr ?_
    rintro u a v b (h1 | ⟨s, hs, t, ht, hrest⟩)
    · exact .inl (.inl h1)
    · rcases List.mem_append.1 ht with ht | ht
      · exact .inl (.inr ⟨s, hs, t, ht, hrest⟩)
      · simp at hs ht; subst hs ht
        exact .inr hrest

theorem pairs_total {n k : Nat} {W : Nat → Nat → Option Nat} {base : List CNode} {st : CState} {node : CNode}
    (hd : ∀ u v w, W u v = some w → k ≤ u ∧ k ≤ v ∧ u < n ∧ v < n ∧ u ≠ v)
    (ho : ∀ e ∈ node.out, W k e.1.node = some e.1.weight) (hi : ∀ e ∈ node.inc, W e.1.node k = some e.1.weight)
    (h : PInv n k W base (fun _ _ _ _ => False) st)
    (hb : ∀ done W', Mid k W done W' → ∀ u v w, W' u v = some w → w ≤ INFINITY) (hW : ∀ u v w, W u v = some w → w ≤ INFINITY) :
    ∃ st', contractPairs (k + 1) node st = some st' := by
  unfold contractPairs
  obtain ⟨s', h1, _⟩ := GraphOps.foldlM_inv (fun st (src : Entry) => node.out.foldlM (fun st dst => contractPair (k + 1) src dst st) st)
    (fun P st => ∃ done, PInv n k W base done st) node.inc (by
      rintro P x Q s hE ⟨done, hP⟩
      obtain ⟨s', h1, h2⟩ := GraphOps.foldlM_inv (fun st (dst : Entry) => contractPair (k + 1) x dst st)
        (fun P st => ∃ done, PInv n k W base done st) node.out (by
          rintro P2 y Q2 s1 hE2 ⟨done, hP2⟩
          have e1 := hi x (by rw [hE]; simp)
          have e2 := ho y (by rw [hE2]; simp)
          obtain ⟨s2, h3⟩ := pair_total hd hP2 e1 e2 (hb done) (hW _ _ _ e1) (hW _ _ _ e2)
          exact ⟨s2, h3, _, pair_spec hd hP2 e1 e2 h3⟩) s ⟨done, hP⟩
      exact ⟨s', h1, h2⟩) st ⟨_, h⟩
  exact ⟨s', h1⟩

/-! ### the loop -/

/-- The arcs of the result. -/
def FA (nodes : List CNode) (u v w : Nat) : Prop := ∃ nd, nodes[u]? = some nd ∧ look nd.out v = some w
def BA (nodes : List CNode) (u v w : Nat) : Prop := ∃ nd, nodes[u]? = some nd ∧ look nd.inc v = some w

structure Done (n k : Nat) (W : Nat → Nat → Option Nat) (base nodes : List CNode) : Prop where
  len : nodes.length = n
  low : ∀ u : Nat, u < k → nodes[u]? = base[u]?
  nd : ∀ u nd, k ≤ u → nodes[u]? = some nd → ND nd.out ∧ ND nd.inc
  fw : ∀ u v w, k ≤ u → FA nodes u v w → u < v ∧ v < n ∧ Walk (WA W) u v w
  bw : ∀ u v w, k ≤ u → BA nodes u v w → u < v ∧ v < n ∧ Walk (WA W) v u w
  cov : ∀ x y d, k ≤ x → k ≤ y → Walk (WA W) x y d → ∃ d', d' ≤ d ∧ UpDown (FA nodes) (BA nodes) x y d'

/-- What is left of a node's step once the rest of the loop is known. -/
theorem done_step {n k : Nat} {W W' : Nat → Nat → Option Nat} {base nodes1 nodes : List CNode} {nd : CNode} (hk : k < n)
    (hdom : ∀ u v w, W u v = some w → k ≤ u ∧ k ≤ v ∧ u < n ∧ v < n ∧ u ≠ v) (hn : base[k]? = some nd) (ho : ND nd.out) (hi : ND nd.inc)
    (hfo : ∀ v, look nd.out v = W k v) (hfi : ∀ v, look nd.inc v = W v k) (hlow : ∀ u : Nat, u ≤ k → nodes1[u]? = base[u]?)
    (hs : Step k W W') (h : Done n (k + 1) W' nodes1 nodes) : Done n k W base nodes := by
  have hnk : nodes[k]? = some nd := by rw [h.low k (by omega), hlow k (by omega), hn]
  have hf : ∀ v w, FA nodes k v w ↔ W k v = some w := by
    intro v w
    constructor
    · rintro ⟨nd', h1, h2⟩
      rw [hnk] at h1; simp at h1; subst h1
      rw [← hfo]; exact h2
    · intro hw; exact ⟨nd, hnk, by rw [hfo]; exact hw⟩
  have hb : ∀ v w, BA nodes k v w ↔ W v k = some w := by
    intro v w
    constructor
    · rintro ⟨nd', h1, h2⟩
      rw [hnk] at h1; simp at h1; subst h1
      rw [← hfi]; exact h2
    · intro hw; exact ⟨nd, hnk, by rw [hfi]; exact hw⟩
  have hloop : ∀ u w, W u u ≠ some w := by
    intro u w hw
    exact (hdom _ _ _ hw).2.2.2.2 rfl
  have hup : ∀ {x y d}, Walk (WA W) x y d → k ≤ x → k ≤ y → x ≠ k → y ≠ k → ∃ d', d' ≤ d ∧ UpDown (FA nodes) (BA nodes) x y d' := by
    intro x y d hw hx hy hx' hy'
    obtain ⟨d1, e1, e2⟩ := hs.walk hloop hw hx' hy'
    obtain ⟨d2, e3, e4⟩ := h.cov x y d1 (by omega) (by omega) e2
    exact ⟨d2, by omega, e4⟩
  refine ⟨h.len, ?_, ?_, ?_, ?_, ?_⟩
  · intro u hu
    rw [h.low u (by omega), hlow u (by omega)]
  · intro u x hu hx
    by_cases he : u = k
    · subst he; rw [hnk] at hx; simp at hx; subst hx; exact ⟨ho, hi⟩
    · exact h.nd u x (by omega) hx
  · intro u v w hu hw
    by_cases he : u = k
    · subst he
      have := (hf v w).1 hw
      have hd := hdom _ _ _ this
      exact ⟨by omega, by omega, by have := Walk.cons (A := WA W) this (.nil v); simpa using this⟩
    · obtain ⟨e1, e2, e3⟩ := h.fw u v w (by omega) hw
      exact ⟨e1, e2, walk_flat (fun _ _ _ h => hs.sound h) e3⟩
  · intro u v w hu hw
    by_cases he : u = k
    · subst he
      have := (hb v w).1 hw
      have hd := hdom _ _ _ this
      exact ⟨by omega, by omega, by have := Walk.cons (A := WA W) this (.nil u); simpa using this⟩
    · obtain ⟨e1, e2, e3⟩ := h.bw u v w (by omega) hw
      exact ⟨e1, e2, walk_flat (fun _ _ _ h => hs.sound h) e3⟩
  · intro x y d hx hy hw
    by_cases hxk : x = k
    · by_cases hyk : y = k
      · subst hxk; subst hyk
        exact ⟨0, Nat.zero_le _, y, 0, 0, .nil _, .nil _, rfl⟩
      · subst hxk
        cases hw with
        | nil => omega
        | @cons _ v _ w e ha hr =>
          have hd := hdom _ _ _ ha
          obtain ⟨d', e1, m, p, q, e2, e3, e4⟩ := hup hr (by omega) hy (by omega) hyk
          exact ⟨w + d', by omega, m, w + p, q, .cons ((hf v w).2 ha) (by omega) e2, e3, by omega⟩
    · by_cases hyk : y = k
      · subst hyk
        obtain ⟨u, a, w, h1, h2, h3⟩ := walk_last hw hxk
        have hd := hdom _ _ _ h2
        obtain ⟨d', e1, m, p, q, e2, e3, e4⟩ := hup h1 hx (by omega) hxk (by omega)
        exact ⟨d' + w, by omega, m, p, w + q, e2, .cons ((hb u w).2 h2) (by omega) e3, by omega⟩
      · exact hup hw hx hy hxk hyk

theorem step_of_mid {k : Nat} {W W' : Nat → Nat → Option Nat} {nd : CNode} (ho : ND nd.out) (hi : ND nd.inc)
    (hfo : ∀ v, look nd.out v = W k v) (hfi : ∀ v, look nd.inc v = W v k) (h : Mid k W (donePairs nd.inc nd.out) W') : Step k W W' := by
  refine ⟨h.dom, ?_, h.snd⟩
  intro u v a b hu hv huv
  rw [← hfi] at hu
  rw [← hfo] at hv
  obtain ⟨m1, h1⟩ := (mem_look hi).2 hu
  obtain ⟨m2, h2⟩ := (mem_look ho).2 hv
  exact h.cov u v a b ⟨_, h1, _, h2, rfl, rfl, rfl, rfl⟩ huv

theorem loop_done {n : Nat} : ∀ (c k : Nat) {st st' : CState} {W : Nat → Nat → Option Nat}, k + c = n → Mir n k st.nodes W →
    (∃ a, Refines n st.fd a) → (∃ b, Refines n st.bd b) → contractLoop c k st = some st' → Done n k W st.nodes st'.nodes := by
  intro c
  induction c with
  | zero =>
    intro k st st' W hk h _ _ hr
    have hkn : k = n := by omega
    subst hkn
    have hno : st.nodes[k]? = none := by rw [List.getElem?_eq_none]; rw [h.st.len]; exact Nat.le_refl _
    have hrl : removeLowest k st.nodes = some none := by unfold removeLowest; rw [hno]
    rw [contractLoop, hrl] at hr
    simp only [Option.bind_eq_bind, Option.bind_some, Option.pure_def, Option.some.injEq] at hr
    subst hr
    have hlt : ∀ (u : Nat) (x : CNode), k ≤ u → st.nodes[u]? = some x → False := by
      intro u x hu hx
      have := (List.getElem?_eq_some_iff.1 hx).1
      rw [h.st.len] at this; omega
    refine ⟨h.st.len, fun _ _ => rfl, fun u x hu hx => (hlt u x hu hx).elim, fun u v w hu ⟨x, hx, _⟩ => (hlt u x hu hx).elim,
      fun u v w hu ⟨x, hx, _⟩ => (hlt u x hu hx).elim, ?_⟩
    intro x y d hx hy hw
    cases hw with
    | nil => exact ⟨0, Nat.le_refl _, x, 0, 0, .nil _, .nil _, rfl⟩
    | cons ha _ => have := h.dom _ _ _ ha; omega
  | succ c ih =>
    intro k st st' W hk h hf hb hr
    obtain ⟨nd, nodes', h1, h2, h3, h4, h5, h6, h7, h8⟩ := removeLowest_spec h (by omega)
    rw [contractLoop, h2] at hr
    simp only [Option.bind_eq_bind, Option.bind_some, Option.bind_eq_some_iff] at hr
    obtain ⟨st1, g1, g2⟩ := hr
    have hp := pairs_spec (base := st.nodes) (st := { st with nodes := nodes' }) h.dom (fun e he => by rw [← h6]; exact look_mem h4 he) (fun e he => by rw [← h7]; exact look_mem h5 he)
      ⟨⟨_, h3, Mid.start k W⟩, hf, hb, h8⟩ g1
    obtain ⟨⟨W', p1, p2⟩, p3, p4, p5⟩ := hp
    exact done_step (by omega) h.dom h1 h4 h5 h6 h7 p5 (step_of_mid h4 h5 h6 h7 p2) (ih (k + 1) (by omega) p1 p3 p4 g2)

/-! ### partial contraction -/

structure Part (n k : Nat) (W : Nat → Nat → Option Nat) (base nodes : List CNode) : Prop where
  len : nodes.length = n
  low : ∀ u : Nat, u < k → nodes[u]? = base[u]?
  nd : ∀ u nd, k ≤ u → nodes[u]? = some nd → ND nd.out ∧ ND nd.inc
  fw : ∀ u v w, k ≤ u → FA nodes u v w → v < n ∧ Walk (WA W) u v w
  bw : ∀ u v w, k ≤ u → BA nodes u v w → v < n ∧ Walk (WA W) v u w

theorem Done.part {n k : Nat} {W : Nat → Nat → Option Nat} {base nodes : List CNode} (h : Done n k W base nodes) : Part n k W base nodes :=
  ⟨h.len, h.low, h.nd, fun u v w hu hw => (h.fw u v w hu hw).2, fun u v w hu hw => (h.bw u v w hu hw).2⟩

theorem loop_succ (c k : Nat) (st : CState) : contractLoop (c + 1) k st = (do
    match ← removeLowest k st.nodes with
    | none => return st
    | some (node, nodes) =>
      let st ← contractPairs (k + 1) node { st with nodes := nodes }
      contractLoop c (k + 1) st) := rfl

theorem loop_part {n : Nat} : ∀ (c k : Nat) {st st' : CState} {W : Nat → Nat → Option Nat}, k < n → Mir n k st.nodes W →
    (∃ a, Refines n st.fd a) → (∃ b, Refines n st.bd b) → contractLoop c k st = some st' → Part n k W st.nodes st'.nodes := by
  intro c
  induction c with
  | zero =>
    intro k st st' W hk h _ _ hr
    obtain ⟨nd, nodes', h1, h2, h3, h4, h5, h6, h7, h8⟩ := removeLowest_spec h hk
    rw [contractLoop, h2] at hr
    simp only [Option.bind_eq_bind, Option.bind_some, Option.pure_def, Option.some.injEq] at hr
    subst hr
    have one : ∀ {u v w}, W u v = some w → Walk (WA W) u v w := by
      intro u v w hw; have := Walk.cons (A := WA W) hw (.nil v); simpa using this
    have hk' : nodes'[k]? = some nd := by rw [h8 k (Nat.le_refl k), h1]
    refine ⟨h3.st.len, fun u hu => h8 u (by omega), ?_, ?_, ?_⟩
    · intro u x hu hx
      by_cases he : u = k
      · subst he; rw [hk'] at hx; simp at hx; subst hx; exact ⟨h4, h5⟩
      · obtain ⟨nd', g1, g2, g3, _⟩ := h3.st.at_ u (by omega) (by rw [← h3.st.len]; exact (List.getElem?_eq_some_iff.1 hx).1)
        rw [hx] at g1; simp at g1; subst g1; exact ⟨g2, g3⟩
    · rintro u v w hu ⟨x, hx, hw⟩
      have : W u v = some w := by
        by_cases he : u = k
        · subst he; rw [hk'] at hx; simp at hx; subst hx; rw [← h6]; exact hw
        · obtain ⟨nd', g1, _, _, g4, _⟩ := h3.st.at_ u (by omega) (by rw [← h3.st.len]; exact (List.getElem?_eq_some_iff.1 hx).1)
          rw [hx] at g1; simp at g1; subst g1; rw [g4] at hw; exact drop_sub hw
      exact ⟨(h.dom _ _ _ this).2.2.2.1, one this⟩
    · rintro u v w hu ⟨x, hx, hw⟩
      have : W v u = some w := by
        by_cases he : u = k
        · subst he; rw [hk'] at hx; simp at hx; subst hx; rw [← h7]; exact hw
        · obtain ⟨nd', g1, _, _, _, g5⟩ := h3.st.at_ u (by omega) (by rw [← h3.st.len]; exact (List.getElem?_eq_some_iff.1 hx).1)
          rw [hx] at g1; simp at g1; subst g1; rw [g5] at hw; exact drop_sub hw
      exact ⟨(h.dom _ _ _ this).2.2.1, one this⟩
  | succ c ih =>
    intro k st st' W hk h hf hb hr
    by_cases hlast : k + 1 < n
    · obtain ⟨nd, nodes', h1, h2, h3, h4, h5, h6, h7, h8⟩ := removeLowest_spec h hk
      rw [contractLoop, h2] at hr
      simp only [Option.bind_eq_bind, Option.bind_some, Option.bind_eq_some_iff] at hr
      obtain ⟨st1, g1, g2⟩ := hr
      have hp := pairs_spec (base := st.nodes) (st := { st with nodes := nodes' }) h.dom (fun e he => by rw [← h6]; exact look_mem h4 he)
        (fun e he => by rw [← h7]; exact look_mem h5 he) ⟨⟨_, h3, Mid.start k W⟩, hf, hb, h8⟩ g1
      obtain ⟨⟨W', p1, p2⟩, p3, p4, p5⟩ := hp
      have hs := step_of_mid h4 h5 h6 h7 p2
      have hd := ih (k + 1) hlast p1 p3 p4 g2
      have hnk : st'.nodes[k]? = some nd := by rw [hd.low k (by omega), p5 k (by omega), h1]
      refine ⟨hd.len, fun u hu => by rw [hd.low u (by omega), p5 u (by omega)], ?_, ?_, ?_⟩
      · intro u x hu hx
        by_cases he : u = k
        · subst he; rw [hnk] at hx; simp at hx; subst hx; exact ⟨h4, h5⟩
        · exact hd.nd u x (by omega) hx
      · intro u v w hu hw
        by_cases he : u = k
        · subst he
          obtain ⟨x, hx, hw⟩ := hw
          rw [hnk] at hx; simp at hx; subst hx
          rw [h6] at hw
          exact ⟨(h.dom _ _ _ hw).2.2.2.1, by have := Walk.cons (A := WA W) hw (.nil v); simpa using this⟩
        · obtain ⟨e1, e2⟩ := hd.fw u v w (by omega) hw
          exact ⟨e1, walk_flat (fun _ _ _ h => hs.sound h) e2⟩
      · intro u v w hu hw
        by_cases he : u = k
        · subst he
          obtain ⟨x, hx, hw⟩ := hw
          rw [hnk] at hx; simp at hx; subst hx
          rw [h7] at hw
          exact ⟨(h.dom _ _ _ hw).2.2.1, by have := Walk.cons (A := WA W) hw (.nil u); simpa using this⟩
        · obtain ⟨e1, e2⟩ := hd.bw u v w (by omega) hw
          exact ⟨e1, walk_flat (fun _ _ _ h => hs.sound h) e2⟩
    · -- the last node: the loop ends after it, whatever is left of the count
      have hk1 : k + 1 = n := by omega
      have hsame : contractLoop 1 k st = some st' := by
        obtain ⟨nd, nodes', h1, h2, h3, h4, h5, h6, h7, h8⟩ := removeLowest_spec h hk
        rw [contractLoop, h2] at hr
        rw [loop_succ 0 k st, h2]
        simp only [Option.bind_eq_bind, Option.bind_some, Option.bind_eq_some_iff] at hr ⊢
        obtain ⟨st1, g1, g2⟩ := hr
        refine ⟨st1, g1, ?_⟩
        have hp := pairs_spec (base := st.nodes) (st := { st with nodes := nodes' }) h.dom (fun e he => by rw [← h6]; exact look_mem h4 he)
          (fun e he => by rw [← h7]; exact look_mem h5 he) ⟨⟨_, h3, Mid.start k W⟩, hf, hb, h8⟩ g1
        obtain ⟨⟨W', p1, p2⟩, p3, p4, p5⟩ := hp
        have hrl : removeLowest (k + 1) st1.nodes = some none := by
          unfold removeLowest
          rw [List.getElem?_eq_none (by rw [p1.st.len]; omega)]
        cases c with
        | zero => exact g2
        | succ c =>
          rw [loop_succ, hrl] at g2
          simp only [contractLoop, hrl]
          exact g2
      exact (loop_done 1 k (by omega) h hf hb hsame).part

/-! ### success, if all arcs are shortest paths -/

structure Tight (W : Nat → Nat → Option Nat) : Prop where
  tight : ∀ u v w d, W u v = some w → Walk (WA W) u v d → w ≤ d
  fin : ∀ u v d, Walk (WA W) u v d → ∃ d', d' < INFINITY ∧ Walk (WA W) u v d'

theorem Tight.lt {W : Nat → Nat → Option Nat} (h : Tight W) {u v w : Nat} (hw : W u v = some w) : w < INFINITY := by
  have h1 : Walk (WA W) u v w := by have := Walk.cons (A := WA W) hw (.nil v); simpa using this
  obtain ⟨d, h2, h3⟩ := h.fin _ _ _ h1
  have := h.tight _ _ _ _ hw h3
  omega

theorem Tight.mid {k : Nat} {W W' : Nat → Nat → Option Nat} {done : Nat → Nat → Nat → Nat → Prop} (h : Tight W) (hm : Mid k W done W')
    {u v w : Nat} (hw : W' u v = some w) : (∀ d, Walk (WA W) u v d → w ≤ d) ∧ w < INFINITY := by
  rcases hm.snd u v w hw with h1 | ⟨a, b, h1, h2, h3, h4, h5⟩
  · exact ⟨fun d hd => h.tight _ _ _ _ (drop_sub h1) hd, h.lt (drop_sub h1)⟩
  · have hself : Walk (WA W) u v w := by
      have := Walk.cons (A := WA W) h1 (.cons (show WA W k v b from h2) (.nil v))
      rw [h3]; simpa using this
    have hle : ∀ d, Walk (WA W) u v d → d < INFINITY → w ≤ d := by
      intro d hd hinf
      rcases walk_split W k hd with g | ⟨p, q, g1, g2, g3⟩
      · exact h5 d g hinf
      · have := h.tight _ _ _ _ h1 g1
        have := h.tight _ _ _ _ h2 g2
        omega
    obtain ⟨d0, e1, e2⟩ := h.fin _ _ _ hself
    have hlt : w < INFINITY := by have := hle d0 e2 e1; omega
    refine ⟨?_, hlt⟩
    intro d hd
    by_cases hinf : d < INFINITY
    · exact hle d hd hinf
    · omega

theorem Tight.step {k : Nat} {W W' : Nat → Nat → Option Nat} (h : Tight W) (hloop : ∀ u w, W u u ≠ some w) (hs : Step k W W')
    (hdom : ∀ u v w, W' u v = some w → u ≠ k ∧ v ≠ k) : Tight W' := by
  have hmid : Mid k W (fun _ _ _ _ => False) W' := ⟨hs.dom, fun _ _ _ _ h => h.elim, hs.snd⟩
  constructor
  · intro u v w d hw hd
    exact (h.mid hmid hw).1 d (walk_flat (fun _ _ _ h => hs.sound h) hd)
  · intro u v d hd
    by_cases huv : u = v
    · subst huv; exact ⟨0, by simp [INFINITY], .nil _⟩
    have hu : u ≠ k := by
      cases hd with
      | nil => exact absurd rfl huv
      | cons ha _ => exact (hdom _ _ _ ha).1
    have hv : v ≠ k := by
      obtain ⟨x, a, w, _, h2, _⟩ := walk_last hd huv
      exact (hdom _ _ _ h2).2
    obtain ⟨d', e1, e2⟩ := h.fin u v d (walk_flat (fun _ _ _ h => hs.sound h) hd)
    obtain ⟨d2, e3, e4⟩ := hs.walk hloop e2 hu hv
    exact ⟨d2, by omega, e4⟩

theorem loop_total {n : Nat} : ∀ (c k : Nat) {st : CState} {W : Nat → Nat → Option Nat}, k + c = n → Mir n k st.nodes W → Tight W →
    (∃ a, Refines n st.fd a) → (∃ b, Refines n st.bd b) → ∃ st', contractLoop c k st = some st' ∧
      (∀ u nd, k ≤ u → st'.nodes[u]? = some nd → (∀ v w, look nd.out v = some w → w < INFINITY) ∧ (∀ v w, look nd.inc v = some w → w < INFINITY)) := by
  intro c
  induction c with
  | zero =>
    intro k st W hk h ht _ _
    have hkn : k = n := by omega
    subst hkn
    have hno : st.nodes[k]? = none := by rw [List.getElem?_eq_none]; rw [h.st.len]; exact Nat.le_refl _
    have hrl : removeLowest k st.nodes = some none := by unfold removeLowest; rw [hno]
    refine ⟨st, ?_, ?_⟩
    · rw [contractLoop, hrl]; rfl
    · intro u x hu hx
      have := (List.getElem?_eq_some_iff.1 hx).1
      rw [h.st.len] at this; omega
  | succ c ih =>
    intro k st W hk h ht hf hb
    obtain ⟨nd, nodes', h1, h2, h3, h4, h5, h6, h7, h8⟩ := removeLowest_spec h (by omega)
    have e1 : ∀ e ∈ nd.out, W k e.1.node = some e.1.weight := fun e he => by rw [← h6]; exact look_mem h4 he
    have e2 : ∀ e ∈ nd.inc, W e.1.node k = some e.1.weight := fun e he => by rw [← h7]; exact look_mem h5 he
    obtain ⟨st1, g1⟩ := pairs_total (base := st.nodes) (st := { st with nodes := nodes' }) h.dom e1 e2 ⟨⟨_, h3, Mid.start k W⟩, hf, hb, h8⟩
      (fun done W' hm u v w hw => Nat.le_of_lt (ht.mid hm hw).2) (fun u v w hw => Nat.le_of_lt (ht.lt hw))
    have hp := pairs_spec (base := st.nodes) (st := { st with nodes := nodes' }) h.dom e1 e2 ⟨⟨_, h3, Mid.start k W⟩, hf, hb, h8⟩ g1
    obtain ⟨⟨W', p1, p2⟩, p3, p4, p5⟩ := hp
    have hs := step_of_mid h4 h5 h6 h7 p2
    have ht' : Tight W' := ht.step (fun u w hw => (h.dom _ _ _ hw).2.2.2.2 rfl) hs (fun u v w hw => by have := p1.dom _ _ _ hw; omega)
    obtain ⟨st', q1, q2⟩ := ih (k + 1) (by omega) p1 ht' p3 p4
    refine ⟨st', ?_, ?_⟩
    · rw [contractLoop, h2]
      simp only [Option.bind_eq_bind, Option.bind_some, g1, q1]
    · intro u x hu hx
      by_cases he : u = k
      · subst he
        have hd := loop_done c (u + 1) (by omega) p1 p3 p4 q1
        rw [hd.low u (by omega), p5 u (by omega), h1] at hx
        simp at hx; subst hx
        exact ⟨fun v w hw => ht.lt (by rw [← h6]; exact hw), fun v w hw => ht.lt (by rw [← h7]; exact hw)⟩
      · exact q2 u x (by omega) hx

end CH
end Verif
