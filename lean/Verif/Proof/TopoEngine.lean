import Verif.Proof.TopoDijkstra
set_option linter.unusedSimpArgs false
set_option linter.unusedVariables false
/- A step of the search over chains keeps every invariant that is kept by its elementary events, whatever the closures do. -/
namespace Verif.Topo
open Spec DData
variable {α β σ : Type}

/-- the queue after a node was offered a key -/
def setQ (Q : Nat → Option Nat) (x : Nat) : Option Nat → Nat → Option Nat
  | none => Q
  | some κ => fupd Q x (some κ)

/-- the labels after following arc `b` of `x` -/
def relaxed (p : Prob α β) (a : Abs β) (x : Nat) (b : α) (Q : Nat → Option Nat) : Abs β :=
  ⟨fupd a.D (p.ops.head b) (p.lf b (a.D x)), Q, fupd a.P (p.ops.head b) (x, p.ops.predLink b)⟩

/-- `pend'` is what remains after the arc `b` of `x` was relaxed; further arcs may only be added at its head. -/
structure Rest (p : Prob α β) (pend pend' : Nat → α → Prop) (x : Nat) (b : α) (more : Bool) : Prop where
  old : ∀ v e, (more = true → v ≠ p.ops.head b) → pend v e → pend' v e ∨ (v = x ∧ e = b)
  new : ∀ v e, pend' v e → pend v e ∨ (more = true ∧ v = p.ops.head b)
  all : more = true → ∀ lu e, p.links (p.ops.head b) = some lu → e ∈ lu → ¬ pend' (p.ops.head b) e → p.ops.head e = x

/-- An arc that improves the label of its head. -/
structure Better (p : Prob α β) (pend : Nat → α → Prop) (a : Abs β) (x : Nat) (b : α) : Prop where
  xn : x < p.n
  xD : a.D x < INFINITY
  arc : ∃ ls, p.links x = some ls ∧ b ∈ ls
  pend : pend x b
  lt : p.lf b (a.D x) < a.D (p.ops.head b)

/-- What has to be shown about an invariant `I` of a step that settles `u0`; the first argument of `I` says if a node of degree three was passed. -/
structure Events (p : Prob α β) (sk : Skip) (deg : Nat → Option SymDeg) (cl : Closures σ) (u0 : Nat)
    (I : Bool → (Nat → α → Prop) → Abs β → σ → Prop) : Prop where
  ub : ∀ h pend a c, I h pend a c → ∀ v, a.D v ≤ INFINITY
  fin : ∀ h pend a c, I h pend a c → a.D u0 < INFINITY
  reset : ∀ h pend a c, I h pend a c → (∀ y e, pend y e → y = u0) → I false pend a c
  skip : ∀ h pend pend' a c x b, I h pend a c → x < p.n → a.D x < INFINITY → (∃ ls, p.links x = some ls ∧ b ∈ ls) → pend x b →
    ¬ p.lf b (a.D x) < a.D (p.ops.head b) → Rest p pend pend' x b false → I h pend' a c
  pass : ∀ h pend pend' a c x b, I h pend a c → Better p pend a x b → Passed sk deg (p.ops.head b) → Rest p pend pend' x b true →
    I h pend' (relaxed p a x b a.Q) c
  three : ∀ pend a c x b, I false pend a c → Better p pend a x b → deg (p.ops.head b) = some .three → a.Q (p.ops.head b) = none →
    ∃ c' ok, cl.imp c (p.ops.head b) (p.lf b (a.D x)) = some (c', ok) ∧
      ∀ pend', Rest p pend pend' x b true → I true pend' (relaxed p a x b a.Q) c'
  endp : ∀ h pend a c x b, I h pend a c → Better p pend a x b → ¬ Passed sk deg (p.ops.head b) →
    ∃ c' ok, cl.imp c (p.ops.head b) (p.lf b (a.D x)) = some (c', ok) ∧
      (ok = false → ∀ pend', Rest p pend pend' x b false → I h pend' (relaxed p a x b a.Q) c') ∧
      (ok = true → ∃ c'' key, cl.key c' (p.ops.head b) (p.lf b (a.D x)) = some (c'', key) ∧
        (∀ κ k, key = some κ → a.Q (p.ops.head b) = some k → κ ≤ k) ∧
        ∀ pend', Rest p pend pend' x b false → I h pend' (relaxed p a x b (setQ a.Q (p.ops.head b) key)) c'')

section
variable {p : Prob α β} {sk : Skip} {deg : Nat → Option SymDeg} {u0 : Nat}

theorem push_spec {N : Nat} {q : IHeap QState} {Q : Nat → Option Nat} (hq : IHeap.Rep N q (fun v => (Q v).map (fun k => ⟨k, v⟩))) {u : Nat} (hu : u < N)
    (cl : Closures σ) {c c1 : σ} {l : Nat} {ok : Bool} (h1 : cl.imp c u l = some (c1, ok)) :
    (ok = false → enqueue cl q u l c = some (q, c1)) ∧
    (ok = true → ∀ c2 key, cl.key c1 u l = some (c2, key) → (∀ κ k, key = some κ → Q u = some k → κ ≤ k) →
      ∃ q', enqueue cl q u l c = some (q', c2) ∧ IHeap.Rep N q' (fun v => (setQ Q u key v).map (fun k => ⟨k, v⟩))) := by
  constructor
  · rintro rfl; simp [enqueue, h1]
  · rintro rfl c2 key h3 hdec
    have hcont := IHeap.rep_containsIndex hq hu
    cases key with
    | none =>
      refine ⟨q, ?_, hq⟩
      simp [enqueue, h1, h3]
    | some κ =>
      cases hqu : Q u with
      | none =>
        simp only [hqu, Option.map_none, Option.isSome_none] at hcont
        obtain ⟨q', hq1, hq2⟩ := IHeap.rep_push (x := (⟨κ, u⟩ : QState)) hq hu (by simp [idx_q, hqu])
        refine ⟨q', ?_, ?_⟩
        · simp only [enqueue, h1, h3, hcont, Option.bind_eq_bind, Option.bind_some, if_true]
          simp [hq1]
        · convert hq2 using 1
          funext x
          by_cases hxu : x = u
          · subst hxu; simp [idx_q, setQ]
          · simp only [idx_q, setQ]; rw [fupd_of_ne _ _ hxu, fupd_of_ne _ _ hxu]
      | some k =>
        simp only [hqu, Option.map_some, Option.isSome_some] at hcont
        have hk := hdec κ k rfl hqu
        obtain ⟨q', hq1, hq2⟩ := IHeap.rep_decreaseKey (x := (⟨κ, u⟩ : QState)) (y := ⟨k, u⟩) hq (by simp [idx_q, hqu]) (by
            simp only [IHeap.le, HeapElem.lt]; simp; omega)
        refine ⟨q', ?_, ?_⟩
        · simp only [enqueue, h1, h3, hcont, Option.bind_eq_bind, Option.bind_some, if_true]
          simp [hq1]
        · convert hq2 using 1
          funext x
          by_cases hxu : x = u
          · subst hxu; simp [idx_q, setQ]
          · simp only [idx_q, setQ]; rw [fupd_of_ne _ _ hxu, fupd_of_ne _ _ hxu]

theorem second_ev (hp : p.OK) {N : Nat} (hN : p.n ≤ N) {O : Nat → α → Prop} {d : DData β} {a : Abs β} {loc : Loc α β} {g : Option (Nat × α)} {V : List Nat}
    (hr : Refines N d a) (hl : LocOK p a loc g V) :
    ∃ loc' g' V', second p.ops d loc = some loc' ∧ pendOf O loc' g' = pendOf O loc g ∧ LocOK p a loc' g' V' ∧
      loc'.hadDegThree = loc.hadDegThree ∧ (g' = none → loc'.degThree = none) ∧ need p loc' g' V' ≤ need p loc g V := by
  cases g with
  | some q =>
    have hc := hl.chain
    simp at hc
    refine ⟨loc, some q, V, ?_, rfl, hl, rfl, by simp, Nat.le_refl _⟩
    simp [second, hc]
  | none =>
    have hc := hl.chain
    simp at hc
    cases ht : loc.degThree with
    | none =>
      refine ⟨loc, none, V, ?_, rfl, hl, rfl, fun _ => ht, Nat.le_refl _⟩
      simp [second, hc, ht]
    | some q =>
      obtain ⟨y, e⟩ := q
      obtain ⟨h1, h2, ls, h3, h4⟩ := hl.three y e ht
      have hget := hr.get (Nat.lt_of_lt_of_le h1 hN)
      refine ⟨{ loc with chain := some ⟨(y, p.ops.predLink e), p.ops.head e, p.lf e (a.D y)⟩, degThree := none }, some (y, e), [], ?_, ?_, ?_, rfl, ?_, ?_⟩
      · simp [second, hc, ht, hget, follow_spec hp h3 h4 h2]
      · funext v b
        simp [pendOf, ht]
      · refine ⟨by simp, ?_, by simp, by simp, by simp, by simp, by simp⟩
        intro x b hxb
        simp at hxb
        obtain ⟨rfl, rfl⟩ := hxb
        exact ⟨h1, h2, ls, h3, h4⟩
      · simp
      · have := hl.had (by simp [ht])
        simp [need, ht, this]

/-- the outcome of a chain step before the second edge is considered -/
structure EvOut (p : Prob α β) (I : Bool → (Nat → α → Prop) → Abs β → σ → Prop) (N : Nat) (O : Nat → α → Prop) (k : Nat)
    (d' : DData β) (loc' : Loc α β) (c' : σ) (a' : Abs β) (g' : Option (Nat × α)) (V' : List Nat) : Prop where
  ref : Refines N d' a'
  inv : I loc'.hadDegThree (pendOf O loc' g') a' c'
  loc : LocOK p a' loc' g' V'
  need : need p loc' g' V' < k

theorem chainBody_ev (hp : p.OK) (hdeg : DegOK p deg) {cl : Closures σ} {I : Bool → (Nat → α → Prop) → Abs β → σ → Prop}
    (hE : Events p sk deg cl u0 I) {N : Nat} (hN : p.n ≤ N)
    {O : Nat → α → Prop} {d : DData β} {a : Abs β} {loc : Loc α β} {x : Nat} {b : α} {V : List Nat} {c : σ}
    (hr : Refines N d a) (hi : I loc.hadDegThree (pendOf O loc (some (x, b))) a c) (hl : LocOK p a loc (some (x, b)) V) :
    ∃ d' loc' c' a' g' V', chainBody sk ⟨p.links, deg⟩ p.ops cl ⟨(x, p.ops.predLink b), p.ops.head b, p.lf b (a.D x)⟩ d loc c = some (d', loc', c') ∧
      EvOut p I N O (need p loc (some (x, b)) V) d' loc' c' a' g' V' ∧ (g' = none → loc'.degThree = none) := by
  obtain ⟨hxn, hxD, ls, hls, hb⟩ := hl.cur x b rfl
  have hun := hp.heads x ls b hls hb
  have huN := Nat.lt_of_lt_of_le hun hN
  have hget := hr.get huN
  have hVlen := hl.length_le
  -- it is enough to describe the state before `second`
  suffices H : ∃ d' loc' c' a' g' V', (∀ r, second p.ops d' loc' = some r →
        chainBody sk ⟨p.links, deg⟩ p.ops cl ⟨(x, p.ops.predLink b), p.ops.head b, p.lf b (a.D x)⟩ d loc c = some (d', r, c')) ∧
      EvOut p I N O (need p loc (some (x, b)) V) d' loc' c' a' g' V' by
    obtain ⟨d', loc', c', a', g', V', h1, h2⟩ := H
    obtain ⟨loc2, g2, V2, k1, k2, k3, k6, k4, k5⟩ := second_ev hp hN (O := O) h2.ref h2.loc
    exact ⟨d', loc2, c', a', g2, V2, h1 _ k1, ⟨h2.ref, by rw [k2, k6]; exact h2.inv, k3, Nat.lt_of_le_of_lt k5 h2.need⟩, k4⟩
  have hpend : pendOf O loc (some (x, b)) x b := .inr (.inl rfl)
  -- what remains when the chain ends or goes on
  have hrest0 : Rest p (pendOf O loc (some (x, b))) (pendOf (β := β) O { loc with chain := none } none) x b false := by
    refine ⟨?_, ?_, by simp⟩
    · intro v e _ hv
      rcases hv with hv | hv | hv
      · exact .inl (.inl hv)
      · simp at hv; exact .inr ⟨hv.1.symm, hv.2.symm⟩
      · exact .inl (.inr (.inr hv))
    · intro v e hv
      rcases hv with hv | hv | hv
      · exact .inl (.inl hv)
      · simp at hv
      · exact .inl (.inr (.inr hv))
  by_cases hlt : p.lf b (a.D x) < a.D (p.ops.head b)
  · -- improvement
    have hge := hp.ge x ls b (a.D x) hls hb
    have hlinf : p.lf b (a.D x) < INFINITY := Nat.lt_of_lt_of_le hlt (hE.ub _ _ _ _ hi _)
    have hux : p.ops.head b ≠ x := by intro h; rw [h] at hlt; omega
    have hbet : Better p (pendOf O loc (some (x, b))) a x b := ⟨hxn, hxD, ⟨ls, hls, hb⟩, hpend, hlt⟩
    obtain ⟨dist, hd1, hd2, hd3, hd4⟩ := refines_improve hr huN hlt (x, p.ops.predLink b)
    obtain ⟨lu, hlu⟩ := hp.total _ hun
    have hcont := IHeap.rep_containsIndex hr.queue huN
    -- the labels of other nodes
    have hDle : ∀ y, fupd a.D (p.ops.head b) (p.lf b (a.D x)) y ≤ a.D y := by
      intro y; unfold fupd; split
      · subst_vars; omega
      · exact Nat.le_refl _
    have hthree' : ∀ y e, loc.degThree = some (y, e) → y < p.n ∧ fupd a.D (p.ops.head b) (p.lf b (a.D x)) y < INFINITY ∧ ∃ ls, p.links y = some ls ∧ e ∈ ls := by
      intro y e he
      obtain ⟨h1, h2, h3⟩ := hl.three y e he
      exact ⟨h1, Nat.lt_of_le_of_lt (hDle y) h2, h3⟩
    -- case: the node is queued
    have endpt : ¬ Passed sk deg (p.ops.head b) →
        branch sk ⟨p.links, deg⟩ p.ops cl d.queue x (p.ops.head b) (p.lf b (a.D x)) { loc with chain := none } c =
          some (⟨none, true⟩, { loc with chain := none }, c) →
        ∃ d' loc' c' a' g' V', (∀ r, second p.ops d' loc' = some r →
          chainBody sk ⟨p.links, deg⟩ p.ops cl ⟨(x, p.ops.predLink b), p.ops.head b, p.lf b (a.D x)⟩ d loc c = some (d', r, c')) ∧
        EvOut p I N O (need p loc (some (x, b)) V) d' loc' c' a' g' V' := by
      intro hnp hbr
      obtain ⟨c1, ok, h1, h2, h3⟩ := hE.endp _ _ _ _ _ _ hi hbet hnp
      obtain ⟨h4, h5⟩ := push_spec hr.queue huN cl h1
      have key : ∃ q' c' Q', enqueue cl d.queue (p.ops.head b) (p.lf b (a.D x)) c = some (q', c') ∧
          IHeap.Rep N q' (fun v => (Q' v).map (fun k => (⟨k, v⟩ : QState))) ∧
          I loc.hadDegThree (pendOf (β := β) O { loc with chain := none } none) (relaxed p a x b Q') c' := by
        cases ok with
        | false => exact ⟨_, _, _, h4 rfl, hr.queue, h2 rfl _ hrest0⟩
        | true =>
          obtain ⟨c2, ky, g1, g2, g3⟩ := h3 rfl
          obtain ⟨q', g4, g5⟩ := h5 rfl _ _ g1 g2
          exact ⟨_, _, _, g4, g5, g3 _ hrest0⟩
      obtain ⟨q', c', Q', hq1, hq2, hq3⟩ := key
      refine ⟨_, { loc with chain := none }, c', _, none, V, ?_, hd4 q' _ hq2, hq3, ?_, ?_⟩
      · intro r hsec
        simp only [chainBody, hget, hd1, hlt, hd2, hd3, if_true, Option.bind_eq_bind, Option.bind_some, hbr, advance, hq1, hsec, Option.pure_def]
      · exact ⟨by simp, by simp, hthree', hl.had, hl.nodup, hl.lt, by simp⟩
      · simp only [need]
        cases hdt : loc.degThree <;> simp <;> omega
    obtain ⟨cls, hcls⟩ := hdeg.total _ hun
    cases cls with
    | greaterEqFour =>
      apply endpt
      · simp [Passed, hcls]
      · simp [branch, hcls]
    | lessEqTwo =>
      by_cases h2 : sk.deg2 = true
      · -- continue through a node of degree two
        have hbr : branch sk ⟨p.links, deg⟩ p.ops cl d.queue x (p.ops.head b) (p.lf b (a.D x)) { loc with chain := none } c =
            some (⟨lastOther p.ops x lu, false⟩, { loc with chain := none }, c) := by
          simp [branch, hcls, h2, hlu]
        have hone := hdeg.two x ls b lu hls hb hcls hlu
        have himp : ∀ g', (∀ e, lastOther p.ops x lu = some e ↔ g' = some (p.ops.head b, e)) → (∀ y e, g' = some (y, e) → y = p.ops.head b) →
            I loc.hadDegThree (pendOf (β := β) O { loc with chain := none } g') (relaxed p a x b a.Q) c := by
          intro g' hg' hg2
          refine hE.pass _ _ _ _ _ _ _ hi hbet ⟨h2, hcls⟩ ⟨?_, ?_, ?_⟩
          · intro v e _ hv
            rcases hv with hv | hv | hv
            · exact .inl (.inl hv)
            · simp at hv; exact .inr ⟨hv.1.symm, hv.2.symm⟩
            · exact .inl (.inr (.inr hv))
          · intro v e hv
            rcases hv with hv | hv | hv
            · exact .inl (.inl hv)
            · exact .inr ⟨rfl, hg2 _ _ hv⟩
            · exact .inl (.inr (.inr hv))
          · intro _ lu' e hlu' he hn
            rw [hlu] at hlu'; cases hlu'
            by_contra hne
            have := filter_one hone he (by simp [hne])
            rw [← lastOther_spec] at this
            apply hn
            simp only [pendOf]
            exact .inr (.inl ((hg' e).1 this))
        cases ho : lastOther p.ops x lu with
        | none =>
          have himp := himp none (by simp [ho]) (by simp)
          refine ⟨_, { loc with chain := none }, c, _, none, V, ?_, hd4 d.queue _ hr.queue, himp, ?_, ?_⟩
          · intro r hsec
            simp only [chainBody, hget, hd1, hlt, hd2, hd3, if_true, Option.bind_eq_bind, Option.bind_some, hbr, advance, ho, hsec, Option.pure_def,
              Bool.false_eq_true, if_false]
          · exact ⟨by simp, by simp, hthree', hl.had, hl.nodup, hl.lt, by simp⟩
          · simp only [need]
            cases hdt : loc.degThree <;> simp <;> omega
        | some e =>
          have himp := himp (some (p.ops.head b, e)) (by simp [ho]) (by intro y e' h; simp at h; exact h.1.symm)
          have heu : e ∈ lu := by
            have := lastOther_spec p.ops x lu
            rw [ho] at this
            have := List.mem_of_getLast? this.symm
            simp at this; exact this.1
          have hge2 := hp.ge _ lu e (p.lf b (a.D x)) hlu heu
          have hnotin : p.ops.head b ∉ V := by
            intro hz; have := hl.vis x b rfl _ hz; omega
          refine ⟨_, { loc with chain := some ⟨(p.ops.head b, p.ops.predLink e), p.ops.head e, p.lf e (p.lf b (a.D x))⟩ }, c, _, some (p.ops.head b, e),
            p.ops.head b :: V, ?_, hd4 d.queue _ hr.queue, himp, ?_, ?_⟩
          · intro r hsec
            simp only [chainBody, hget, hd1, hlt, hd2, hd3, if_true, Option.bind_eq_bind, Option.bind_some, hbr, advance, ho, Option.pure_def,
              follow_spec hp hlu heu hlinf, hsec]
          · refine ⟨by simp, ?_, hthree', hl.had, List.nodup_cons.2 ⟨hnotin, hl.nodup⟩, ?_, ?_⟩
            · intro y e' hy
              simp at hy
              obtain ⟨rfl, rfl⟩ := hy
              exact ⟨hun, by simpa using hlinf, lu, hlu, heu⟩
            · intro z hz
              simp at hz
              rcases hz with rfl | hz
              · exact hun
              · exact hl.lt z hz
            · intro y e' hy z hz
              simp at hy hz
              obtain ⟨rfl, rfl⟩ := hy
              simp only [fupd_same]
              rcases hz with rfl | hz
              · simpa using hge2
              · have := hl.vis x b rfl z hz
                have := hDle z
                omega
          · have h1 : (p.ops.head b :: V).length ≤ p.n := by
              have := (List.subperm_of_subset (List.nodup_cons.2 ⟨hnotin, hl.nodup⟩) (l₂ := List.range p.n) (by
                intro z hz
                simp at hz ⊢
                rcases hz with rfl | hz
                · exact hun
                · exact hl.lt z hz)).length_le
              simpa using this
            simp only [need, List.length_cons] at h1 ⊢
            omega
      · apply endpt
        · simp [Passed, h2]
        · simp [branch, hcls, h2]
    | three =>
      by_cases h3 : sk.deg3 = true ∧ loc.hadDegThree = false
      · cases hq : a.Q (p.ops.head b) with
        | some k =>
          simp only [hq, Option.map_some, Option.isSome_some] at hcont
          apply endpt
          · simp [Passed, hcls]
          · simp [branch, hcls, h3, hcont]
        | none =>
          simp only [hq, Option.map_none, Option.isSome_none] at hcont
          rw [h3.2] at hi
          obtain ⟨c1, ok, hc1, hc2⟩ := hE.three _ _ _ _ _ hi hbet hcls hq
          have hdt : loc.degThree = none := by
            cases hdt : loc.degThree with
            | none => rfl
            | some q => have := hl.had (by simp [hdt]); rw [h3.2] at this; simp at this
          have htwo := hdeg.three x ls b lu hls hb hcls hlu
          obtain ⟨o1, o2, hto⟩ : ∃ o1 o2, twoOthers p.ops x lu = (o1, o2) := ⟨_, _, rfl⟩
          have hspec := twoOthers_spec p.ops x lu
          rw [hto] at hspec
          injection hspec with hs1 hs2
          have hbr : branch sk ⟨p.links, deg⟩ p.ops cl d.queue x (p.ops.head b) (p.lf b (a.D x)) { loc with chain := none } c =
              some (⟨o1, false⟩, ⟨none, o2.map (fun e => (p.ops.head b, e)), true⟩, c1) := by
            simp [branch, hcls, h3, hlu, hcont, hc1, hto, hdt]
          have himp : ∀ g' : Option (Nat × α), (∀ e, o1 = some e ↔ g' = some (p.ops.head b, e)) → (∀ y e, g' = some (y, e) → y = p.ops.head b) →
              I true (pendOf O ({ chain := none, degThree := o2.map (fun e => (p.ops.head b, e)), hadDegThree := true } : Loc α β) g') (relaxed p a x b a.Q) c1 := by
            intro g' hg' hg2
            refine hc2 _ ⟨?_, ?_, ?_⟩
            · intro v e _ hv
              rcases hv with hv | hv | hv
              · exact .inl (.inl hv)
              · simp at hv; exact .inr ⟨hv.1.symm, hv.2.symm⟩
              · rw [hdt] at hv; simp at hv
            · intro v e hv
              rcases hv with hv | hv | hv
              · exact .inl (.inl hv)
              · exact .inr ⟨rfl, hg2 _ _ hv⟩
              · simp only [Option.map_eq_some_iff, Prod.mk.injEq] at hv
                obtain ⟨_, _, h, _⟩ := hv
                exact .inr ⟨rfl, h.symm⟩
            · intro _ lu' e hlu' he hn
              rw [hlu] at hlu'; cases hlu'
              by_contra hne
              apply hn
              simp only [pendOf]
              rcases filter_two htwo he (by simp [hne]) with h | h
              · rw [← hs1] at h; exact .inr (.inl ((hg' e).1 h))
              · rw [← hs2] at h; exact .inr (.inr (by simp [h]))
          have ho2 : ∀ y e, o2.map (fun e => (p.ops.head b, e)) = some (y, e) → y = p.ops.head b ∧ e ∈ lu := by
            intro y e he
            simp only [Option.map_eq_some_iff, Prod.mk.injEq] at he
            obtain ⟨e', h1, rfl, rfl⟩ := he
            refine ⟨rfl, ?_⟩
            rw [hs2] at h1
            have := List.mem_of_mem_tail (List.mem_of_getLast? h1)
            simp at this; exact this.1
          have hthree2 : ∀ y e, o2.map (fun e => (p.ops.head b, e)) = some (y, e) →
              y < p.n ∧ fupd a.D (p.ops.head b) (p.lf b (a.D x)) y < INFINITY ∧ ∃ ls, p.links y = some ls ∧ e ∈ ls := by
            intro y e he
            obtain ⟨rfl, h2⟩ := ho2 y e he
            exact ⟨hun, by simpa using hlinf, lu, hlu, h2⟩
          cases o1 with
          | none =>
            have ho2n : o2 = none := by
              rw [hs2]
              have : lu.filter (fun e => decide (p.ops.head e ≠ x)) = [] := by
                simpa only [List.head?_eq_none_iff] using hs1.symm
              rw [this]; rfl
            subst ho2n
            have himp := himp none (by simp) (by simp)
            refine ⟨_, ⟨none, none, true⟩, c1, _, none, V, ?_, hd4 d.queue _ hr.queue, himp, ?_, ?_⟩
            · intro r hsec
              simp only [Option.map_none] at hbr
              simp only [chainBody, hget, hd1, hlt, hd2, hd3, if_true, Option.bind_eq_bind, Option.bind_some, hbr, advance, hsec, Option.pure_def,
                Bool.false_eq_true, if_false]
            · exact ⟨by simp, by simp, by simp, by simp, hl.nodup, hl.lt, by simp⟩
            · simp [need]; omega
          | some e =>
            have himp := himp (some (p.ops.head b, e)) (by simp) (by intro y e' h; simp at h; exact h.1.symm)
            have heu : e ∈ lu := by
              have := List.mem_of_head? hs1.symm
              simp at this; exact this.1
            have hge2 := hp.ge _ lu e (p.lf b (a.D x)) hlu heu
            have hnotin : p.ops.head b ∉ V := by
              intro hz; have := hl.vis x b rfl _ hz; omega
            refine ⟨_, ⟨some ⟨(p.ops.head b, p.ops.predLink e), p.ops.head e, p.lf e (p.lf b (a.D x))⟩, o2.map (fun e => (p.ops.head b, e)), true⟩, c1, _,
              some (p.ops.head b, e), p.ops.head b :: V, ?_, hd4 d.queue _ hr.queue, himp, ?_, ?_⟩
            · intro r hsec
              simp only [chainBody, hget, hd1, hlt, hd2, hd3, if_true, Option.bind_eq_bind, Option.bind_some, hbr, advance, Option.pure_def,
                follow_spec hp hlu heu hlinf, hsec]
            · refine ⟨by simp, ?_, hthree2, by simp, List.nodup_cons.2 ⟨hnotin, hl.nodup⟩, ?_, ?_⟩
              · intro y e' hy
                simp at hy
                obtain ⟨rfl, rfl⟩ := hy
                exact ⟨hun, by simpa using hlinf, lu, hlu, heu⟩
              · intro z hz
                simp at hz
                rcases hz with rfl | hz
                · exact hun
                · exact hl.lt z hz
              · intro y e' hy z hz
                simp at hy hz
                obtain ⟨rfl, rfl⟩ := hy
                simp only [fupd_same]
                rcases hz with rfl | hz
                · simpa using hge2
                · have := hl.vis x b rfl z hz
                  have := hDle z
                  omega
            · have h1 : (p.ops.head b :: V).length ≤ p.n := by
                have := (List.subperm_of_subset (List.nodup_cons.2 ⟨hnotin, hl.nodup⟩) (l₂ := List.range p.n) (by
                  intro z hz
                  simp at hz ⊢
                  rcases hz with rfl | hz
                  · exact hun
                  · exact hl.lt z hz)).length_le
                simpa using this
              simp only [need, List.length_cons, h3.2, Bool.false_and, Bool.false_eq_true, if_false] at h1 ⊢
              split <;> omega
      · apply endpt
        · simp [Passed, hcls]
        · have : (!sk.deg3 || loc.hadDegThree) = true := by
            cases h4 : sk.deg3 <;> cases h5 : loc.hadDegThree <;> simp_all
          simp [branch, hcls, this]
  · -- no improvement
    obtain ⟨dist, hd1, hd2⟩ := refines_same hr huN hlt
    refine ⟨{ d with dist := dist }, { loc with chain := none }, c, a, none, V, ?_, hd2, ?_, ?_, ?_⟩
    · intro r hsec
      simp only [chainBody, hget, hd1, hlt, if_false, Option.bind_eq_bind, Option.bind_some, hsec, Option.pure_def]
    · exact hE.skip _ _ _ _ _ _ _ hi hxn hxD ⟨ls, hls, hb⟩ hpend hlt hrest0
    · exact ⟨by simp, by simp, hl.three, hl.had, hl.nodup, hl.lt, by simp⟩
    · simp only [need]
      cases hdt : loc.degThree <;> simp <;> omega

theorem chainLoop_ev (hp : p.OK) (hdeg : DegOK p deg) {cl : Closures σ} {I : Bool → (Nat → α → Prop) → Abs β → σ → Prop}
    (hE : Events p sk deg cl u0 I) {N : Nat} (hN : p.n ≤ N)
    {O : Nat → α → Prop} : ∀ (fuel : Nat) {d : DData β} {a : Abs β} {loc : Loc α β} {g : Option (Nat × α)} {V : List Nat} {c : σ},
    Refines N d a → I loc.hadDegThree (pendOf O loc g) a c → LocOK p a loc g V → (g = none → loc.degThree = none) → need p loc g V ≤ fuel →
    ∃ d' c' a' h', chainLoop sk ⟨p.links, deg⟩ p.ops cl fuel d loc c = some (d', c') ∧ Refines N d' a' ∧ I h' O a' c' := by
  intro fuel
  induction fuel with
  | zero =>
    intro d a loc g V c hr hi hl hd hf
    exfalso
    cases g with
    | none => simp [need, hd rfl] at hf
    | some q => simp [need] at hf
  | succ fuel ih =>
    intro d a loc g V c hr hi hl hd hf
    cases g with
    | none =>
      have hc := hl.chain
      simp at hc
      refine ⟨d, c, a, loc.hadDegThree, by simp [chainLoop, hc], hr, ?_⟩
      have : pendOf O loc none = O := by funext v b; simp [pendOf, hd rfl]
      rw [this] at hi; exact hi
    | some q =>
      obtain ⟨x, b⟩ := q
      have hc := hl.chain
      simp at hc
      obtain ⟨d1, loc1, c1, a1, g1, V1, h1, h2, h3⟩ := chainBody_ev hp hdeg hE hN hr hi hl
      obtain ⟨d2, c2, a2, h', h4, h5, h6⟩ := ih h2.ref h2.inv h2.loc h3 (by have := h2.need; omega)
      refine ⟨d2, c2, a2, h', ?_, h5, h6⟩
      simp only [chainLoop, hc, h1, Option.bind_eq_bind, Option.bind_some]
      exact h4

theorem relaxEdge_ev (hp : p.OK) (hdeg : DegOK p deg) {cl : Closures σ} {I : Bool → (Nat → α → Prop) → Abs β → σ → Prop}
    (hE : Events p sk deg cl u0 I) {N : Nat} (hN : p.n ≤ N)
    {O : Nat → α → Prop} {d : DData β} {a : Abs β} {b : α} {ls : List α} {c : σ} (hvn : u0 < p.n) (hls : p.links u0 = some ls) (hb : b ∈ ls)
    (hr : Refines N d a) {h : Bool} (hi : I h (fun y e => O y e ∨ (y = u0 ∧ e = b)) a c) (hO : ∀ y e, O y e → y = u0) :
    ∃ d' c' a' h', relaxEdge p.n sk ⟨p.links, deg⟩ p.ops cl u0 (d, c) b = some (d', c') ∧ Refines N d' a' ∧ I h' O a' c' := by
  have hget := hr.get (Nat.lt_of_lt_of_le hvn hN)
  have hv := hE.fin _ _ _ _ hi
  have hi' := hE.reset _ _ _ _ hi (by rintro y e (h | ⟨rfl, _⟩); exact hO y e h; rfl)
  have := chainLoop_ev (O := O) hp hdeg hE hN (2 * p.n + 4) (loc := ⟨some ⟨(u0, p.ops.predLink b), p.ops.head b, p.lf b (a.D u0)⟩, none, false⟩)
    (g := some (u0, b)) (V := []) hr (by
      convert hi' using 2
      rename_i y
      funext e
      simp [pendOf, eq_comm])
    ⟨by simp, by
      intro x e hx
      simp at hx
      obtain ⟨rfl, rfl⟩ := hx
      exact ⟨hvn, hv, ls, hls, hb⟩, by simp, by simp, by simp, by simp, by simp⟩ (by simp) (by simp [need]; omega)
  obtain ⟨d', c', a', h', h1, h2⟩ := this
  refine ⟨d', c', a', h', ?_, h2⟩
  simp only [relaxEdge, hget, follow_spec hp hls hb hv, Option.bind_eq_bind, Option.bind_some]
  exact h1

/-- All arcs of the settled node. -/
theorem fold_ev (hp : p.OK) (hdeg : DegOK p deg) {cl : Closures σ} {I : Bool → (Nat → α → Prop) → Abs β → σ → Prop}
    (hE : Events p sk deg cl u0 I) {N : Nat} (hN : p.n ≤ N)
    {ls : List α} (hvn : u0 < p.n) (hls : p.links u0 = some ls) : ∀ (rest : List α), (∀ e ∈ rest, e ∈ ls) →
    ∀ {d : DData β} {a : Abs β} {c : σ} {h : Bool}, Refines N d a → I h (fun y e => y = u0 ∧ e ∈ rest) a c →
    ∃ d' c' a' h', rest.foldlM (relaxEdge p.n sk ⟨p.links, deg⟩ p.ops cl u0) (d, c) = some (d', c') ∧ Refines N d' a' ∧ I h' (fun _ _ => False) a' c' := by
  intro rest
  induction rest with
  | nil =>
    intro _ d a c h hr hi
    refine ⟨d, c, a, h, rfl, hr, ?_⟩
    simpa using hi
  | cons b rest ih =>
    intro hsub d a c h hr hi
    obtain ⟨d1, c1, a1, h', h1, h2, h3⟩ := relaxEdge_ev (O := fun y e => y = u0 ∧ e ∈ rest) hp hdeg hE hN hvn hls (hsub b (by simp)) hr
      (h := h) (by
        convert hi using 2
        rename_i y
        funext e
        simp only [List.mem_cons]
        by_cases hy : y = u0 <;> simp [hy, or_comm]) (by rintro y e ⟨h, _⟩; exact h)
    obtain ⟨d2, c2, a2, h'', h6, h7, h8⟩ := ih (fun e he => hsub e (by simp [he])) h2 h3
    refine ⟨d2, c2, a2, h'', ?_, h7, h8⟩
    simp only [List.foldlM_cons, h1, Option.bind_eq_bind, Option.bind_some]
    exact h6
end
end Verif.Topo
