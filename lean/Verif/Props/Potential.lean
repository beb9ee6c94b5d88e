import Verif.Model.Potential
import Verif.Props.TailMapper
import Verif.Props.Alt
set_option linter.unusedSimpArgs false
set_option linter.unusedVariables false
/- Property C52: wrappers of potentials, renaming of queries. -/
namespace Verif
open Spec DData

/-- For every history of calls with ids below `n` that begins with setting a target, no call fails, and every answer to the question
for node `v` while target `t` is set is related to them by `R`. -/
def Implements {σ : Type} (P : Potential σ) (n : Nat) (s0 : σ) (R : Nat → Nat → Option Nat → Prop) : Prop :=
  ∀ t cs, t < n → (∀ c ∈ cs, PotCall.node c < n) → ∃ outs s, P.run s0 (.init t :: cs) = some (outs, s) ∧
    List.Forall₂ (fun q o => R q.1 q.2 o) (asked t cs) outs

/-- a renaming of the nodes in front of a potential -/
private theorem renamed {σ : Type} {P Q : Potential σ} {n n' : Nat} {f : Nat → Nat} (hf : ∀ v, v < n → f v < n')
    (hi : ∀ s t, t < n → Q.init s t = P.init s (f t)) (hg : ∀ s v, v < n → Q.get s v = P.get s (f v)) {s0 : σ}
    {R : Nat → Nat → Option Nat → Prop} (h : Implements P n' s0 R) : Implements Q n s0 (fun t v o => R (f t) (f v) o) := by
  let g : PotCall → PotCall := fun c => match c with
    | .init t => .init (f t)
    | .get v => .get (f v)
  have hrun : ∀ (cs : List PotCall) (s : σ), (∀ c ∈ cs, PotCall.node c < n) → Q.run s cs = P.run s (cs.map g) := by
    intro cs
    induction cs with
    | nil => intro s _; rfl
    | cons c cs ih =>
      intro s hc
      have hc0 := hc c (by simp)
      have ih' := fun s => ih s (fun c' h' => hc c' (by simp [h']))
      cases c with
      | init t => simp only [List.map_cons, Potential.run, g, hi s t hc0, ih']
      | get v => simp only [List.map_cons, Potential.run, g, hg s v hc0, ih']
  have hask : ∀ (cs : List PotCall) (t : Nat), asked (f t) (cs.map g) = (asked t cs).map (fun q => (f q.1, f q.2)) := by
    intro cs
    induction cs with
    | nil => intro t; rfl
    | cons c cs ih =>
      intro t
      cases c with
      | init t' => simp only [List.map_cons, g, asked, ih]
      | get v => simp only [List.map_cons, g, asked, ih]
  intro t cs ht hcs
  obtain ⟨outs, s, h1, h2⟩ := h (f t) (cs.map g) (hf t ht) (by
    intro c hc
    obtain ⟨c', hc', rfl⟩ := List.mem_map.1 hc
    have := hf _ (hcs c' hc')
    cases c' <;> exact this)
  refine ⟨outs, s, ?_, ?_⟩
  · rw [hrun _ _ (by intro c hc; rcases List.mem_cons.1 hc with rfl | hc; exact ht; exact hcs c hc)]; exact h1
  · rw [hask, List.forall₂_map_left_iff] at h2; exact h2

/-- **C52**, `PotentialForPermutated`: it answers for a rank what the wrapped potential answers for the node of that rank. -/
theorem C52_permutated {σ : Type} (P : Potential σ) (s0 : σ) (R : Nat → Nat → Option Nat → Prop)
    (xs : List Nat) (o : NodeOrder) (ho : NodeOrder.fromNodeOrder xs = some o) (h : Implements P xs.length s0 R) :
    Implements (permutatedPot P o) xs.length s0 (fun r r' x => ∃ t v, o.node r = some t ∧ o.node r' = some v ∧ R t v x) := by
  have hok := NodeOrder.ok_of_fromNodeOrder ho
  have hn : ∀ r, r < xs.length → o.node r = some (o.nodeOrder.getD r 0) ∧ o.nodeOrder.getD r 0 < xs.length := by
    intro r hr
    obtain ⟨v, hv, h1, _⟩ := hok.node_lt hr
    have : o.nodeOrder[r]? = some v := h1
    simp [NodeOrder.node, List.getD_eq_getElem?_getD, this, hv]
  have := renamed (Q := permutatedPot P o) (f := fun r => o.nodeOrder.getD r 0) (fun r hr => (hn r hr).2)
    (fun s t ht => by simp [permutatedPot, (hn t ht).1]) (fun s v hv => by simp [permutatedPot, (hn v hv).1]) h
  intro t cs ht hcs
  obtain ⟨outs, s, h1, h2⟩ := this t cs ht hcs
  refine ⟨outs, s, h1, ?_⟩
  have hq : ∀ (cs : List PotCall) (t : Nat), t < xs.length → (∀ c ∈ cs, PotCall.node c < xs.length) → ∀ q ∈ asked t cs, q.1 < xs.length ∧ q.2 < xs.length := by
    intro cs
    induction cs with
    | nil => intro t _ _ q hq; simp [asked] at hq
    | cons c cs ih =>
      intro t ht hc q hq
      have hc0 := hc c (by simp)
      have hc' : ∀ c ∈ cs, PotCall.node c < xs.length := fun c' h' => hc c' (by simp [h'])
      cases c with
      | init t' => exact ih t' hc0 hc' q hq
      | get v =>
        simp only [asked, List.mem_cons] at hq
        rcases hq with rfl | hq
        · exact ⟨ht, hc0⟩
        · exact ih t ht hc' q hq
  have hall := hq cs t ht hcs
  clear h1 this hq
  generalize asked t cs = qs at h2 hall
  induction h2 with
  | nil => exact .nil
  | @cons q x qs outs hx _ ih =>
    refine .cons ?_ (ih (fun q' h' => hall q' (by simp [h'])))
    have := hall q (by simp)
    exact ⟨_, _, (hn _ this.1).1, (hn _ this.2).1, hx⟩

/-- **C52**, `RecyclingPotential`: for every history it gives the answers (and leaves the wrapped potential in the state) of the
history without the repeated calls of `init`, so the same answers as the wrapped potential. -/
theorem C52_recycling {σ : Type} (P : Potential σ) (s0 : σ) :
    (∀ t cs, (Option.map (fun r => (r.1, r.2.1)) ((recyclingPot P).run (s0, none) (.init t :: cs))) = P.run s0 (.init t :: withoutRepeats t cs)) ∧
    ∀ n R, Implements P n s0 R → Implements (recyclingPot P) n (s0, none) R := by
  have key : ∀ (cs : List PotCall) (t : Nat) (s : σ),
      (Option.map (fun r => (r.1, r.2.1)) ((recyclingPot P).run (s, some t) cs)) = P.run s (withoutRepeats t cs) := by
    intro cs
    induction cs with
    | nil => intro t s; rfl
    | cons c cs ih =>
      intro t s
      cases c with
      | init t' =>
        by_cases he : t' = t
        · subst he
          simp only [Potential.run, recyclingPot, withoutRepeats, if_true, ne_eq, not_true, if_false, Option.bind_eq_bind, Option.bind_some]
          exact ih t' s
        · have he' : ¬ some t = some t' := by simp; exact fun h => he h.symm
          simp only [Potential.run, recyclingPot, withoutRepeats, he, if_false, ne_eq, he', not_false_iff, if_true, Option.bind_eq_bind, Option.pure_def]
          cases h : P.init s t' with
          | none => rfl
          | some s' => simp only [Option.bind_some]; exact ih t' s'
      | get v =>
        cases h : P.get s v with
        | none =>
          have e : (recyclingPot P).get (s, some t) v = none := by simp [recyclingPot, h]
          simp only [Potential.run, withoutRepeats, e, h, Option.bind_eq_bind, Option.bind_none, Option.map_none]
        | some r =>
          obtain ⟨s', o⟩ := r
          have e : (recyclingPot P).get (s, some t) v = some ((s', some t), o) := by simp [recyclingPot, h]
          simp only [Potential.run, withoutRepeats, e, h, Option.bind_eq_bind, Option.bind_some, Option.pure_def]
          rw [← ih t s']
          cases h' : (recyclingPot P).run (s', some t) cs with
          | none => rfl
          | some r => rfl
  have first : ∀ t cs, (Option.map (fun r => (r.1, r.2.1)) ((recyclingPot P).run (s0, none) (.init t :: cs))) =
      P.run s0 (.init t :: withoutRepeats t cs) := by
    intro t cs
    simp only [Potential.run, recyclingPot, ne_eq, reduceCtorEq, not_false_iff, if_true, Option.bind_eq_bind, Option.pure_def]
    cases h : P.init s0 t with
    | none => rfl
    | some s' => simp only [Option.bind_some]; exact key cs t s'
  refine ⟨first, ?_⟩
  intro n R h t cs ht hcs
  have hsub : ∀ (cs : List PotCall) (t : Nat), ∀ c ∈ withoutRepeats t cs, c ∈ cs := by
    intro cs
    induction cs with
    | nil => intro t c hc; simp [withoutRepeats] at hc
    | cons c cs ih =>
      intro t c' hc'
      cases c with
      | init t' =>
        simp only [withoutRepeats] at hc'
        split at hc'
        · exact List.mem_cons_of_mem _ (ih t c' hc')
        · rcases List.mem_cons.1 hc' with rfl | hc'
          · simp
          · exact List.mem_cons_of_mem _ (ih t' c' hc')
      | get v =>
        simp only [withoutRepeats] at hc'
        rcases List.mem_cons.1 hc' with rfl | hc'
        · simp
        · exact List.mem_cons_of_mem _ (ih t c' hc')
  have hask : ∀ (cs : List PotCall) (t : Nat), asked t (withoutRepeats t cs) = asked t cs := by
    intro cs
    induction cs with
    | nil => intro t; rfl
    | cons c cs ih =>
      intro t
      cases c with
      | init t' =>
        simp only [withoutRepeats, asked]
        split
        · rename_i he; subst he; exact ih t'
        · simp only [asked]; exact ih t'
      | get v => simp only [withoutRepeats, asked, ih]
  obtain ⟨outs, s, h1, h2⟩ := h t (withoutRepeats t cs) ht (fun c hc => hcs c (hsub cs t c hc))
  rw [hask] at h2
  rw [← first t cs] at h1
  cases hr : (recyclingPot P).run (s0, none) (.init t :: cs) with
  | none => rw [hr] at h1; simp at h1
  | some r =>
    rw [hr] at h1; simp at h1
    exact ⟨outs, r.2, by rw [← h1.1], h2⟩

private theorem turnTails_spec {g : FOGraph} (hg : g.WF) : ∃ tail, turnTails g = some tail ∧ ∀ e, e < g.numArcs → ∃ v, tail[e]? = some v ∧ v < g.numNodes ∧ g.HasTail e v := by
  have hdeg : (List.range g.numNodes).mapM g.degree = some ((List.range g.numNodes).map (fun v => Tail.fo g (v + 1) - Tail.fo g v)) :=
    mapM_some (fun v hv => Tail.degree_eq hg (List.mem_range.1 hv))
  let T : Nat → List Nat := fun k => ((List.range k).map (fun v => List.replicate (Tail.fo g (v + 1) - Tail.fo g v) v)).flatten
  have hT : ∀ k ≤ g.numNodes, (T k).length = Tail.fo g k ∧ ∀ e, e < Tail.fo g k → ∃ v, v < k ∧ (T k)[e]? = some v ∧ Tail.fo g v ≤ e ∧ e < Tail.fo g (v + 1) := by
    intro k
    induction k with
    | zero => intro _; rw [Tail.fo_zero hg]; exact ⟨rfl, fun e h => by omega⟩
    | succ k ih =>
      intro hk
      obtain ⟨h1, h2⟩ := ih (by omega)
      have hm := Tail.fo_mono hg (show k ≤ k + 1 by omega) hk
      have hs : T (k + 1) = T k ++ List.replicate (Tail.fo g (k + 1) - Tail.fo g k) k := by simp [T, List.range_succ]
      rw [hs]
      refine ⟨by simp [h1]; omega, ?_⟩
      intro e he
      by_cases hlt : e < Tail.fo g k
      · obtain ⟨v, a, b, c, d⟩ := h2 e hlt
        exact ⟨v, by omega, by rw [List.getElem?_append_left (by omega)]; exact b, c, d⟩
      · exact ⟨k, by omega, by rw [List.getElem?_append_right (by omega), List.getElem?_replicate, if_pos (by omega)], by omega, he⟩
  refine ⟨T g.numNodes, ?_, ?_⟩
  · simp only [turnTails, hdeg, Option.bind_eq_bind, Option.bind_some, Option.pure_def, T]
    congr 2
    rw [List.zipWith_map_left]
    induction List.range g.numNodes with
    | nil => rfl
    | cons x l ih => simp [ih]
  · intro e he
    obtain ⟨v, a, b, c, d⟩ := (hT _ (Nat.le_refl _)).2 e (by rw [Tail.fo_last hg]; exact he)
    have h1 : g.neighborEdgeIndices v = some ((List.range (Tail.fo g (v + 1) - Tail.fo g v)).map (· + Tail.fo g v)) := by
      simp only [FOGraph.neighborEdgeIndices, FOGraph.range, Tail.fo_get hg (show v ≤ _ by omega), Tail.fo_get hg (show v + 1 ≤ _ by omega),
        Option.bind_eq_bind, Option.bind_some, Option.pure_def]
    exact ⟨v, b, a, _, h1, (Tail.mem_edges hg h1).2 ⟨a, c, d⟩⟩

private theorem asked_ok {n : Nat} : ∀ (cs : List PotCall) (t : Nat), t < n → (∀ c ∈ cs, PotCall.node c < n) → ∀ q ∈ asked t cs, q.1 < n ∧ q.2 < n := by
  intro cs
  induction cs with
  | nil => intro t _ _ q hq; simp [asked] at hq
  | cons c cs ih =>
    intro t ht hc q hq
    have hc0 := hc c (by simp)
    have hc' : ∀ c ∈ cs, PotCall.node c < n := fun c' h' => hc c' (by simp [h'])
    cases c with
    | init t' => exact ih t' hc0 hc' q hq
    | get v =>
      simp only [asked, List.mem_cons] at hq
      rcases hq with rfl | hq
      · exact ⟨ht, hc0⟩
      · exact ih t ht hc' q hq

private theorem Implements.imp {σ : Type} {P : Potential σ} {n : Nat} {s0 : σ} {R R' : Nat → Nat → Option Nat → Prop} (h : Implements P n s0 R)
    (himp : ∀ t v o, t < n → v < n → R t v o → R' t v o) : Implements P n s0 R' := by
  intro t cs ht hcs
  obtain ⟨outs, s, h1, h2⟩ := h t cs ht hcs
  refine ⟨outs, s, h1, ?_⟩
  have hall := asked_ok cs t ht hcs
  clear h1
  generalize asked t cs = qs at h2 hall
  induction h2 with
  | nil => exact .nil
  | @cons q x qs outs hx _ ih =>
    exact .cons (himp _ _ _ (hall q (by simp)).1 (hall q (by simp)).2 hx) (ih (fun q' h' => hall q' (by simp [h'])))

/-- **C52**, `TurnExpandedPotential`: it answers for an arc what the wrapped potential answers for its tail. -/
theorem C52_turn_expanded {σ : Type} (P : Potential σ) (s0 : σ) (R : Nat → Nat → Option Nat → Prop) (g : FOGraph) (hg : g.WF)
    (h : Implements P g.numNodes s0 R) : ∃ tail, turnTails g = some tail ∧
      Implements (turnPot P tail) g.numArcs s0 (fun e f x => ∃ u v, g.HasTail e u ∧ g.HasTail f v ∧ R u v x) := by
  obtain ⟨tail, h1, h2⟩ := turnTails_spec hg
  refine ⟨tail, h1, ?_⟩
  have hn : ∀ e, e < g.numArcs → tail[e]? = some (tail.getD e 0) ∧ tail.getD e 0 < g.numNodes ∧ g.HasTail e (tail.getD e 0) := by
    intro e he
    obtain ⟨v, a, b, c⟩ := h2 e he
    simp only [List.getD_eq_getElem?_getD, a, Option.getD_some]
    exact ⟨trivial, b, c⟩
  have := renamed (Q := turnPot P tail) (f := fun e => tail.getD e 0) (fun e he => (hn e he).2.1)
    (fun s t ht => by simp only [turnPot]; rw [(hn t ht).1]; rfl) (fun s v hv => by simp only [turnPot]; rw [(hn v hv).1]; rfl) h
  exact this.imp (fun t v o ht hv hr => ⟨_, _, (hn t ht).2.2, (hn v hv).2.2, hr⟩)

private theorem rev_walk' {A B : Nat → Nat → Nat → Prop} (h : ∀ u v w, B v u w ↔ A u v w) {s t d : Nat} (hw : Walk B t s d) : Walk A s t d := by
  induction hw with
  | nil => exact .nil _
  | cons ha _ ih => rw [Nat.add_comm]; exact ih.snoc ((h _ _ _).1 ha)

/-- **C52**, `BaselinePotential`: on one object, for every history, it answers with the exact distance to the target. -/
theorem C52_baseline (g : FOGraph) (hg : g.WF) (hw : g.Bounded) : ∃ r d, baselineNew g = some (r, d) ∧
    Implements (baselinePot r) g.numNodes d (fun t v x => Answer g.Arc v t x) := by
  obtain ⟨r, h1, h2, h3, h4, h5⟩ := GraphOps.reversed_spec hg
  have hrev : ∀ u v w, r.Arc v u w ↔ g.Arc u v w := by
    intro u v w
    have harc : ∀ (g : FOGraph) u v w, g.Arc u v w ↔ 0 < GraphOps.linkCount g.linkIter u v w := by
      intro g u v w
      unfold FOGraph.Arc GraphOps.linkCount
      rw [List.count_pos_iff]
      cases g.linkIter u <;> simp
    rw [harc, harc, h5]
  have hwr : r.Bounded := by
    intro w hw'
    obtain ⟨u, ls, l, e1, e2, e3⟩ := h2.weight_link hw'
    obtain ⟨ls', g1, g2⟩ := (hrev l.node u l.weight).1 ⟨ls, e1, e2⟩
    rw [← e3]
    have := hg.mem_weights g1 g2
    exact hw _ this
  have hp := staticProb_ok (h2.linksOK hwr) (zero_feasible _)
  refine ⟨r, DData.new g.numNodes (), by simp [baselineNew, h1], ?_⟩
  -- the answers of a state
  have hget : ∀ (t : Nat) (d : DData Unit) (a : Abs Unit) (S : List Nat) (res : Option Nat),
      Done (staticProb r.numNodes r.linkIter (fun _ => 0)) t 0 r.numNodes (fun (_ : Unit) _ => True) res d () a S →
      ∀ v, v < g.numNodes → ∃ x, (baselinePot r).get d v = some (d, x) ∧ Answer g.Arc v t x := by
    intro t d a S res hd v hv
    rw [← h3] at hv
    have hnS : r.numNodes ∉ S := fun h => Nat.lt_irrefl _ (hd.inv.sett _ h).1
    rcases hd.res with ⟨h6, _⟩ | ⟨_, _, h6⟩
    · exact absurd h6 hnS
    refine ⟨if a.D v < INFINITY then some (a.D v) else none, ?_, ?_⟩
    · simp [baselinePot, hd.refines.get hv]
    · have hE : Answer r.Arc t v (if a.D v < INFINITY then some (a.D v) else none) := by
        have := one_to_all_answer h2 hwr hd hv
        exact this
      intro y
      rw [hE y]
      unfold IsDist
      have hw : ∀ d, Walk r.Arc t v d ↔ Walk g.Arc v t d := fun d => ⟨rev_walk' hrev, rev_walk' (fun u v w => (hrev v u w).symm)⟩
      simp only [hw]
  have hinit : ∀ (d : DData Unit) (a : Abs Unit) (t : Nat), Refines r.numNodes d a → t < g.numNodes → ∃ d' a' S res, (baselinePot r).init d t = some d' ∧
      Done (staticProb r.numNodes r.linkIter (fun _ => 0)) t 0 r.numNodes (fun (_ : Unit) _ => True) res d' () a' S := by
    intro d a t hr ht
    rw [← h3] at ht
    obtain ⟨res, d', c, a', S, e1, e2⟩ := search_spec (t := r.numNodes) (τ := 0) (c := ()) hp plainCb_ok hr ht (by simp [INFINITY]) trivial
    refine ⟨d', a', S, res, ?_, e2⟩
    simp only [staticProb] at e1
    cases h : d.init t 0 with
    | none => rw [h] at e1; simp at e1
    | some d1 =>
      rw [h] at e1; simp at e1
      simp [baselinePot, h, e1]
  have hrun : ∀ (cs : List PotCall) (t : Nat) (d : DData Unit) (a : Abs Unit) (S : List Nat) (res : Option Nat),
      Done (staticProb r.numNodes r.linkIter (fun _ => 0)) t 0 r.numNodes (fun (_ : Unit) _ => True) res d () a S →
      (∀ c ∈ cs, PotCall.node c < g.numNodes) → ∃ outs d', (baselinePot r).run d cs = some (outs, d') ∧
      List.Forall₂ (fun q o => Answer g.Arc q.2 q.1 o) (asked t cs) outs := by
    intro cs
    induction cs with
    | nil => intro t d a S res _ _; exact ⟨[], d, rfl, .nil⟩
    | cons c cs ih =>
      intro t d a S res hd hc
      have hc0 := hc c (by simp)
      have hc' : ∀ c ∈ cs, PotCall.node c < g.numNodes := fun c' h' => hc c' (by simp [h'])
      cases c with
      | init t' =>
        obtain ⟨d', a', S', res', e1, e2⟩ := hinit d a t' hd.refines hc0
        obtain ⟨outs, d2, e3, e4⟩ := ih t' d' a' S' res' e2 hc'
        exact ⟨outs, d2, by simp [Potential.run, e1, e3], e4⟩
      | get v =>
        obtain ⟨x, e1, e2⟩ := hget t d a S res hd v hc0
        obtain ⟨outs, d2, e3, e4⟩ := ih t d a S res hd hc'
        exact ⟨x :: outs, d2, by simp [Potential.run, e1, e3], .cons e2 e4⟩
  intro t cs ht hcs
  obtain ⟨d', a', S', res', e1, e2⟩ := hinit (DData.new g.numNodes ()) _ t (by rw [← h3]; exact refines_new r.numNodes ()) ht
  obtain ⟨outs, d2, e3, e4⟩ := hrun cs t d' a' S' res' e2 hcs
  exact ⟨outs, d2, by simp [Potential.run, e1, e3], e4⟩

/-- **C52**, permuting a query: the permuted query on the permuted graph has the answer of the original one. -/
theorem C52_query_permutate (srt : (Link → Nat) → List Link → List Link) (hs : SortOK srt) (g : FOGraph) (hg : g.WF)
    (xs : List Nat) (o : NodeOrder) (hx : xs.length = g.numNodes) (ho : NodeOrder.fromNodeOrder xs = some o)
    (q : Query) (h1 : q.source < g.numNodes) (h2 : q.target < g.numNodes) :
    ∃ p q', GraphOps.permutated srt o g.linkIter = some p ∧ q.permutate o = some q' ∧
      ∀ x, Answer p.Arc q'.source q'.target x ↔ Answer g.Arc q.source q.target x := by
  obtain ⟨p, e1, e2⟩ := C15_distances srt hs g hg xs o hx ho
  have hok : o.OK g.numNodes := hx ▸ NodeOrder.ok_of_fromNodeOrder ho
  obtain ⟨r, _, hr, _⟩ := hok.rank_lt h1
  obtain ⟨r', _, hr', _⟩ := hok.rank_lt h2
  refine ⟨p, ⟨r, r'⟩, e1, by simp [Query.permutate, hr, hr'], ?_⟩
  intro x
  unfold Answer
  simp only [e2 _ _ _ _ _ hr hr']

example : (baselineNew exGraph).bind (fun p => ((recyclingPot (baselinePot p.1)).run (p.2, none)
    [.init 3, .get 0, .get 4, .init 3, .get 1, .init 0, .get 1]).map Prod.fst) = some [some 8, none, some 5, none] := by decide +kernel
example : turnTails gapGraph = some [1, 1, 4] := by decide +kernel
example : Implements (permutatedPot zeroPotential (NodeOrder.identity 3)) 3 () (fun _ _ x => x = some 0) := by
  intro t cs ht hcs
  have hnode : ∀ v, v < 3 → (NodeOrder.identity 3).node v = some v := by
    intro v hv
    show (List.range 3)[v]? = some v
    rw [List.getElem?_range hv]
  have : ∀ (cs : List PotCall) (t : Nat), (∀ c ∈ cs, PotCall.node c < 3) → ∃ outs s, (permutatedPot zeroPotential (NodeOrder.identity 3)).run () cs = some (outs, s) ∧
      List.Forall₂ (fun q o => o = some 0) (asked t cs) outs := by
    intro cs
    induction cs with
    | nil => intro t _; exact ⟨[], (), rfl, .nil⟩
    | cons c cs ih =>
      intro t hc
      have hc0 := hc c (by simp)
      cases c with
      | init t' =>
        obtain ⟨outs, s, h1, h2⟩ := ih t' (fun c' h' => hc c' (by simp [h']))
        exact ⟨outs, s, by simp [Potential.run, permutatedPot, zeroPotential, hnode t' hc0] at h1 ⊢; exact h1, h2⟩
      | get v =>
        obtain ⟨outs, s, h1, h2⟩ := ih t (fun c' h' => hc c' (by simp [h']))
        refine ⟨some 0 :: outs, s, ?_, .cons rfl h2⟩
        simp [permutatedPot, zeroPotential] at h1
        simp [Potential.run, permutatedPot, zeroPotential, hnode v hc0, h1]
  exact this (.init t :: cs) t (by intro c hc; rcases List.mem_cons.1 hc with rfl | hc; exact ht; exact hcs c hc)

end Verif
