import Mathlib.Logic.Relation
import Verif.Model.IntervalMin
import Verif.Proof.Containers
set_option linter.unusedSimpArgs false
set_option linter.unusedVariables false
/- The interval potential never reads the estimate of a node that has none. -/
namespace Verif
namespace IntervalMin
open MinMax

/-- `b` is the parent of `a` -/
def Par (tree : List (Option Nat)) (a b : Nat) : Prop := tree[a]? = some (some b)

def K (l : List (Option (Nat × Nat))) (v : Nat) : Prop := ∃ p, l[v]? = some (some p)

/-- nodes with an estimate have parents with one -/
structure Inv (tree : List (Option Nat)) (v : TSVec (Option (Nat × Nat))) (l : List (Option (Nat × Nat))) : Prop where
  rep : TSVec.Rep v l
  dflt : v.default = none
  closed : ∀ a b, K l a → Par tree a b → K l b

/-- the stack from its top: each node has a parent in `Q`, on the stack above it, or none -/
def SOK (tree : List (Option Nat)) : (Nat → Prop) → List Nat → Prop
  | _, [] => True
  | Q, x :: st => (∀ p, Par tree x p → Q p) ∧ SOK tree (fun y => Q y ∨ y = x) st

theorem SOK.mono {tree : List (Option Nat)} : ∀ {st : List Nat} {Q R : Nat → Prop}, (∀ y, Q y → R y) → SOK tree Q st → SOK tree R st
  | [], _, _, _, _ => trivial
  | x :: st, Q, R, h, hs => ⟨fun p hp => h p (hs.1 p hp), SOK.mono (fun y hy => hy.imp (h y) id) hs.2⟩

theorem climb_ok {d : Data} {v : TSVec (Option (Nat × Nat))} {l : List (Option (Nat × Nat))} (h : Inv d.tree v l) {m : Nat} :
    ∀ (fuel : Nat) (stack st : List Nat) (cur : Nat), SOK d.tree (fun y => K l y ∨ y = cur) stack → climb d v m fuel stack cur = some st → SOK d.tree (K l) st
  | 0, _, _, _, _, hc => nomatch hc
  | fuel + 1, stack, st, cur, hs, hc => by
    simp only [climb, h.rep.get, Option.bind_eq_bind] at hc
    obtain ⟨p, h1, hc⟩ := Option.bind_eq_some_iff.1 hc
    obtain ⟨nx, h2, hc⟩ := Option.bind_eq_some_iff.1 hc
    have goOn : (match nx with | some q => climb d v m fuel (cur :: stack) q | none => some (cur :: stack)) = some st → SOK d.tree (K l) st := by
      intro hc
      cases nx with
      | none =>
        simp only [Option.some.injEq] at hc
        subst hc
        refine ⟨?_, hs⟩
        intro p hp
        unfold Par at hp; rw [h2] at hp; exact nomatch hp
      | some q =>
        refine climb_ok h fuel (cur :: stack) st q ⟨?_, ?_⟩ hc
        · intro p hp
          unfold Par at hp; rw [h2] at hp
          simp only [Option.some.injEq] at hp
          exact .inr hp.symm
        · refine hs.mono ?_
          rintro y (hy | hy)
          · exact .inl (.inl hy)
          · exact .inr hy
    cases p with
    | none => exact goOn (by cases nx <;> simpa using hc)
    | some p =>
      obtain ⟨x, e⟩ := p
      by_cases he : e ≤ m
      · simp only [he, decide_true, if_true, Option.pure_def, Option.some.injEq] at hc
        subst hc
        refine hs.mono ?_
        rintro y (hy | rfl)
        · exact hy
        · exact ⟨_, h1⟩
      · exact goOn (by cases nx <;> simpa [he] using hc)

theorem Inv.up {tree : List (Option Nat)} {v : TSVec (Option (Nat × Nat))} {l : List (Option (Nat × Nat))} (h : Inv tree v l) {x y : Nat}
    (hx : ∀ p, Par tree x p → K l p) (hxy : Relation.TransGen (Par tree) x y) : K l y := by
  induction hxy with
  | single h1 => exact hx _ h1
  | tail _ h1 ih => exact h.closed _ _ ih h1

theorem Inv.store {tree : List (Option Nat)} {v v' : TSVec (Option (Nat × Nat))} {l : List (Option (Nat × Nat))} (h : Inv tree v l) {x : Nat}
    (hx : ∀ p, Par tree x p → K l p) {y : Nat × Nat} (hm : v.modify x (fun _ => some y) = some v') :
    ∃ l', Inv tree v' l' ∧ (∀ z, K l z → K l' z) ∧ K l' x := by
  by_cases hl : x < l.length
  · obtain ⟨w, e1, e2, e3⟩ := TSVec.rep_modify h.rep (fun _ => some y) (List.getElem?_eq_getElem hl)
    rw [hm] at e1
    simp only [Option.some.injEq] at e1
    subst e1
    have mono : ∀ z, K l z → K (l.set x (some y)) z := by
      rintro z ⟨p, hp⟩
      by_cases hz : x = z
      · subst hz; exact ⟨y, by simp [hl]⟩
      · exact ⟨p, by rw [List.getElem?_set_ne hz]; exact hp⟩
    refine ⟨_, ⟨e2, by rw [e3]; exact h.dflt, ?_⟩, mono, ⟨y, by simp [hl]⟩⟩
    rintro a b ⟨p, hp⟩ hab
    by_cases hz : x = a
    · subst hz; exact mono _ (hx _ hab)
    · rw [List.getElem?_set_ne hz] at hp
      exact mono _ (h.closed _ _ ⟨p, hp⟩ hab)
  · have := TSVec.get_oob h.rep hl
    simp [TSVec.modify, this] at hm

/-- heads of upward arcs are ancestors -/
def Upward (d : Data) : Prop := ∀ v a b e h, d.fwFirst[v]? = some a → d.fwFirst[v + 1]? = some b → a ≤ e → e < b → d.fwHead[e]? = some h →
  Relation.TransGen (Par d.tree) v h

theorem arcs_up {d : Data} (hu : Upward d) {v : Nat} {ls : List (Nat × Nat)} (h : arcs d.fwFirst d.fwHead v = some ls) :
    ∀ l ∈ ls, Relation.TransGen (Par d.tree) v l.1 := by
  intro l hl
  simp only [arcs, Option.bind_eq_bind] at h
  obtain ⟨a, h1, h⟩ := Option.bind_eq_some_iff.1 h
  obtain ⟨b, h2, h⟩ := Option.bind_eq_some_iff.1 h
  obtain ⟨hs, h3, h⟩ := Option.bind_eq_some_iff.1 h
  simp only [Option.pure_def, Option.some.injEq] at h
  subst h
  have hm := (List.of_mem_zip (show (l.1, l.2) ∈ _ from hl)).1
  unfold slice at h3
  split at h3
  · simp only [Option.some.injEq] at h3
    subst h3
    obtain ⟨i, hi, hx⟩ := List.mem_iff_getElem.1 hm
    refine hu v a b (a + i) l.1 h1 h2 (by omega) ?_ ?_
    · simp at hi; omega
    · rw [← hx]; simp at hi ⊢; 
  · exact nomatch h3

theorem relaxBucket_eq {d : Data} {v : TSVec (Option (Nat × Nat))} {l : List (Option (Nat × Nat))} (h : Inv d.tree v l) (u u' : Option (Nat × Nat)) (idx : Nat) :
    ∀ (ls : List (Nat × Nat)) (dist : Nat), (∀ x ∈ ls, K l x.1) → relaxBucket d u v ls dist idx = relaxBucket d u' v ls dist idx
  | [], _, _ => rfl
  | x :: ls, dist, hk => by
    obtain ⟨p, hp⟩ := hk x List.mem_cons_self
    have ih := fun dist => relaxBucket_eq h u u' idx ls dist (fun y hy => hk y (List.mem_cons_of_mem _ hy))
    unfold relaxBucket at ih ⊢
    simp only [h.rep.get, Option.bind_eq_bind] at ih
    simp only [List.foldlM_cons, h.rep.get, hp, Option.bind_eq_bind, Option.bind_some, Option.some_or, ih]

theorem popAll_eq {d : Data} (hu : Upward d) (u u' : Option (Nat × Nat)) (m : Nat) : ∀ (st : List Nat) (e : Nat) (s : IState) (l : List (Option (Nat × Nat))),
    Inv d.tree s.pots l → SOK d.tree (K l) st → popAll d u m st e s = popAll d u' m st e s ∧
      ∀ s', popAll d u m st e s = some s' → ∃ l', Inv d.tree s'.pots l'
  | [], e, s, l, h, hs => ⟨by simp only [popAll], by intro s' he; simp only [popAll, Option.some.injEq] at he; subst he; exact ⟨l, h⟩⟩
  | x :: st, e, s, l, h, hs => by
    have next : ∀ (y : Nat × Nat) (w : TSVec (Option (Nat × Nat))) (mm : MinMax.State) (e' : Nat), s.pots.modify x (fun _ => some y) = some w →
        popAll d u m st e' { s with mm := mm, pots := w } = popAll d u' m st e' { s with mm := mm, pots := w } ∧
        ∀ s', popAll d u m st e' { s with mm := mm, pots := w } = some s' → ∃ l', Inv d.tree s'.pots l' := by
      intro y w mm e' hm
      obtain ⟨l', i1, i2, i3⟩ := h.store hs.1 hm
      refine popAll_eq hu u u' m st e' _ l' i1 (hs.2.mono ?_)
      rintro z (hz | rfl)
      · exact i2 z hz
      · exact i3
    simp only [popAll, Option.bind_eq_bind]
    cases hp : MinMax.potential d.mmBw d.tree s.mm x with
    | none => simp
    | some r =>
      obtain ⟨mm, o⟩ := r
      have short : ∀ (y : Nat × Nat) (e' : Nat),
          ((s.pots.modify x fun _ => some y).bind fun w => popAll d u m st e' { s with mm := mm, pots := w }) =
            ((s.pots.modify x fun _ => some y).bind fun w => popAll d u' m st e' { s with mm := mm, pots := w }) ∧
          ∀ s', ((s.pots.modify x fun _ => some y).bind fun w => popAll d u m st e' { s with mm := mm, pots := w }) = some s' → ∃ l', Inv d.tree s'.pots l' := by
        intro y e'
        cases hm : s.pots.modify x fun _ => some y with
        | none => simp
        | some w => simpa using next y w mm e' hm
      simp only [Option.bind_some]
      cases o with
      | none => exact short _ _
      | some lu =>
        obtain ⟨lo, up⟩ := lu
        simp only
        split
        · cases hc : s.pots.get x with
          | none => simp
          | some cur =>
            cases hb : s.back.get x with
            | none => simp
            | some b =>
              cases ha : add32 s.departure lo with
              | none => simp
              | some a1 =>
                cases ha2 : add32 s.departure (min up s.globalUpper) with
                | none => simp
                | some a2 =>
                  cases hls : arcs d.fwFirst d.fwHead x with
                  | none => simp
                  | some ls =>
                    simp only [Option.bind_some]
                    have hr : (relaxBucket d u s.pots ls) = (relaxBucket d u' s.pots ls) := by
                      funext dist idx
                      exact relaxBucket_eq h u u' idx ls dist (fun y hy => h.up hs.1 (arcs_up hu hls y hy))
                    rw [hr]
                    generalize List.foldlM (relaxBucket d u' s.pots ls) _ _ = F
                    cases F with
                    | none => simp
                    | some dist => simp only [Option.bind_some]; exact short _ _
        · exact short _ _

theorem potential_eq {d : Data} (hu : Upward d) (u u' : Option (Nat × Nat)) {s : IState} {l : List (Option (Nat × Nat))} (h : Inv d.tree s.pots l) (x t : Nat) :
    potential d u s x t = potential d u' s x t ∧ ∀ r, potential d u s x t = some r → ∃ l', Inv d.tree r.1.pots l' := by
  simp only [potential, Option.bind_eq_bind]
  cases hc : climb d s.pots (bucket d t) (d.tree.length + 1) [] x with
  | none => simp
  | some st =>
    have := popAll_eq hu u u' (bucket d t) st (bucket d s.departure) s l h (climb_ok h _ [] _ _ trivial hc)
    simp only [Option.bind_some, ← this.1, true_and]
    intro r hr
    obtain ⟨s', h1, hr⟩ := Option.bind_eq_some_iff.1 hr
    obtain ⟨p, h2, hr⟩ := Option.bind_eq_some_iff.1 hr
    obtain ⟨q, h3, hr⟩ := Option.bind_eq_some_iff.1 hr
    simp only [Option.pure_def, Option.some.injEq] at hr
    subst hr
    exact this.2 s' h1

theorem asks_eq {d : Data} (hu : Upward d) (u u' : Option (Nat × Nat)) : ∀ (qs : List (Nat × Nat)) {s : IState} {l : List (Option (Nat × Nat))}, Inv d.tree s.pots l →
    asks d u s qs = asks d u' s qs ∧ ∀ r, asks d u s qs = some r → ∃ l', Inv d.tree r.1.pots l'
  | [], s, l, h => ⟨by simp only [asks], by intro r hr; simp only [asks, Option.some.injEq] at hr; subst hr; exact ⟨l, h⟩⟩
  | (x, t) :: qs, s, l, h => by
    obtain ⟨e1, e2⟩ := potential_eq hu u u' h x t
    simp only [asks, Option.bind_eq_bind, ← e1]
    cases hp : potential d u s x t with
    | none => simp
    | some r =>
      obtain ⟨l', hl'⟩ := e2 r hp
      obtain ⟨f1, f2⟩ := asks_eq hu u u' qs hl'
      simp only [Option.bind_some, ← f1, true_and]
      intro r' hr
      obtain ⟨s', h1, hr⟩ := Option.bind_eq_some_iff.1 hr
      simp only [Option.pure_def, Option.some.injEq] at hr
      subst hr
      exact f2 s' h1

theorem relaxBack_pots {d : Data} {c : Nat} {s s' : IState} {x : Nat × Nat} (h : relaxBack d c s x = some s') : s'.pots = s.pots := by
  simp only [relaxBack, Option.bind_eq_bind] at h
  obtain ⟨⟨mm, o⟩, _, h⟩ := Option.bind_eq_some_iff.1 h
  cases o with
  | none => simp only [Option.pure_def, Option.some.injEq] at h; subst h; rfl
  | some lu =>
    simp only at h
    split at h
    · obtain ⟨_, _, h⟩ := Option.bind_eq_some_iff.1 h
      obtain ⟨_, _, h⟩ := Option.bind_eq_some_iff.1 h
      obtain ⟨_, _, h⟩ := Option.bind_eq_some_iff.1 h
      obtain ⟨_, _, h⟩ := Option.bind_eq_some_iff.1 h
      obtain ⟨_, _, h⟩ := Option.bind_eq_some_iff.1 h
      obtain ⟨_, _, h⟩ := Option.bind_eq_some_iff.1 h
      obtain ⟨_, _, h⟩ := Option.bind_eq_some_iff.1 h
      simp only [Option.pure_def, Option.some.injEq] at h; subst h; rfl
    · simp only [Option.pure_def, Option.some.injEq] at h; subst h; rfl

theorem fold_pots {d : Data} {c : Nat} : ∀ {ls : List (Nat × Nat)} {s s' : IState}, ls.foldlM (relaxBack d c) s = some s' → s'.pots = s.pots
  | [], s, s', h => by simp only [List.foldlM_nil, Option.pure_def, Option.some.injEq] at h; subst h; rfl
  | x :: ls, s, s', h => by
    simp only [List.foldlM_cons, Option.bind_eq_bind] at h
    obtain ⟨s1, h1, h⟩ := Option.bind_eq_some_iff.1 h
    rw [fold_pots h, relaxBack_pots h1]

theorem walkBack_pots {d : Data} : ∀ {fuel : Nat} {s s' : IState} {nx : Option Nat}, walkBack d fuel s nx = some s' → s'.pots = s.pots
  | fuel, s, s', none, h => by cases fuel <;> (simp only [walkBack, Option.some.injEq] at h; subst h; rfl)
  | 0, _, _, some _, h => nomatch h
  | fuel + 1, s, s', some c, h => by
    simp only [walkBack, Option.bind_eq_bind] at h
    obtain ⟨⟨mm, o⟩, _, h⟩ := Option.bind_eq_some_iff.1 h
    obtain ⟨_, _, h⟩ := Option.bind_eq_some_iff.1 h
    obtain ⟨_, _, h⟩ := Option.bind_eq_some_iff.1 h
    obtain ⟨_, _, h⟩ := Option.bind_eq_some_iff.1 h
    obtain ⟨_, _, h⟩ := Option.bind_eq_some_iff.1 h
    split at h
    · obtain ⟨s1, h1, h⟩ := Option.bind_eq_some_iff.1 h
      rw [walkBack_pots h, fold_pots h1]
    · rw [walkBack_pots h]

theorem init_inv {d : Data} {s s' : IState} {l : List (Option (Nat × Nat))} (h : Inv d.tree s.pots l) {a b c : Nat} (hi : init d s a b c = some s') :
    ∃ l', Inv d.tree s'.pots l' := by
  simp only [init, Option.bind_eq_bind] at hi
  obtain ⟨_, _, hi⟩ := Option.bind_eq_some_iff.1 hi
  obtain ⟨_, _, hi⟩ := Option.bind_eq_some_iff.1 hi
  obtain ⟨_, _, hi⟩ := Option.bind_eq_some_iff.1 hi
  have hw := walkBack_pots hi
  have hd : s.pots.reset.default = none := by simp only [TSVec.reset]; exact h.dflt
  have hr := TSVec.rep_reset h.rep
  simp only at hw
  rw [← hw] at hd hr
  refine ⟨_, hr, hd, ?_⟩
  rintro x y ⟨p, hp⟩ _
  rw [h.dflt, List.getElem?_replicate] at hp
  split at hp <;> simp at hp

theorem sessions_eq {d : Data} (hu : Upward d) (u u' : Option (Nat × Nat)) : ∀ (qs : List ((Nat × Nat × Nat) × List (Nat × Nat))) {s : IState}
    {l : List (Option (Nat × Nat))}, Inv d.tree s.pots l → sessions d u s qs = sessions d u' s qs
  | [], s, l, h => by simp only [sessions]
  | ((a, b, c), qs) :: rest, s, l, h => by
    simp only [sessions, Option.bind_eq_bind]
    cases hi : init d s a b c with
    | none => rw [Option.bind_none, Option.bind_none]
    | some s1 =>
      obtain ⟨l1, i1⟩ := init_inv h hi
      obtain ⟨e1, e2⟩ := asks_eq hu u u' qs i1
      simp only [Option.bind_some, ← e1]
      cases ha : asks d u s1 qs with
      | none => rw [Option.bind_none, Option.bind_none]
      | some r =>
        obtain ⟨l2, i2⟩ := e2 r ha
        simp only [Option.bind_some, sessions_eq hu u u' rest i2]

theorem inv_new {tree : List (Option Nat)} {n : Nat} : Inv tree (IState.new n).pots (List.replicate n none) := by
  refine ⟨TSVec.rep_new none n, rfl, ?_⟩
  rintro x y ⟨p, hp⟩ _
  rw [List.getElem?_replicate] at hp
  split at hp <;> simp at hp

end IntervalMin
end Verif
