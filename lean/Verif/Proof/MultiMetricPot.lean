import Verif.Proof.MultiMetricAbs
set_option linter.unusedSimpArgs false
set_option linter.unusedVariables false
/- The search from the target and the evaluation of the potential. -/
namespace Verif
namespace MultiMetric
open Spec CCH GraphOps FOGraph

variable {n : Nat} {tree : List (Option Nat)}

theorem tree_get (ht : TreeOK n tree) {p : Nat} (hp : p < n) : tree[p]? = some (par tree p) := by
  have : p < tree.length := by rw [ht.len]; exact hp
  simp [par, List.getElem?_eq_getElem this]

/-! ### the search from the target -/

theorem relax_spec {g : FOGraph} (hg : DirOK n tree g) {p d : Nat} (hd : d ≤ INFINITY) : ∀ (ls : List (Link × Nat)), (∀ l ∈ ls, g.Arc p l.1.node l.1.weight) →
    ∀ (v : TSVec Nat) (f : Nat → Nat), TRep n INFINITY v f →
      ∃ v' f', ls.foldlM (tsRelax d) v = some v' ∧ TRep n INFINITY v' f' ∧ (∀ x, f' x ≤ f x) ∧
        (∀ x, f' x ≠ f x → ∃ w, g.Arc p x w) ∧ (∀ l ∈ ls, f' l.1.node ≤ d + l.1.weight) := by
  intro ls
  induction ls with
  | nil => intro _ v f hv; exact ⟨v, f, rfl, hv, fun x => Nat.le_refl _, fun x h => absurd rfl h, by simp⟩
  | cons l ls ih =>
    intro hl v f hv
    have ha := hl l (by simp)
    have hw := hg.bound ha
    have hn : l.1.node < n := by have := (FOGraph.WF.arc_lt hg.wf ha).2; rw [hg.nn] at this; exact this
    have h1 : add32 d l.1.weight = some (d + l.1.weight) := add32_of_lt (by unfold INFINITY at *; unfold U32; omega)
    by_cases hlt : d + l.1.weight < f l.1.node
    · obtain ⟨v1, h2, h3⟩ := hv.modify hn (d + l.1.weight)
      obtain ⟨v', f', h4, h5, h6, h7, h8⟩ := ih (fun l' h' => hl l' (by simp [h'])) v1 _ h3
      refine ⟨v', f', ?_, h5, ?_, ?_, ?_⟩
      · simp only [List.foldlM_cons, tsRelax, h1, hv.get hn, Option.bind_eq_bind, Option.bind_some, if_pos hlt, h2]; exact h4
      · intro x; have := h6 x
        by_cases hx : x = l.1.node
        · subst hx; simp only [fupd, if_pos] at this; omega
        · rw [fupd_of_ne _ _ hx] at this; exact this
      · intro x hx
        by_cases hx' : x = l.1.node
        · subst hx'; exact ⟨_, ha⟩
        · apply h7; rw [fupd_of_ne _ _ hx']; exact hx
      · intro l' h'
        rcases List.mem_cons.1 h' with rfl | h'
        · have := h6 l'.1.node; simp only [fupd, if_pos] at this; simpa using this
        · exact h8 l' h'
    · obtain ⟨v', f', h4, h5, h6, h7, h8⟩ := ih (fun l' h' => hl l' (by simp [h'])) v f hv
      refine ⟨v', f', ?_, h5, h6, h7, ?_⟩
      · simp only [List.foldlM_cons, tsRelax, h1, hv.get hn, Option.bind_eq_bind, Option.bind_some, if_neg hlt]; exact h4
      · intro l' h'
        rcases List.mem_cons.1 h' with rfl | h'
        · have := h6 l'.1.node; omega
        · exact h8 l' h'

/-- Invariant of the walk: `f` are the labels. -/
structure PrunInv (tree : List (Option Nat)) (g : FOGraph) (s ub : Nat) (next : Option Nat) (f : Nat → Nat) : Prop where
  bnd : ∀ x, f x ≤ INFINITY
  src : f s = 0
  done : ∀ y x w, ¬ Pending tree next y → g.Arc y x w → f y + w ≤ ub → f x ≤ f y + w
  anc : ∀ p, next = some p → Anc (par tree) s p

theorem prunedWalk_spec {g : FOGraph} (ht : TreeOK n tree) (hg : DirOK n tree g) {s ub : Nat} (hs : s < n) (hub : ub < INFINITY) :
    ∀ (fuel : Nat) (v : TSVec Nat) (next : Option Nat) (f : Nat → Nat), TRep n INFINITY v f → PrunInv tree g s ub next f → (∀ p, next = some p → n < fuel + p) →
    ∃ v' f', prunedWalk g tree ub fuel v next = some v' ∧ TRep n INFINITY v' f' ∧ (∀ x, f' x ≤ INFINITY) ∧ f' s = 0 ∧
      ∀ y x w, g.Arc y x w → f' y + w ≤ ub → f' x ≤ f' y + w := by
  intro fuel
  induction fuel with
  | zero =>
    intro v next f hv hi hf
    cases next with
    | none => exact ⟨v, f, rfl, hv, hi.bnd, hi.src, fun y x w h1 h2 => hi.done y x w pending_none h1 h2⟩
    | some p =>
      have := hf p rfl
      have := ht.anc_lt (hi.anc p rfl) hs
      omega
  | succ fuel ih =>
    intro v next f hv hi hf
    cases next with
    | none => exact ⟨v, f, rfl, hv, hi.bnd, hi.src, fun y x w h1 h2 => hi.done y x w pending_none h1 h2⟩
    | some p =>
      have hanc := hi.anc p rfl
      have hp := ht.anc_lt hanc hs
      have hfuel : ∀ q, par tree p = some q → n < fuel + q := by
        intro q hq; have := (ht.up hq).1; have := hf p rfl; omega
      have hanc' : ∀ q, par tree p = some q → Anc (par tree) s q := fun q hq => hanc.trans (.step hq (.refl q))
      by_cases hlt : ub < f p
      · obtain ⟨v1, h1, h2⟩ := hv.modify hp INFINITY
        have hps : s ≠ p := by rintro rfl; rw [hi.src] at hlt; omega
        obtain ⟨v', f', e1, e2⟩ := ih v1 (par tree p) _ h2 (by
          refine ⟨?_, ?_, ?_, hanc'⟩
          · intro x; unfold fupd; split
            · exact Nat.le_refl _
            · exact hi.bnd x
          · rw [fupd_of_ne _ _ hps]; exact hi.src
          · intro y x w hnp ha hle
            by_cases hy : y = p
            · subst hy; simp only [fupd, if_pos] at hle; omega
            · rw [fupd_of_ne _ _ hy] at hle ⊢
              have := hi.done y x w (fun hpd => by
                rcases pending_some.1 hpd with h | h
                · exact hy h
                · exact hnp h) ha hle
              by_cases hx : x = p
              · subst hx; omega
              · rw [fupd_of_ne _ _ hx]; exact this) hfuel
        refine ⟨v', f', ?_, e2⟩
        simp only [prunedWalk, hv.get hp, tree_get ht hp, Option.bind_eq_bind, Option.bind_some, if_pos hlt, h1]
        exact e1
      · obtain ⟨ls, h1, h2, h3⟩ := links_spec hg hp
        obtain ⟨v1, f1, h4, h5, h6, h7, h8⟩ := relax_spec hg (hi.bnd p) ls (fun l hl => hg.arc (h2 l hl)) v f hv
        obtain ⟨v', f', e1, e2⟩ := ih v1 (par tree p) f1 h5 (by
          refine ⟨fun x => Nat.le_trans (h6 x) (hi.bnd x), by have := h6 s; rw [hi.src] at this; omega, ?_, hanc'⟩
          intro y x w hnp ha hle
          have hsame : f1 y = f y := by
            by_contra hne
            obtain ⟨w', hw'⟩ := h7 y hne
            have hup := hg.up hw'
            cases hg.anc hw' with
            | refl => omega
            | step hq h => exact hnp ⟨_, hq, h⟩
          rw [hsame] at hle ⊢
          by_cases hy : y = p
          · subst hy
            obtain ⟨l, hl, rfl, rfl⟩ := h3 x w ha
            exact h8 l hl
          · exact Nat.le_trans (h6 x) (hi.done y x w (fun hpd => by
              rcases pending_some.1 hpd with h | h
              · exact hy h
              · exact hnp h) ha hle)) hfuel
        refine ⟨v', f', ?_, e2⟩
        simp only [prunedWalk, hv.get hp, tree_get ht hp, Option.bind_eq_bind, Option.bind_some, if_neg hlt, h1, h4]
        exact e1

/-- The walk from a target, with old labels. -/
theorem walk_spec {g : FOGraph} (ht : TreeOK n tree) (hg : DirOK n tree g) {s ub : Nat} (hs : s < n) (hub : ub < INFINITY) {v : TSVec Nat} {f : Nat → Nat}
    (hv : TRep n INFINITY v f) : ∃ v1 v' f', tsCheckReset tree v.reset (tree.length + 1) (some s) = some () ∧ v.reset.modify s (fun _ => 0) = some v1 ∧
      prunedWalk g tree ub (tree.length + 1) v1 (some s) = some v' ∧ TRep n INFINITY v' f' ∧ (∀ x, f' x ≤ INFINITY) ∧ f' s = 0 ∧
      ∀ y x w, g.Arc y x w → f' y + w ≤ ub → f' x ≤ f' y + w := by
  have hv1 := hv.reset
  obtain ⟨v2, h2, h3⟩ := hv1.modify hs 0
  obtain ⟨v', f', h4, h5⟩ := prunedWalk_spec ht hg hs hub (tree.length + 1) v2 (some s) _ h3 (by
    refine ⟨?_, by simp [fupd], ?_, ?_⟩
    · intro x; unfold fupd; split
      · omega
      · exact Nat.le_refl _
    · intro y x w hnp _ hle
      have hy : y ≠ s := by rintro rfl; exact hnp ⟨y, rfl, .refl y⟩
      rw [fupd_of_ne _ _ hy] at hle; omega
    · intro p hp; simp at hp; subst hp; exact .refl s) (by intro p hp; simp at hp; subst hp; rw [ht.len]; omega)
  exact ⟨v2, v', f', tsCheckReset_spec ht hv1 (tree.length + 1) (some s) (by intro p hp; simp at hp; subst hp; rw [ht.len]; omega), h2, h4, h5⟩

/-! ### the values -/

section
variable {P : (Nat → Nat) → (Nat → Nat) → Nat → Prop} {M : Nat} {S : Nat → Nat} {b : Nat → Nat}

/-- What is stored: `P p a k` are the paths in question. -/
structure MemoM (tree : List (Option Nat)) (P : (Nat → Nat) → (Nat → Nat) → Nat → Prop) (M : Nat) (S b : Nat → Nat) (f : Nat → Option (Nat × Nat)) : Prop where
  le : ∀ v d m, f v = some (d, m) → d ≤ b v ∧ m < M
  val : ∀ v d m, f v = some (d, m) → ∀ k p a, P p a k → ∀ i, i ≤ k → p i = v → S m ≤ a i → a i + d ≤ a k
  closed : ∀ v d m q, f v = some (d, m) → par tree v = some q → ∃ d' m', f q = some (d', m') ∧ m' ≤ m

/-- known with an index of at most `rel` -/
def Known (f : Nat → Option (Nat × Nat)) (rel v : Nat) : Prop := ∃ d m, f v = some (d, m) ∧ m ≤ rel

theorem MemoM.up {f : Nat → Option (Nat × Nat)} (h : MemoM tree P M S b f) {rel u y : Nat} (ha : Anc (par tree) u y) (hu : Known f rel u) : Known f rel y := by
  induction ha with
  | refl => exact hu
  | step hq _ ih =>
    obtain ⟨d, m, h1, h2⟩ := hu
    obtain ⟨d', m', h3, h4⟩ := h.closed _ d m _ h1 hq
    exact ih ⟨d', m', h3, by omega⟩

theorem potRelaxM_spec {pots : TSVec (Option (Nat × Nat))} {f : Nat → Option (Nat × Nat)} (hp : TRep n none pots f) (hf : ∀ v d m, f v = some (d, m) → d ≤ INFINITY) :
    ∀ (ls : List Link), (∀ l ∈ ls, l.node < n ∧ l.weight ≤ INFINITY ∧ (f l.node).isSome) → ∀ d0,
      ∃ d, ls.foldlM (potRelax pots) d0 = some d ∧ d ≤ d0 ∧ ∀ l ∈ ls, ∀ x m, f l.node = some (x, m) → d ≤ l.weight + x := by
  intro ls
  induction ls with
  | nil => intro _ d0; exact ⟨d0, rfl, Nat.le_refl _, by simp⟩
  | cons l ls ih =>
    intro hl d0
    obtain ⟨h1, h2, h3⟩ := hl l (by simp)
    obtain ⟨⟨x, m⟩, hp'⟩ := Option.isSome_iff_exists.1 h3
    have hc := hf _ _ _ hp'
    have h4 : add32 l.weight x = some (l.weight + x) := add32_of_lt (by unfold INFINITY at *; unfold U32; omega)
    obtain ⟨d, e1, e2, e4⟩ := ih (fun l' h' => hl l' (by simp [h'])) (min d0 (l.weight + x))
    refine ⟨d, ?_, by omega, ?_⟩
    · simp only [List.foldlM_cons, potRelax, hp.get h1, hp', Option.bind_eq_bind, Option.bind_some, h4, Option.pure_def]; exact e1
    · intro l' h' x' m' hx'
      rcases List.mem_cons.1 h' with rfl | h'
      · rw [hp'] at hx'; simp at hx'; obtain ⟨rfl, rfl⟩ := hx'; omega
      · exact e4 l' h' x' m' hx'

/-- the nodes on the stack have to be computed; the parent of the top is known, if there is one -/
inductive StackOKM (n : Nat) (tree : List (Option Nat)) (f : Nat → Option (Nat × Nat)) (rel : Nat) : List Nat → Prop
  | nil : StackOKM n tree f rel []
  | one {x : Nat} {r : List Nat} : x < n → (∀ p, par tree x = some p → Known f rel p) → StackRest n tree x r → (∀ y ∈ x :: r, ¬ Known f rel y) → StackOKM n tree f rel (x :: r)

theorem climbM_spec (ht : TreeOK n tree) {pots : TSVec (Option (Nat × Nat))} {f : Nat → Option (Nat × Nat)} (hp : TRep n none pots f) (rel : Nat) :
    ∀ (fuel : Nat) (stack : List Nat) (cur : Nat), cur < n → n < fuel + cur → StackRest n tree cur stack → (∀ y ∈ stack, ¬ Known f rel y) →
      ∃ st, climb tree pots rel fuel stack cur = some st ∧ StackOKM n tree f rel st ∧ (∀ x ∈ stack, x ∈ st) ∧ (Known f rel cur ∨ cur ∈ st) := by
  intro fuel
  induction fuel with
  | zero => intro stack cur h1 h2; omega
  | succ fuel ih =>
    intro stack cur hc hf hr hn
    by_cases hk : Known f rel cur
    · obtain ⟨d, m, hfc, hm⟩ := hk
      refine ⟨stack, by simp [climb, hp.get hc, hfc, hm], ?_, fun x h => h, .inl ⟨d, m, hfc, hm⟩⟩
      cases stack with
      | nil => exact .nil
      | cons y r =>
        obtain ⟨h1, h2, h3⟩ := hr
        refine .one h1 (fun p hp' => ?_) h3 hn
        rw [h2] at hp'; simp at hp'; subst hp'; exact ⟨d, m, hfc, hm⟩
    · have hany : (f cur).any (fun p => decide (p.2 ≤ rel)) = false := by
        cases hfc : f cur with
        | none => rfl
        | some q =>
          have : ¬ q.2 ≤ rel := fun h => hk ⟨q.1, q.2, hfc, h⟩
          simp only [Option.any_some, this, decide_false]
      have hn' : ∀ y ∈ cur :: stack, ¬ Known f rel y := by
        intro y hy
        rcases List.mem_cons.1 hy with rfl | hy
        · exact hk
        · exact hn y hy
      cases hpar : par tree cur with
      | some p =>
        obtain ⟨st, e1, e2, e3, e4⟩ := ih (cur :: stack) p (ht.up hpar).2 (by have := (ht.up hpar).1; omega) ⟨hc, hpar, hr⟩ hn'
        refine ⟨st, ?_, e2, fun x h => e3 x (by simp [h]), .inr (e3 cur (by simp))⟩
        simp only [climb, hp.get hc, hany, tree_get ht hc, hpar, Option.bind_eq_bind, Option.bind_some, Bool.false_eq_true, if_false]; exact e1
      | none =>
        refine ⟨cur :: stack, ?_, .one hc (by simp [hpar]) hr hn', fun x h => by simp [h], .inr (by simp)⟩
        simp only [climb, hp.get hc, hany, tree_get ht hc, hpar, Option.bind_eq_bind, Option.bind_some, Bool.false_eq_true, if_false]; rfl

/-- the stored value, `INFINITY` if there is none -/
def stored (f : Nat → Option (Nat × Nat)) (v : Nat) : Nat := match f v with | some p => p.1 | none => INFINITY

theorem popAllM_spec {KF KB : Nat → Nat → Nat → Nat → Prop} {dep latest t : Nat} {fw : FOGraph} (ht : TreeOK n tree) (hg : DirOK n tree fw)
    {bwd : TSVec Nat} (hb : TRep n INFINITY bwd b) (hbi : ∀ x, b x ≤ INFINITY)
    (hbw : ∀ k p a, TPath n dep latest t S M KF KB k p a → ∀ i, i ≤ k → (∀ l, i ≤ l → l ≤ k → p l ≤ p i) → a i + b (p i) ≤ a k)
    {rel : Nat} (hrel : rel < M) (hS : ∀ m, m ≤ rel → S m ≤ S rel) (hfw : ∀ x y w, KF rel x y w → fw.Arc x y w) :
    ∀ (st : List Nat) (pots : TSVec (Option (Nat × Nat))) (f : Nat → Option (Nat × Nat)), TRep n none pots f →
      MemoM tree (fun p a k => TPath n dep latest t S M KF KB k p a) M S b f → StackOKM n tree f rel st →
      ∃ pots' f', popAll fw bwd rel st pots = some pots' ∧ TRep n none pots' f' ∧ MemoM tree (fun p a k => TPath n dep latest t S M KF KB k p a) M S b f' ∧
        (∀ x, stored f' x ≤ stored f x) ∧ (∀ x, Known f rel x → Known f' rel x) ∧ ∀ x ∈ st, Known f' rel x := by
  intro st
  induction st with
  | nil => intro pots f hp hm _; exact ⟨pots, f, rfl, hp, hm, fun x => Nat.le_refl _, fun x h => h, by simp⟩
  | cons x r ih =>
    intro pots f hp hm hst
    cases hst with
    | one hx hpar hr hnk =>
    obtain ⟨ls, h1⟩ := hg.wf.total (show x < fw.numNodes by rw [hg.nn]; exact hx)
    have hmem : ∀ l ∈ ls, fw.Arc x l.node l.weight := fun l hl => ⟨ls, h1, hl⟩
    have hknown : ∀ y, Anc (par tree) x y → x < y → Known f rel y := by
      intro y hy hlt
      cases hy with
      | refl => omega
      | step hq h => exact hm.up h (hpar _ hq)
    let d0 := match f x with | some p => p.1 | none => b x
    have hd0 : d0 ≤ b x ∧ d0 ≤ stored f x := by
      simp only [d0, stored]
      cases hfx : f x with
      | none => exact ⟨Nat.le_refl _, hbi x⟩
      | some q => exact ⟨(hm.le x q.1 q.2 hfx).1, Nat.le_refl _⟩
    obtain ⟨d, e1, e2, e4⟩ := potRelaxM_spec hp (fun v d m h => Nat.le_trans (hm.le v d m h).1 (hbi v)) ls (by
      intro l hl
      have ha := hmem l hl
      have := (FOGraph.WF.arc_lt hg.wf ha).2
      obtain ⟨d', m', h3, _⟩ := hknown _ (hg.anc ha) (hg.up ha)
      exact ⟨by rw [hg.nn] at this; exact this, hg.bound ha, by rw [h3]; rfl⟩) d0
    obtain ⟨pots1, h3, h4⟩ := hp.modify hx (some (d, rel))
    have hmono : ∀ y, Known f rel y → Known (fupd f x (some (d, rel))) rel y := by
      intro y hy
      by_cases hyx : y = x
      · subst hyx; exact ⟨d, rel, by simp [fupd], Nat.le_refl _⟩
      · obtain ⟨d', m', h5, h6⟩ := hy
        exact ⟨d', m', by rw [fupd_of_ne _ _ hyx]; exact h5, h6⟩
    have hself : Known (fupd f x (some (d, rel))) rel x := ⟨d, rel, by simp [fupd], Nat.le_refl _⟩
    have hst' : ∀ y, stored (fupd f x (some (d, rel))) y ≤ stored f y := by
      intro y
      by_cases hyx : y = x
      · subst hyx
        have : stored (fupd f y (some (d, rel))) y = d := by simp [stored, fupd]
        omega
      · have : fupd f x (some (d, rel)) y = f y := fupd_of_ne _ _ hyx
        simp only [stored, this]; exact Nat.le_refl _
    obtain ⟨pots', f', g1, g2, g3, g4, g5, g6⟩ := ih pots1 _ h4 (by
      constructor
      · intro y d' m' hy
        by_cases hyx : y = x
        · subst hyx; simp [fupd] at hy; obtain ⟨rfl, rfl⟩ := hy; exact ⟨by omega, hrel⟩
        · rw [fupd_of_ne _ _ hyx] at hy; exact hm.le y d' m' hy
      · intro y d' m' hy k p a hP i hi hpi hSi
        by_cases hyx : y = x
        · subst hyx; simp [fupd] at hy; obtain ⟨rfl, rfl⟩ := hy
          subst hpi
          apply hP.est (b := b) (fun i => hbw k p a hP i) hrel hi hSi (by omega)
          intro j w j1 j2 j3 hw
          obtain ⟨d', m', h5, h6⟩ := hknown (p j) (hg.anc (hfw _ _ _ hw)) j3
          have haij := hP.le (show i ≤ j by omega) j2
          refine ⟨d', hm.val _ d' m' h5 k p a hP j j2 rfl (by have := hS m' h6; omega), ?_⟩
          obtain ⟨ls', h7, h8⟩ := hfw _ _ _ hw
          rw [h1] at h7; simp at h7; subst h7
          exact e4 _ h8 d' m' h5
        · rw [fupd_of_ne _ _ hyx] at hy; exact hm.val y d' m' hy k p a hP i hi hpi hSi
      · intro y d' m' q hy hyq
        by_cases hyx : y = x
        · subst hyx; simp [fupd] at hy; obtain ⟨rfl, rfl⟩ := hy
          exact hmono _ (hpar q hyq)
        · rw [fupd_of_ne _ _ hyx] at hy
          obtain ⟨d'', m'', h5, h6⟩ := hm.closed y d' m' q hy hyq
          by_cases hqx : q = x
          · subst hqx
            have : ¬ m'' ≤ rel := fun h => hnk q (by simp) ⟨d'', m'', h5, h⟩
            exact ⟨d, rel, by simp [fupd], by omega⟩
          · exact ⟨d'', m'', by rw [fupd_of_ne _ _ hqx]; exact h5, h6⟩) (by
      cases r with
      | nil => exact .nil
      | cons y r =>
        obtain ⟨k1, k2, k3⟩ := hr
        refine .one k1 (fun p hp' => ?_) k3 ?_
        · rw [k2] at hp'; simp at hp'; subst hp'; exact hself
        · intro z hz
          have hzx : z ≠ x := by
            have hlt : ∀ (r : List Nat) (u : Nat), StackRest n tree u r → ∀ z ∈ r, z < u := by
              intro r
              induction r with
              | nil => simp
              | cons a r ih =>
                intro u ⟨q1, q2, q3⟩ z hz
                have := (ht.up q2).1
                rcases List.mem_cons.1 hz with rfl | hz
                · exact this
                · have := ih a q3 z hz; omega
            have := hlt (y :: r) x ⟨k1, k2, k3⟩ z hz
            omega
          rintro ⟨d', m', h5, h6⟩
          rw [fupd_of_ne _ _ hzx] at h5
          exact hnk z (List.mem_cons_of_mem _ hz) ⟨d', m', h5, h6⟩)
    refine ⟨pots', f', ?_, g2, g3, fun y => Nat.le_trans (g4 y) (hst' y), fun y hy => g5 y (hmono y hy), ?_⟩
    · have e1' : ls.foldlM (potRelax pots) (match f x with | some p => p.1 | none => b x) = some d := e1
      simp only [popAll, hp.get hx, hb.get hx, h1, h3, Option.bind_eq_bind, Option.bind_some]
      refine (congrArg (fun o : Option Nat => o.bind fun dist => (pots.modify x fun _ => some (dist, rel)).bind fun pots => popAll fw bwd rel r pots) e1').trans ?_
      simp only [Option.bind_some, h3]; exact g1
    · intro y hy
      rcases List.mem_cons.1 hy with rfl | hy
      · exact g5 _ hself
      · exact g6 y hy
end

end MultiMetric
end Verif
