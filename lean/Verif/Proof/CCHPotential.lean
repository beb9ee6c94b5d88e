import Verif.Model.CCHPotential
import Verif.Proof.CCHPath
set_option linter.unusedSimpArgs false
set_option linter.unusedVariables false
/- CCH and CH potentials, for any pair of upward graphs. -/
namespace Verif
namespace CCH
open Spec GraphOps FOGraph

/-- a timestamped vector as a function on `0..n` -/
def TRep {α : Type} (n : Nat) (d : α) (v : TSVec α) (f : Nat → α) : Prop :=
  ∃ dl : List α, TSVec.Rep v dl ∧ dl.length = n ∧ v.default = d ∧ ∀ x, f x = (dl[x]?).getD d

section
variable {α : Type} {n : Nat} {d : α} {v : TSVec α} {f : Nat → α}

theorem TRep.new : TRep n d (TSVec.new d n) (fun _ => d) :=
  ⟨_, TSVec.rep_new d n, by simp, rfl, by intro x; simp only [List.getElem?_replicate]; split <;> rfl⟩

theorem TRep.reset (h : TRep n d v f) : TRep n d v.reset (fun _ => d) := by
  obtain ⟨dl, h1, h2, h3, h4⟩ := h
  refine ⟨_, TSVec.rep_reset h1, by simp [h2], by simp [TSVec.reset, h3], ?_⟩
  intro x; rw [h3]; simp only [List.getElem?_replicate]; split <;> rfl

theorem TRep.get (h : TRep n d v f) {x : Nat} (hx : x < n) : v.get x = some (f x) := by
  obtain ⟨dl, h1, h2, h3, h4⟩ := h
  rw [h1.get, h4, List.getElem?_eq_getElem (by omega)]; simp

theorem TRep.modify (h : TRep n d v f) {x : Nat} (hx : x < n) (y : α) : ∃ v', v.modify x (fun _ => y) = some v' ∧ TRep n d v' (fupd f x y) := by
  obtain ⟨dl, h1, h2, h3, h4⟩ := h
  obtain ⟨v', e1, e2, e3⟩ := TSVec.rep_modify h1 (fun _ => y) (List.getElem?_eq_getElem (show x < dl.length by omega))
  refine ⟨v', e1, _, e2, by simp [h2], by rw [e3, h3], ?_⟩
  intro z
  by_cases hz : z = x
  · subst hz; simp [fupd, h2, hx]
  · rw [fupd_of_ne _ _ hz, h4, List.getElem?_set_ne (fun h => hz h.symm)]
end

/-- `x` is the smallest number with `P`, or `INFINITY` if there is none below it -/
structure CapMin (P : Nat → Prop) (x : Nat) : Prop where
  ub : x ≤ INFINITY
  sound : x < INFINITY → P x
  le : ∀ d, P d → x ≤ d

variable {n : Nat} {tree : List (Option Nat)}

/-! ### the walk on the backward graph -/

/-- Invariant of the walk: `f` are the labels. -/
structure BInv (tree : List (Option Nat)) (g : FOGraph) (s : Nat) (next : Option Nat) (f : Nat → Nat) : Prop where
  ub : ∀ x, f x ≤ INFINITY
  src : f s = 0
  sound : ∀ x, f x < INFINITY → UpWalk g.Arc s x (f x)
  done : ∀ y x a w, UpWalk g.Arc s y a → ¬ Pending tree next y → g.Arc y x w → f x ≤ a + w
  anc : ∀ p, next = some p → Anc (par tree) s p

theorem tsRelax_spec {g : FOGraph} (hg : DirOK n tree g) {s p : Nat} {f0 : Nat → Nat} (hub : ∀ x, f0 x ≤ INFINITY) (hp : p < n)
    (hsound : ∀ x, f0 x < INFINITY → UpWalk g.Arc s x (f0 x)) :
    ∀ (ls : List (Link × Nat)), (∀ l ∈ ls, g.Arc p l.1.node l.1.weight) → ∀ (v : TSVec Nat) (f : Nat → Nat), TRep n INFINITY v f →
      (∀ x, f x ≤ f0 x) → (∀ x, f x < INFINITY → UpWalk g.Arc s x (f x)) →
      ∃ v' f', ls.foldlM (tsRelax (f0 p)) v = some v' ∧ TRep n INFINITY v' f' ∧ (∀ x, f' x ≤ f x) ∧
        (∀ x, f' x < INFINITY → UpWalk g.Arc s x (f' x)) ∧ (∀ l ∈ ls, f' l.1.node ≤ f0 p + l.1.weight) := by
  intro ls
  induction ls with
  | nil => intro _ v f hv _ hs; exact ⟨v, f, rfl, hv, fun x => Nat.le_refl _, hs, by simp⟩
  | cons l ls ih =>
    intro hl v f hv hle hs
    have ha := hl l (by simp)
    have hw := hg.bound ha
    have hn : l.1.node < n := by have := (FOGraph.WF.arc_lt hg.wf ha).2; rw [hg.nn] at this; exact this
    have h1 : add32 (f0 p) l.1.weight = some (f0 p + l.1.weight) := add32_of_lt (by have := hub p; unfold INFINITY at *; unfold U32; omega)
    by_cases hlt : f0 p + l.1.weight < f l.1.node
    · obtain ⟨v1, h2, h3⟩ := hv.modify hn (f0 p + l.1.weight)
      obtain ⟨v', f', h4, h5, h6, h7, h8⟩ := ih (fun l' h' => hl l' (by simp [h'])) v1 _ h3 (by
        intro x; by_cases hx : x = l.1.node
        · subst hx; simp only [fupd, if_pos]; have := hle l.1.node; omega
        · rw [fupd_of_ne _ _ hx]; exact hle x) (by
        intro x hx; by_cases hx' : x = l.1.node
        · subst hx'; simp only [fupd, if_pos] at hx ⊢
          exact (hsound p (by omega)).snoc ha (hg.up ha)
        · rw [fupd_of_ne _ _ hx'] at hx ⊢; exact hs x hx)
      refine ⟨v', f', ?_, h5, ?_, h7, ?_⟩
      · simp only [List.foldlM_cons, tsRelax, h1, hv.get hn, Option.bind_eq_bind, Option.bind_some, if_pos hlt, h2]; exact h4
      · intro x; have := h6 x
        by_cases hx : x = l.1.node
        · subst hx; simp only [fupd, if_pos] at this; omega
        · rw [fupd_of_ne _ _ hx] at this; exact this
      · intro l' h'
        rcases List.mem_cons.1 h' with rfl | h'
        · have := h6 l'.1.node; simp only [fupd, if_pos] at this; simpa using this
        · exact h8 l' h'
    · obtain ⟨v', f', h4, h5, h6, h7, h8⟩ := ih (fun l' h' => hl l' (by simp [h'])) v f hv hle hs
      refine ⟨v', f', ?_, h5, h6, h7, ?_⟩
      · simp only [List.foldlM_cons, tsRelax, h1, hv.get hn, Option.bind_eq_bind, Option.bind_some, if_neg hlt]; exact h4
      · intro l' h'
        rcases List.mem_cons.1 h' with rfl | h'
        · have := h6 l'.1.node; omega
        · exact h8 l' h'

theorem BInv.final {g : FOGraph} (ht : TreeOK n tree) (hg : DirOK n tree g) {s p : Nat} {next : Option Nat} {f : Nat → Nat} (h : BInv tree g s next f)
    (hp : ∀ y, y < p → Anc (par tree) s y → ¬ Pending tree next y) {a : Nat} (hw : UpWalk g.Arc s p a) : f p ≤ a := by
  rcases upwalk_last hw with ⟨rfl, rfl⟩ | ⟨y, a', w, h1, h2, h3, rfl⟩
  · rw [h.src]
  · exact h.done y p a' w h1 (hp y h3 (hg.upwalk_anc h1)) h2

theorem tsWalk_spec {g : FOGraph} (ht : TreeOK n tree) (hg : DirOK n tree g) {s : Nat} (hs : s < n) : ∀ (fuel : Nat) (v : TSVec Nat) (next : Option Nat) (f : Nat → Nat),
    TRep n INFINITY v f → BInv tree g s next f → (∀ p, next = some p → n < fuel + p) →
    ∃ v' f', tsWalk g tree fuel v next = some v' ∧ TRep n INFINITY v' f' ∧ ∀ x, CapMin (UpWalk g.Arc s x) (f' x) := by
  intro fuel
  induction fuel with
  | zero =>
    intro v next f hv hi hf
    cases next with
    | none =>
      refine ⟨v, f, rfl, hv, fun x => ⟨hi.ub x, hi.sound x, fun d hd => hi.final ht hg (fun y _ _ => pending_none) hd⟩⟩
    | some p =>
      have := hf p rfl
      have := ht.anc_lt (hi.anc p rfl) hs
      omega
  | succ fuel ih =>
    intro v next f hv hi hf
    cases next with
    | none =>
      refine ⟨v, f, rfl, hv, fun x => ⟨hi.ub x, hi.sound x, fun d hd => hi.final ht hg (fun y _ _ => pending_none) hd⟩⟩
    | some p =>
      have hanc := hi.anc p rfl
      have hp := ht.anc_lt hanc hs
      obtain ⟨ls, h1, h2, h3⟩ := links_spec hg hp
      obtain ⟨v', f', h4, h5, h6, h7, h8⟩ := tsRelax_spec hg hi.ub hp hi.sound ls (fun l hl => hg.arc (h2 l hl)) v f hv (fun x => Nat.le_refl _) hi.sound
      have htree : tree[p]? = some (par tree p) := by
        have : p < tree.length := by rw [ht.len]; exact hp
        simp [par, List.getElem?_eq_getElem this]
      have hi' : BInv tree g s (par tree p) f' := by
        refine ⟨fun x => Nat.le_trans (h6 x) (hi.ub x), by have := h6 s; rw [hi.src] at this; omega, h7, ?_, ?_⟩
        · intro y x a w hw hnp ha
          by_cases hy : y = p
          · subst hy
            obtain ⟨l, hl, rfl, rfl⟩ := h3 x w ha
            have := h8 l hl
            have hfin : f y ≤ a := hi.final ht hg (fun z hz _ hpz => by
              obtain ⟨q, e1, e2⟩ := hpz
              simp at e1; subst e1
              have := ht.anc_le e2; omega) hw
            omega
          · have := hi.done y x a w hw (fun hpd => by
              rcases pending_some.1 hpd with h | h
              · exact hy h
              · exact hnp h) ha
            exact Nat.le_trans (h6 x) this
        · intro q hq; exact hanc.trans (.step hq (.refl q))
      obtain ⟨v2, f2, e1, e2, e3⟩ := ih v' (par tree p) f' h5 hi' (by
        intro q hq; have := (ht.up hq).1; have := hf p rfl; omega)
      refine ⟨v2, f2, ?_, e2, e3⟩
      simp only [tsWalk, hv.get hp, htree, h1, Option.bind_eq_bind, Option.bind_some, h4]
      exact e1

theorem tsCheckReset_spec (ht : TreeOK n tree) {v : TSVec Nat} (hv : TRep n INFINITY v (fun _ => INFINITY)) : ∀ (fuel : Nat) (next : Option Nat),
    (∀ p, next = some p → p < n ∧ n < fuel + p) → tsCheckReset tree v fuel next = some () := by
  intro fuel
  induction fuel with
  | zero =>
    intro next hf
    cases next with
    | none => rfl
    | some p => have := hf p rfl; omega
  | succ fuel ih =>
    intro next hf
    cases next with
    | none => rfl
    | some p =>
      have hp := (hf p rfl).1
      have htree : tree[p]? = some (par tree p) := by
        have : p < tree.length := by rw [ht.len]; exact hp
        simp [par, List.getElem?_eq_getElem this]
      simp only [tsCheckReset, hv.get hp, htree, Option.bind_eq_bind, Option.bind_some, if_true]
      apply ih
      intro q hq
      have := ht.up hq; have := hf p rfl; omega

theorem tsQuery_spec {g : FOGraph} (ht : TreeOK n tree) (hg : DirOK n tree g) {s : Nat} (hs : s < n) {v : TSVec Nat} {f : Nat → Nat} (hv : TRep n INFINITY v f) :
    ∃ v' f', tsQuery g tree v s = some v' ∧ TRep n INFINITY v' f' ∧ ∀ x, CapMin (UpWalk g.Arc s x) (f' x) := by
  have hv1 := hv.reset
  obtain ⟨v2, h2, h3⟩ := hv1.modify hs 0
  have hinf : ∀ x, fupd (fun _ => INFINITY) s 0 x < INFINITY → x = s := by
    intro x hx
    apply Classical.byContradiction
    intro hn
    rw [fupd_of_ne _ _ hn] at hx; exact Nat.lt_irrefl _ hx
  obtain ⟨v', f', h4, h5, h6⟩ := tsWalk_spec ht hg hs (tree.length + 1) v2 (some s) _ h3 (by
    refine ⟨?_, by simp [fupd], ?_, ?_, ?_⟩
    · intro x; unfold fupd; split
      · omega
      · exact Nat.le_refl _
    · intro x hx; have := hinf x hx; subst this; simp only [fupd, if_pos]; exact .nil x
    · intro y x a w hw hnp _
      exact absurd ⟨s, rfl, hg.upwalk_anc hw⟩ hnp
    · intro p hp; simp at hp; subst hp; exact .refl s) (by intro p hp; rw [ht.len]; omega)
  refine ⟨v', f', ?_, h5, h6⟩
  simp only [tsQuery, tsCheckReset_spec ht hv1 (tree.length + 1) (some s) (by intro p hp; simp at hp; subst hp; rw [ht.len]; omega), h2, Option.bind_eq_bind, Option.bind_some]
  exact h4

/-! ### potentials -/

/-- the memo: known values are right and the known nodes are closed under `nb` -/
structure Memo (P : Nat → Nat → Prop) (nb : Nat → Nat → Prop) (f : Nat → Option Nat) : Prop where
  val : ∀ x d, f x = some d → CapMin (P x) d
  closed : ∀ x y, (f x).isSome → nb x y → (f y).isSome

theorem updown_step {F B : Nat → Nat → Nat → Prop} {x t : Nat} {b : Nat} (hb : CapMin (UpWalk B t x) b) {v : Nat}
    (hle : v ≤ b) (hs : v = b ∨ ∃ y w p, F x y w ∧ x < y ∧ CapMin (UpDown F B y t) p ∧ v = w + p)
    (hall : ∀ y w, F x y w → x < y → ∃ p, CapMin (UpDown F B y t) p ∧ v ≤ w + p) : CapMin (UpDown F B x t) v := by
  refine ⟨Nat.le_trans hle hb.ub, ?_, ?_⟩
  · intro hv
    rcases hs with rfl | ⟨y, w, p, h1, h2, h3, rfl⟩
    · exact ⟨x, 0, v, .nil x, hb.sound hv, by omega⟩
    · obtain ⟨m, a, c, e1, e2, rfl⟩ := h3.sound (by omega)
      exact ⟨m, w + a, c, .cons h1 h2 e1, e2, by omega⟩
  · rintro d ⟨m, a, c, h1, h2, rfl⟩
    cases h1 with
    | nil => have := hb.le c h2; omega
    | @cons _ y _ w a' h3 h4 h5 =>
      obtain ⟨p, h6, h7⟩ := hall y w h3 h4
      have := h6.le (a' + c) ⟨m, a', c, h5, h2, rfl⟩
      omega

theorem potRelax_spec {n : Nat} {pots : TSVec (Option Nat)} {f : Nat → Option Nat} (hp : TRep n none pots f) {P : Nat → Nat → Prop}
    (hval : ∀ x d, f x = some d → CapMin (P x) d) : ∀ (ls : List Link), (∀ l ∈ ls, l.node < n ∧ l.weight ≤ INFINITY ∧ (f l.node).isSome) → ∀ d0,
      ∃ d, ls.foldlM (potRelax pots) d0 = some d ∧ d ≤ d0 ∧ (d = d0 ∨ ∃ l ∈ ls, ∃ p, CapMin (P l.node) p ∧ d = l.weight + p) ∧
        ∀ l ∈ ls, ∃ p, CapMin (P l.node) p ∧ d ≤ l.weight + p := by
  intro ls
  induction ls with
  | nil => intro _ d0; exact ⟨d0, rfl, Nat.le_refl _, .inl rfl, by simp⟩
  | cons l ls ih =>
    intro hl d0
    obtain ⟨h1, h2, h3⟩ := hl l (by simp)
    obtain ⟨p, hp'⟩ := Option.isSome_iff_exists.1 h3
    have hc := hval _ _ hp'
    have h4 : add32 l.weight p = some (l.weight + p) := add32_of_lt (by have := hc.ub; unfold INFINITY at *; unfold U32; omega)
    obtain ⟨d, e1, e2, e3, e4⟩ := ih (fun l' h' => hl l' (by simp [h'])) (min d0 (l.weight + p))
    refine ⟨d, ?_, by omega, ?_, ?_⟩
    · simp only [List.foldlM_cons, potRelax, hp.get h1, hp', Option.bind_eq_bind, Option.bind_some, h4, Option.pure_def]; exact e1
    · rcases e3 with e3 | ⟨l', h5, p', h6, h7⟩
      · by_cases hm : d0 ≤ l.weight + p
        · exact .inl (by omega)
        · exact .inr ⟨l, by simp, p, hc, by omega⟩
      · exact .inr ⟨l', by simp [h5], p', h6, h7⟩
    · intro l' h'
      rcases List.mem_cons.1 h' with rfl | h'
      · exact ⟨p, hc, by omega⟩
      · exact e4 l' h'

/-- the nodes below `x` on the stack, top first: each has the one above it as parent -/
def StackRest (n : Nat) (tree : List (Option Nat)) : Nat → List Nat → Prop
  | _, [] => True
  | x, y :: r => y < n ∧ par tree y = some x ∧ StackRest n tree y r

/-- the nodes on the stack: the parent of the top is known, if there is one -/
inductive StackOK (n : Nat) (tree : List (Option Nat)) (f : Nat → Option Nat) : List Nat → Prop
  | nil : StackOK n tree f []
  | one {x : Nat} {r : List Nat} : x < n → (∀ p, par tree x = some p → (f p).isSome) → StackRest n tree x r → StackOK n tree f (x :: r)

theorem climb_spec (ht : TreeOK n tree) {pots : TSVec (Option Nat)} {f : Nat → Option Nat} (hp : TRep n none pots f) : ∀ (fuel : Nat) (stack : List Nat) (cur : Nat),
    cur < n → n < fuel + cur → StackRest n tree cur stack → ∃ st, climb tree pots fuel stack cur = some st ∧ StackOK n tree f st ∧
      (∀ x ∈ stack, x ∈ st) ∧ ((f cur).isSome ∨ cur ∈ st) := by
  intro fuel
  induction fuel with
  | zero => intro stack cur h1 h2; omega
  | succ fuel ih =>
    intro stack cur hc hf hr
    have htree : tree[cur]? = some (par tree cur) := by
      have : cur < tree.length := by rw [ht.len]; exact hc
      simp [par, List.getElem?_eq_getElem this]
    cases hk : f cur with
    | some d =>
      refine ⟨stack, by simp [climb, hp.get hc, hk], ?_, fun x h => h, .inl rfl⟩
      cases stack with
      | nil => exact .nil
      | cons y r =>
        obtain ⟨h1, h2, h3⟩ := hr
        refine .one h1 (fun p hp' => ?_) h3
        rw [h2] at hp'; simp at hp'; subst hp'; simp [hk]
    | none =>
      cases hpar : par tree cur with
      | some p =>
        obtain ⟨st, e1, e2, e3, e4⟩ := ih (cur :: stack) p (ht.up hpar).2 (by have := (ht.up hpar).1; omega) ⟨hc, hpar, hr⟩
        exact ⟨st, by simp only [climb, hp.get hc, hk, htree, hpar, Option.bind_eq_bind, Option.bind_some]; exact e1, e2, fun x h => e3 x (by simp [h]), .inr (e3 cur (by simp))⟩
      | none =>
        refine ⟨cur :: stack, by simp [climb, hp.get hc, hk, htree, hpar], .one hc (by simp [hpar]) hr, fun x h => by simp [h], .inr (by simp)⟩

theorem popAll_spec {fw : FOGraph} {B : Nat → Nat → Nat → Prop} (ht : TreeOK n tree) (hg : DirOK n tree fw) {bwd : TSVec Nat} {b : Nat → Nat} {t : Nat} (hb : TRep n INFINITY bwd b)
    (hbc : ∀ x, CapMin (UpWalk B t x) (b x)) : ∀ (st : List Nat) (pots : TSVec (Option Nat)) (f : Nat → Option Nat), TRep n none pots f →
      Memo (fun x => UpDown fw.Arc B x t) (fun x y => par tree x = some y) f → StackOK n tree f st →
      ∃ pots' f', popAll fw bwd st pots = some pots' ∧ TRep n none pots' f' ∧ Memo (fun x => UpDown fw.Arc B x t) (fun x y => par tree x = some y) f' ∧
        (∀ x, (f x).isSome → (f' x).isSome) ∧ ∀ x ∈ st, (f' x).isSome := by
  intro st
  induction st with
  | nil => intro pots f hp hm _; exact ⟨pots, f, rfl, hp, hm, fun x h => h, by simp⟩
  | cons x r ih =>
    intro pots f hp hm hst
    cases hst with
    | one hx hpar hr =>
    obtain ⟨ls, h1⟩ := hg.wf.total (show x < fw.numNodes by rw [hg.nn]; exact hx)
    have hmem : ∀ l ∈ ls, fw.Arc x l.node l.weight := fun l hl => ⟨ls, h1, hl⟩
    have hknown : ∀ y, Anc (par tree) x y → x < y → (f y).isSome := by
      intro y hy hlt
      have hup : ∀ u y, Anc (par tree) u y → (f u).isSome → (f y).isSome := by
        intro u y h
        induction h with
        | refl => exact fun h => h
        | step hq _ ih => intro h; exact ih (hm.closed _ _ h hq)
      cases hy with
      | refl => omega
      | step hq h => exact hup _ _ h (hpar _ hq)
    obtain ⟨d, e1, e2, e3, e4⟩ := potRelax_spec hp hm.val ls (by
      intro l hl
      have ha := hmem l hl
      have := (FOGraph.WF.arc_lt hg.wf ha).2
      exact ⟨by rw [hg.nn] at this; exact this, hg.bound ha, hknown _ (hg.anc ha) (hg.up ha)⟩) (b x)
    have hcap : CapMin (UpDown fw.Arc B x t) d := by
      apply updown_step (hbc x) e2
      · rcases e3 with h | ⟨l, hl, p, h3, h4⟩
        · exact .inl h
        · exact .inr ⟨l.node, l.weight, p, hmem l hl, hg.up (hmem l hl), h3, h4⟩
      · intro y w ha _
        obtain ⟨ls', h3, h4⟩ := ha
        rw [h1] at h3; simp at h3; subst h3
        exact e4 _ h4
    obtain ⟨pots1, h3, h4⟩ := hp.modify hx (some d)
    have hmono : ∀ y, (f y).isSome → (fupd f x (some d) y).isSome := by
      intro y hy; unfold fupd; split <;> simp_all
    obtain ⟨pots', f', g1, g2, g3, g4, g5⟩ := ih pots1 _ h4 (by
      constructor
      · intro y d' hy
        by_cases hyx : y = x
        · subst hyx; simp [fupd] at hy; subst hy; exact hcap
        · rw [fupd_of_ne _ _ hyx] at hy; exact hm.val y d' hy
      · intro y z hy hyz
        by_cases hyx : y = x
        · subst hyx; exact hmono _ (hpar z hyz)
        · rw [fupd_of_ne _ _ hyx] at hy; exact hmono _ (hm.closed y z hy hyz)) (by
      cases r with
      | nil => exact .nil
      | cons y r =>
        obtain ⟨k1, k2, k3⟩ := hr
        refine .one k1 (fun p hp' => ?_) k3
        rw [k2] at hp'; simp at hp'; subst hp'; simp [fupd])
    refine ⟨pots', f', ?_, g2, g3, fun y hy => g4 y (hmono y hy), ?_⟩
    · simp only [popAll, hb.get hx, h1, e1, h3, Option.bind_eq_bind, Option.bind_some]; exact g1
    · intro y hy
      rcases List.mem_cons.1 hy with rfl | hy
      · exact g4 _ (by simp [fupd])
      · exact g5 y hy

/-- a potential object after `init t` and any number of questions -/
structure PotOK (n : Nat) (tree : List (Option Nat)) (fw bw : FOGraph) (t : Nat) (s : PotState) : Prop where
  stack : s.stack = []
  pots : ∃ f, TRep n none s.pots f ∧ Memo (fun x => UpDown fw.Arc bw.Arc x t) (fun x y => par tree x = some y) f
  bw : ∃ b, TRep n INFINITY s.bwDist b ∧ ∀ x, CapMin (UpWalk bw.Arc t x) (b x)

/-- an object that may be initialised -/
structure PotReady (n : Nat) (s : PotState) : Prop where
  stack : s.stack = []
  pots : ∃ f, TRep n none s.pots f
  bw : ∃ b, TRep n INFINITY s.bwDist b

theorem PotOK.ready {fw bw : FOGraph} {t : Nat} {s : PotState} (h : PotOK n tree fw bw t s) : PotReady n s := by
  obtain ⟨f, h1, _⟩ := h.pots
  obtain ⟨b, h2, _⟩ := h.bw
  exact ⟨h.stack, ⟨f, h1⟩, ⟨b, h2⟩⟩

theorem potReady_new : PotReady n (PotState.new n) := ⟨rfl, ⟨_, TRep.new⟩, ⟨_, TRep.new⟩⟩

theorem potInit_spec {fw bw : FOGraph} (ht : TreeOK n tree) (hg : DirOK n tree bw) {s : PotState} (hs : PotReady n s) {t : Nat} (htn : t < n) :
    ∃ s', potInit bw tree s t = some s' ∧ PotOK n tree fw bw t s' := by
  obtain ⟨f, h1⟩ := hs.pots
  obtain ⟨b, h2⟩ := hs.bw
  obtain ⟨v', b', h3, h4, h5⟩ := tsQuery_spec ht hg htn h2
  refine ⟨⟨s.stack, s.pots.reset, v'⟩, by simp [potInit, h3], hs.stack, ⟨_, h1.reset, ?_⟩, ⟨b', h4, h5⟩⟩
  exact ⟨fun x d h => by simp at h, fun x y h => by simp at h⟩

theorem potGet_spec {fw bw : FOGraph} (ht : TreeOK n tree) (hg : DirOK n tree fw) {s : PotState} {t : Nat} (hs : PotOK n tree fw bw t s) {v : Nat} (hv : v < n) :
    ∃ s' x, potGet fw tree s v = some (s', if x < INFINITY then some x else none) ∧ PotOK n tree fw bw t s' ∧ CapMin (UpDown fw.Arc bw.Arc v t) x := by
  obtain ⟨f, h1, h2⟩ := hs.pots
  obtain ⟨b, h3, h4⟩ := hs.bw
  obtain ⟨st, h5, h6, _, h7⟩ := climb_spec ht h1 (tree.length + 1) s.stack v hv (by rw [ht.len]; omega) (by rw [hs.stack]; trivial)
  obtain ⟨pots', f', e1, e2, e3, e4, e5⟩ := popAll_spec ht hg h3 h4 st s.pots f h1 h2 h6
  have hk : (f' v).isSome := by
    rcases h7 with h | h
    · exact e4 v h
    · exact e5 v h
  obtain ⟨x, hx⟩ := Option.isSome_iff_exists.1 hk
  refine ⟨⟨[], pots', s.bwDist⟩, x, ?_, ⟨rfl, ⟨f', e2, e3⟩, ⟨b, h3, h4⟩⟩, e3.val v x hx⟩
  simp only [potGet, h5, e1, e2.get hv, hx, Option.bind_eq_bind, Option.bind_some, Option.pure_def]

end CCH
end Verif
