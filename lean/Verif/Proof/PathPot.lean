import Verif.Model.CCHPathPot
import Verif.Proof.CCHPotential
import Verif.Proof.BitVec
set_option linter.unusedSimpArgs false
set_option linter.unusedVariables false
/- The elimination tree walk and the potential with parent pointers. -/
namespace Verif
namespace CCH
open Spec GraphOps FOGraph Bits

variable {n : Nat} {tree : List (Option Nat)}

/-! ### the walk -/

/-- the pointers set by the walk from `s` when the nodes below `K` have been settled -/
structure Ptr (n : Nat) (g : FOGraph) (s K : Nat) (f : Nat → Nat) (P : List (Nat × Nat)) : Prop where
  len : P.length = n
  root : P[s]? = some (s, 0)
  ptr : ∀ x, f x < INFINITY → x ≠ s → ∃ y e w, P[x]? = some (y, e) ∧ g.E e y x w ∧ f x = f y + w ∧ y < K

theorem DirOK.head_lt {g : FOGraph} (hg : DirOK n tree g) {e u v w : Nat} (he : g.E e u v w) : v < n := by
  have := (FOGraph.WF.arc_lt hg.wf (hg.arc he)).2
  rw [hg.nn] at this; exact this

theorem tsRelaxP_spec {g : FOGraph} (hg : DirOK n tree g) {s p dp : Nat} : ∀ (ls : List (Link × Nat)), (∀ l ∈ ls, g.E l.2 p l.1.node l.1.weight) →
    ∀ (v : TSVec Nat) (f : Nat → Nat) (P : List (Nat × Nat)) (v1 : TSVec Nat), TRep n INFINITY v f → Ptr n g s (p + 1) f P → f p = dp → f s = 0 →
      ls.foldlM (tsRelax dp) v = some v1 →
      ∃ f1 P1, ls.foldlM (tsRelaxP p dp) (v, P) = some (v1, P1) ∧ TRep n INFINITY v1 f1 ∧ Ptr n g s (p + 1) f1 P1 ∧ f1 s = 0 := by
  intro ls
  induction ls with
  | nil =>
    intro _ v f P v1 hv hP _ hs h
    simp at h; subst h
    exact ⟨f, P, rfl, hv, hP, hs⟩
  | cons l ls ih =>
    intro hl v f P v1 hv hP hp hs h
    have he := hl l (by simp)
    have hln := hg.head_lt he
    have hup := hg.up (hg.arc he)
    rw [List.foldlM_cons] at h
    cases ha : add32 dp l.1.weight with
    | none => simp [tsRelax, ha] at h
    | some nx =>
      have hnx : nx = dp + l.1.weight := by
        unfold add32 at ha; split at ha <;> simp at ha; exact ha.symm
      simp only [tsRelax, ha, hv.get hln, Option.bind_eq_bind, Option.bind_some] at h
      by_cases hlt : nx < f l.1.node
      · obtain ⟨v', e1, e2⟩ := hv.modify hln nx
        rw [if_pos hlt, e1] at h
        simp only [Option.bind_some] at h
        have hns : l.1.node ≠ s := by intro hc; rw [hc, hs] at hlt; omega
        have hnp : l.1.node ≠ p := by omega
        have hlP : l.1.node < P.length := by rw [hP.len]; exact hln
        obtain ⟨f1, P1, g1, g2, g3, g4⟩ := ih (fun l' h' => hl l' (by simp [h'])) v' _ (P.set l.1.node (p, l.2)) v1 e2 (by
          refine ⟨by simp [hP.len], by rw [List.getElem?_set_ne hns]; exact hP.root, ?_⟩
          intro x hx hxs
          by_cases hxl : x = l.1.node
          · subst hxl
            refine ⟨p, l.2, l.1.weight, by simp [hlP], he, ?_, by omega⟩
            rw [fupd_of_ne _ _ hnp.symm]; simp only [fupd, if_pos]; omega
          · rw [fupd_of_ne _ _ hxl] at hx
            obtain ⟨y, e, w, k1, k2, k3, k4⟩ := hP.ptr x hx hxs
            refine ⟨y, e, w, by rw [List.getElem?_set_ne (fun h => hxl h.symm)]; exact k1, k2, ?_, k4⟩
            rw [fupd_of_ne _ _ hxl, fupd_of_ne _ _ (by omega)]; exact k3) (by rw [fupd_of_ne _ _ hnp.symm]; exact hp) (by rw [fupd_of_ne _ _ hns.symm]; exact hs) h
        refine ⟨f1, P1, ?_, g2, g3, g4⟩
        rw [List.foldlM_cons]
        simp only [tsRelaxP, ha, hv.get hln, Option.bind_eq_bind, Option.bind_some]
        rw [if_pos hlt, e1]
        simp only [Option.bind_some, upd_of_lt _ hlP, Option.pure_def]
        exact g1
      · rw [if_neg hlt] at h
        simp only [Option.bind_some] at h
        obtain ⟨f1, P1, g1, g2, g3, g4⟩ := ih (fun l' h' => hl l' (by simp [h'])) v f P v1 hv hP hp hs h
        refine ⟨f1, P1, ?_, g2, g3, g4⟩
        rw [List.foldlM_cons]
        simp only [tsRelaxP, ha, hv.get hln, Option.bind_eq_bind, Option.bind_some]
        rw [if_neg hlt]
        exact g1

theorem TRep.inj {α : Type} {d : α} {v : TSVec α} {f f' : Nat → α} (h : TRep n d v f) (h' : TRep n d v f') {x : Nat} (hx : x < n) : f x = f' x := by
  have := h.get hx; rw [h'.get hx] at this; simpa using this.symm

theorem tsWalkP_spec {g : FOGraph} (ht : TreeOK n tree) (hg : DirOK n tree g) {s : Nat} : ∀ (fuel : Nat) (v : TSVec Nat) (next : Option Nat) (f : Nat → Nat)
    (P : List (Nat × Nat)) (K : Nat) (v1 : TSVec Nat), TRep n INFINITY v f → Ptr n g s K f P → f s = 0 → (∀ p, next = some p → p < n ∧ K ≤ p) →
    tsWalk g tree fuel v next = some v1 →
    ∃ f1 P1 K1, tsWalkP g tree fuel (v, P) next = some (v1, P1) ∧ TRep n INFINITY v1 f1 ∧ Ptr n g s K1 f1 P1 ∧ f1 s = 0 := by
  intro fuel
  induction fuel with
  | zero =>
    intro v next f P K v1 hv hP hs hn h
    cases next with
    | none => simp [tsWalk] at h; subst h; exact ⟨f, P, K, by simp [tsWalkP], hv, hP, hs⟩
    | some p => simp [tsWalk] at h
  | succ fuel ih =>
    intro v next f P K v1 hv hP hs hn h
    cases next with
    | none => simp [tsWalk] at h; subst h; exact ⟨f, P, K, by simp [tsWalkP], hv, hP, hs⟩
    | some p =>
      obtain ⟨hp, hK⟩ := hn p rfl
      obtain ⟨ls, h1, h2, h3⟩ := links_spec hg hp
      have htree : tree[p]? = some (par tree p) := by
        have : p < tree.length := by rw [ht.len]; exact hp
        simp [par, List.getElem?_eq_getElem this]
      simp only [tsWalk, hv.get hp, htree, h1, Option.bind_eq_bind, Option.bind_some] at h
      cases hf : ls.foldlM (tsRelax (f p)) v with
      | none => rw [hf] at h; simp at h
      | some v' =>
        rw [hf] at h; simp only [Option.bind_some] at h
        obtain ⟨f', P', e1, e2, e3, e4⟩ := tsRelaxP_spec hg ls h2 v f P v' hv ⟨hP.len, hP.root, fun x hx hxs => by
          obtain ⟨y, e, w, k1, k2, k3, k4⟩ := hP.ptr x hx hxs
          exact ⟨y, e, w, k1, k2, k3, by omega⟩⟩ rfl hs hf
        obtain ⟨f1, P1, K1, g1, g2, g3, g4⟩ := ih v' (par tree p) f' P' (p + 1) v1 e2 e3 e4 (by
          intro q hq; have := ht.up hq; omega) h
        refine ⟨f1, P1, K1, ?_, g2, g3, g4⟩
        simp only [tsWalkP, hv.get hp, htree, h1, Option.bind_eq_bind, Option.bind_some, e1]
        exact g1

/-- The walk with parents does the same as the one without; afterwards the labels are exact and the pointers lead to the root. -/
theorem tsQueryP_spec {g : FOGraph} (ht : TreeOK n tree) (hg : DirOK n tree g) {s : Nat} (hs : s < n) {v : TSVec Nat} {f : Nat → Nat} (hv : TRep n INFINITY v f)
    {P : List (Nat × Nat)} (hP : P.length = n) :
    ∃ v' f' P' K, tsQueryP g tree v P s = some (v', P') ∧ TRep n INFINITY v' f' ∧ (∀ x, CapMin (UpWalk g.Arc s x) (f' x)) ∧ Ptr n g s K f' P' := by
  obtain ⟨v', f', h1, h2, h3⟩ := tsQuery_spec ht hg hs hv
  have hv1 := hv.reset
  obtain ⟨v2, h4, h5⟩ := hv1.modify hs 0
  have hc := tsCheckReset_spec ht hv1 (tree.length + 1) (some s) (by intro p hp; simp at hp; subst hp; rw [ht.len]; omega)
  simp only [tsQuery, hc, h4, Option.bind_eq_bind, Option.bind_some] at h1
  have hsP : s < P.length := by rw [hP]; exact hs
  obtain ⟨f1, P1, K1, g1, g2, g3, g4⟩ := tsWalkP_spec (s := s) ht hg (tree.length + 1) v2 (some s) _ (P.set s (s, 0)) 0 v' h5 ⟨by simp [hP], by simp [hsP], by
    intro x hx hxs
    rw [fupd_of_ne _ _ hxs] at hx; exact absurd hx (Nat.lt_irrefl _)⟩ (by simp [fupd]) (by intro p hp; simp at hp; subst hp; omega) h1
  have hE : ∀ x, x < n → f1 x = f' x := fun x hx => g2.inj h2 hx
  refine ⟨v', f', P1, K1, ?_, h2, h3, g3.len, g3.root, ?_⟩
  · simp only [tsQueryP, hc, h4, Option.bind_eq_bind, Option.bind_some, upd_of_lt _ hsP]; exact g1
  · intro x hx hxs
    by_cases hxn : x < n
    · obtain ⟨y, e, w, k1, k2, k3, k4⟩ := g3.ptr x (by rw [hE x hxn]; exact hx) hxs
      have hy := (FOGraph.WF.arc_lt hg.wf (hg.arc k2)).1
      rw [hg.nn] at hy
      exact ⟨y, e, w, k1, k2, by rw [← hE x hxn, ← hE y hy]; exact k3, k4⟩
    · exfalso
      have hu := (h3 x).sound hx
      rcases upwalk_last hu with ⟨rfl, _⟩ | ⟨y, a', w, _, h6, _, _⟩
      · exact hxn hs
      · have := (FOGraph.WF.arc_lt hg.wf h6).2
        rw [hg.nn] at this; exact hxn this

/-! ### the potential -/

theorem potRelaxP_spec {pots : TSVec (Option Nat)} {f : Nat → Option Nat} (hp : TRep n none pots f) : ∀ (ls : List (Link × Nat)),
    (∀ l ∈ ls, l.1.node < n ∧ l.1.weight ≤ INFINITY ∧ ∃ p, f l.1.node = some p ∧ p ≤ INFINITY) → ∀ (d0 : Nat) (q0 : Nat × Nat),
      ∃ d q, ls.foldlM (potRelaxP pots) (d0, q0) = some (d, q) ∧ d ≤ d0 ∧
        ((d = d0 ∧ q = q0) ∨ ∃ l ∈ ls, ∃ p, f l.1.node = some p ∧ d = l.1.weight + p ∧ q = (l.1.node, l.2)) ∧
        ∀ l ∈ ls, ∀ p, f l.1.node = some p → d ≤ l.1.weight + p := by
  intro ls
  induction ls with
  | nil => intro _ d0 q0; exact ⟨d0, q0, rfl, Nat.le_refl _, .inl ⟨rfl, rfl⟩, by simp⟩
  | cons l ls ih =>
    intro hl d0 q0
    obtain ⟨h1, h2, p, h3, h5⟩ := hl l (by simp)
    have h4 : add32 l.1.weight p = some (l.1.weight + p) := add32_of_lt (by unfold INFINITY at *; unfold U32; omega)
    have ih' := ih (fun l' h' => hl l' (by simp [h']))
    by_cases hlt : l.1.weight + p < d0
    · obtain ⟨d, q, e1, e2, e3, e4⟩ := ih' (l.1.weight + p) (l.1.node, l.2)
      refine ⟨d, q, ?_, by omega, ?_, ?_⟩
      · simp only [List.foldlM_cons, potRelaxP, hp.get h1, h3, Option.bind_eq_bind, Option.bind_some, h4, Option.pure_def]
        rw [if_pos hlt]; exact e1
      · rcases e3 with ⟨rfl, rfl⟩ | ⟨l', h6, p', h7, h8⟩
        · exact .inr ⟨l, by simp, p, h3, rfl, rfl⟩
        · exact .inr ⟨l', by simp [h6], p', h7, h8⟩
      · intro l' h' p' hp'
        rcases List.mem_cons.1 h' with rfl | h'
        · rw [h3] at hp'; simp at hp'; omega
        · exact e4 l' h' p' hp'
    · obtain ⟨d, q, e1, e2, e3, e4⟩ := ih' d0 q0
      refine ⟨d, q, ?_, by omega, ?_, ?_⟩
      · simp only [List.foldlM_cons, potRelaxP, hp.get h1, h3, Option.bind_eq_bind, Option.bind_some, h4, Option.pure_def]
        rw [if_neg hlt]; exact e1
      · rcases e3 with h | ⟨l', h6, p', h7, h8⟩
        · exact .inl h
        · exact .inr ⟨l', by simp [h6], p', h7, h8⟩
      · intro l' h' p' hp'
        rcases List.mem_cons.1 h' with rfl | h'
        · rw [h3] at hp'; simp at hp'; omega
        · exact e4 l' h' p' hp'

/-- how `potential` changes values and pointers: known nodes keep theirs, the others get one that explains the value -/
structure Grows (fw : FOGraph) (b : Nat → Nat) (f f' : Nat → Option Nat) (P P' : List (Nat × Nat)) : Prop where
  keep : ∀ x d, f x = some d → f' x = some d
  same : ∀ x, (f x).isSome → P'[x]? = P[x]?
  stay : ∀ x, f' x = none → P'[x]? = P[x]?
  len : P'.length = P.length
  new : ∀ x d, f x = none → f' x = some d → (d = b x ∧ P'[x]? = P[x]?) ∨
    ∃ y e w p, P'[x]? = some (y, e) ∧ fw.E e x y w ∧ f' y = some p ∧ d = w + p ∧ d ≤ b x

theorem Grows.refl {fw : FOGraph} {b : Nat → Nat} {f : Nat → Option Nat} {P : List (Nat × Nat)} : Grows fw b f f P P :=
  ⟨fun _ _ h => h, fun _ _ => rfl, fun _ _ => rfl, rfl, fun x d h h' => by rw [h] at h'; simp at h'⟩

theorem popAllP_spec {fw : FOGraph} {B : Nat → Nat → Nat → Prop} (ht : TreeOK n tree) (hg : DirOK n tree fw) {bwd : TSVec Nat} {b : Nat → Nat} {t : Nat} (hb : TRep n INFINITY bwd b)
    (hbc : ∀ x, CapMin (UpWalk B t x) (b x)) : ∀ (st : List Nat) (pots : TSVec (Option Nat)) (f : Nat → Option Nat) (P : List (Nat × Nat)), TRep n none pots f →
      Memo (fun x => UpDown fw.Arc B x t) (fun x y => par tree x = some y) f → StackOK n tree f st → P.length = n → st.Pairwise (· > ·) → (∀ x ∈ st, f x = none) →
      ∃ pots' f' P', popAllP fw bwd st pots P = some (pots', P') ∧ TRep n none pots' f' ∧ Memo (fun x => UpDown fw.Arc B x t) (fun x y => par tree x = some y) f' ∧
        Grows fw b f f' P P' ∧ ∀ x ∈ st, (f' x).isSome := by
  intro st
  induction st with
  | nil => intro pots f P hp hm _ hP _ _; exact ⟨pots, f, P, rfl, hp, hm, .refl, by simp⟩
  | cons x r ih =>
    intro pots f P hp hm hst hP hdec hnone
    cases hst with
    | one hx hpar hr =>
    obtain ⟨ls, h1, h2, h3⟩ := links_spec hg hx
    have hfx := hnone x (by simp)
    have hknown : ∀ y, Anc (par tree) x y → x < y → (f y).isSome := by
      intro y hy hlt
      have hup : ∀ u y, Anc (par tree) u y → (f u).isSome → (f y).isSome := by
        intro u y h
        induction h with
        | refl => exact fun h => h
        | step hq _ ih => intro h; exact ih (hm.closed _ _ h hq)
      cases hy with
      | refl => omega
      | step hq h => exact hup _ _ h (hpar _ hq)
    have hxP : x < P.length := by rw [hP]; exact hx
    obtain ⟨d, q, e1, e2, e3, e4⟩ := potRelaxP_spec hp ls (by
      intro l hl
      have he := h2 l hl
      obtain ⟨p, hp'⟩ := Option.isSome_iff_exists.1 (hknown _ (hg.anc (hg.arc he)) (hg.up (hg.arc he)))
      exact ⟨hg.head_lt he, hg.bound (hg.arc he), p, hp', (hm.val _ _ hp').ub⟩) (b x) P[x]
    have hcap : CapMin (UpDown fw.Arc B x t) d := by
      apply updown_step (hbc x) e2
      · rcases e3 with h | ⟨l, hl, p, h4, h5, _⟩
        · exact .inl h.1
        · exact .inr ⟨l.1.node, l.1.weight, p, hg.arc (h2 l hl), hg.up (hg.arc (h2 l hl)), hm.val _ _ h4, h5⟩
      · intro y w ha hlt
        obtain ⟨l, hl, rfl, rfl⟩ := h3 y w ha
        obtain ⟨p, hp'⟩ := Option.isSome_iff_exists.1 (hknown _ (hg.anc ha) hlt)
        exact ⟨p, hm.val _ _ hp', e4 l hl p hp'⟩
    obtain ⟨pots1, h4, h5⟩ := hp.modify hx (some d)
    have hmono : ∀ y, (f y).isSome → (fupd f x (some d) y).isSome := by
      intro y hy; unfold fupd; split <;> simp_all
    have hpw := List.pairwise_cons.1 hdec
    obtain ⟨pots', f', P', g1, g2, g3, g4, g5⟩ := ih pots1 _ (P.set x q) h5 (by
      constructor
      · intro y d' hy
        by_cases hyx : y = x
        · subst hyx; simp [fupd] at hy; subst hy; exact hcap
        · rw [fupd_of_ne _ _ hyx] at hy; exact hm.val y d' hy
      · intro y z hy hyz
        by_cases hyx : y = x
        · subst hyx; exact hmono _ (hpar z hyz)
        · rw [fupd_of_ne _ _ hyx] at hy; exact hmono _ (hm.closed y z hy hyz)) (by
      cases r with
      | nil => exact .nil
      | cons y r =>
        obtain ⟨k1, k2, k3⟩ := hr
        refine .one k1 (fun p hp' => ?_) k3
        rw [k2] at hp'; simp at hp'; subst hp'; simp [fupd]) (by simp [hP]) hpw.2 (by
      intro y hy
      have := hpw.1 y hy
      rw [fupd_of_ne _ _ (by omega)]; exact hnone y (by simp [hy]))
    have hkeep : ∀ y a, f y = some a → f' y = some a := by
      intro y a hy
      apply g4.keep
      rw [fupd_of_ne _ _ (by rintro rfl; rw [hfx] at hy; simp at hy)]; exact hy
    have hfx' : f' x = some d := g4.keep x d (by simp [fupd])
    refine ⟨pots', f', P', ?_, g2, g3, ⟨hkeep, ?_, ?_, by rw [g4.len]; simp, ?_⟩, ?_⟩
    · simp only [popAllP, hb.get hx, h1, List.getElem?_eq_getElem hxP, e1, upd_of_lt _ hxP, h4, Option.bind_eq_bind, Option.bind_some]; exact g1
    · intro y hy
      have hyx : y ≠ x := by rintro rfl; rw [hfx] at hy; simp at hy
      rw [g4.same y (hmono y hy), List.getElem?_set_ne hyx.symm]
    · intro y hy
      have hyx : y ≠ x := by rintro rfl; rw [hfx'] at hy; simp at hy
      rw [g4.stay y hy, List.getElem?_set_ne hyx.symm]
    · intro y a hy hy'
      by_cases hyx : y = x
      · subst hyx
        rw [hfx'] at hy'; simp at hy'; subst hy'
        have hs := g4.same y (by simp [fupd])
        rw [List.getElem?_set_self hxP] at hs
        rcases e3 with ⟨k1, k2⟩ | ⟨l, hl, p, k1, k2, k3⟩
        · exact .inl ⟨k1, by rw [hs, k2, List.getElem?_eq_getElem hxP]⟩
        · exact .inr ⟨l.1.node, l.2, l.1.weight, p, by rw [hs, k3], h2 l hl, hkeep _ _ k1, k2, e2⟩
      · rcases g4.new y a (by rw [fupd_of_ne _ _ hyx]; exact hy) hy' with ⟨k1, k2⟩ | h
        · exact .inl ⟨k1, by rw [k2, List.getElem?_set_ne (fun h => hyx h.symm)]⟩
        · exact .inr h
    · intro y hy
      rcases List.mem_cons.1 hy with rfl | hy
      · simp [hfx']
      · exact g5 y hy

theorem climb_desc (ht : TreeOK n tree) {pots : TSVec (Option Nat)} {f : Nat → Option Nat} (hp : TRep n none pots f) : ∀ (fuel : Nat) (stack st : List Nat) (cur : Nat),
    cur < n → stack.Pairwise (· > ·) → (∀ x ∈ stack, f x = none ∧ x < cur) → climb tree pots fuel stack cur = some st →
    st.Pairwise (· > ·) ∧ ∀ x ∈ st, f x = none := by
  intro fuel
  induction fuel with
  | zero => intro stack st cur _ _ _ h; simp [climb] at h
  | succ fuel ih =>
    intro stack st cur hc hd hn h
    have htree : tree[cur]? = some (par tree cur) := by
      have : cur < tree.length := by rw [ht.len]; exact hc
      simp [par, List.getElem?_eq_getElem this]
    cases hk : f cur with
    | some d =>
      simp [climb, hp.get hc, hk] at h; subst h
      exact ⟨hd, fun x hx => (hn x hx).1⟩
    | none =>
      have hd' : (cur :: stack).Pairwise (· > ·) := List.pairwise_cons.2 ⟨fun x hx => (hn x hx).2, hd⟩
      cases hpar : par tree cur with
      | some p =>
        simp only [climb, hp.get hc, hk, htree, hpar, Option.bind_eq_bind, Option.bind_some] at h
        have := ht.up hpar
        refine ih _ _ p this.2 hd' ?_ h
        intro x hx
        rcases List.mem_cons.1 hx with rfl | hx
        · exact ⟨hk, by omega⟩
        · have := hn x hx; exact ⟨this.1, by omega⟩
      | none =>
        simp [climb, hp.get hc, hk, htree, hpar] at h; subst h
        refine ⟨hd', ?_⟩
        intro x hx
        rcases List.mem_cons.1 hx with rfl | hx
        · exact hk
        · exact (hn x hx).1

end CCH
end Verif
