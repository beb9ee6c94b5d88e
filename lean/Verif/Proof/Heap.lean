import Verif.Model.Heap
/- The two-part heap: helper lemmas. -/
set_option linter.unusedSimpArgs false
set_option linter.unusedVariables false
namespace Verif
namespace Heap
open Spec
variable {α : Type} {le : α → α → Bool}

/-- the same elements in the first `s` places, the rest unchanged -/
structure Part (s : Nat) (V V' : List α) : Prop where
  head : (V'.take s).Perm (V.take s)
  tail : V'.drop s = V.drop s

theorem Part.refl (s : Nat) (V : List α) : Part s V V := ⟨List.Perm.refl _, rfl⟩

theorem Part.trans {s : Nat} {A B C : List α} (h1 : Part s A B) (h2 : Part s B C) : Part s A C :=
  ⟨h2.head.trans h1.head, h2.tail.trans h1.tail⟩

theorem Part.length {s : Nat} {A B : List α} (h : Part s A B) : B.length = A.length := by
  have h1 := h.head.length_eq
  have h2 := congrArg List.length h.tail
  rw [List.length_take, List.length_take] at h1
  rw [List.length_drop, List.length_drop] at h2
  omega

/-- swapping two entries of the first part -/
theorem part_swap {s i j : Nat} {V : List α} {a b : α} (hi : i < s) (hj : j < s) (ha : V[i]? = some a) (hb : V[j]? = some b) :
    Part s V ((V.set i b).set j a) := by
  obtain ⟨hil, rfl⟩ := List.getElem?_eq_some_iff.1 ha
  obtain ⟨hjl, rfl⟩ := List.getElem?_eq_some_iff.1 hb
  constructor
  · rw [List.take_set, List.take_set]
    have h1 : i < (V.take s).length := by rw [List.length_take]; omega
    have h2 : j < (V.take s).length := by rw [List.length_take]; omega
    have := List.set_set_perm h1 h2
    simpa using this
  · rw [List.drop_set_of_lt hj, List.drop_set_of_lt hi]

theorem get_swap {i j k : Nat} {V : List α} {a b : α} (ha : V[i]? = some a) (hb : V[j]? = some b) :
    ((V.set i b).set j a)[k]? = if k = j then some a else if k = i then some b else V[k]? := by
  have hil := (List.getElem?_eq_some_iff.1 ha).1
  have hjl := (List.getElem?_eq_some_iff.1 hb).1
  rw [List.getElem?_set]
  by_cases h : j = k
  · subst h; simp [hjl]
  · have h' : ¬ k = j := fun e => h e.symm
    rw [if_neg h, if_neg h', List.getElem?_set]
    by_cases h2 : i = k
    · subst h2; simp [hil]
    · have h2' : ¬ k = i := fun e => h2 e.symm
      rw [if_neg h2, if_neg h2']

/-- entry `i` is not larger than its parent -/
def Ok (le : α → α → Bool) (V : List α) (i : Nat) : Prop :=
  ∀ a b, V[(i - 1) / 2]? = some a → V[i]? = some b → le b a = true

/-- the first `s` entries are a heap -/
def HeapOrd (le : α → α → Bool) (s : Nat) (V : List α) : Prop := ∀ i, 0 < i → i < s → Ok le V i

theorem le_refl (hle : TotalPreorder le) (a : α) : le a a = true := by rcases hle.total a a with h | h <;> exact h

theorem le_of_not (hle : TotalPreorder le) {a b : α} (h : ¬ le a b = true) : le b a = true := by
  rcases hle.total a b with h' | h'
  · exact absurd h' h
  · exact h'

/-- moving the hole is a swap of the array with the hole filled -/
theorem hole_move {ds : List α} {pos c : Nat} {x xc : α} (hne : c ≠ pos) : (ds.set pos xc).set c x = (((ds.set pos x).set pos xc).set c x) := by
  rw [List.set_set]

theorem siftUpAux_spec (hle : TotalPreorder le) {s : Nat} (x : α) (fuel : Nat) (ds : List α) (pos : Nat) (hf : pos ≤ fuel) (hpos : pos < s)
    (hs : s ≤ ds.length) (hok : ∀ i, 0 < i → i < s → i ≠ pos → Ok le (ds.set pos x) i)
    (hgr : ∀ c, 0 < c → c < s → (c - 1) / 2 = pos → 0 < pos → ∀ a b, (ds.set pos x)[(pos - 1) / 2]? = some a → (ds.set pos x)[c]? = some b → le b a = true) :
    ∃ V, siftUpAux le 0 x fuel ds pos = some V ∧ Part s (ds.set pos x) V ∧ HeapOrd le s V := by
  have hend : (pos = 0 ∨ ∀ a, (ds.set pos x)[(pos - 1) / 2]? = some a → le x a = true) → HeapOrd le s (ds.set pos x) := by
    intro h i h0 hi
    by_cases hip : i = pos
    · subst hip
      rcases h with h | h
      · omega
      · intro a b ha hb
        rw [List.getElem?_set, if_pos rfl, if_pos (by omega)] at hb
        simp at hb; subst hb
        exact h a ha
    · exact hok i h0 hi hip
  induction fuel generalizing ds pos with
  | zero =>
    have : pos = 0 := by omega
    subst this
    exact ⟨_, by simp only [siftUpAux]; exact upd_of_lt _ (by omega), Part.refl _ _, hend (Or.inl rfl)⟩
  | succ fuel ih =>
    unfold siftUpAux
    by_cases hp : pos > 0
    · have hpar : (pos - 1) / 2 < ds.length := by omega
      have hpp : (pos - 1) / 2 ≠ pos := by omega
      obtain ⟨p, hpd⟩ : ∃ p, ds[(pos - 1) / 2]? = some p := ⟨_, List.getElem?_eq_getElem hpar⟩
      have hpV : (ds.set pos x)[(pos - 1) / 2]? = some p := by rw [List.getElem?_set, if_neg (fun e => hpp e.symm)]; exact hpd
      have hxV : (ds.set pos x)[pos]? = some x := by rw [List.getElem?_set, if_pos rfl, if_pos (by omega)]
      simp only [hp, if_true, hpd, Option.bind_eq_bind, Option.bind_some]
      by_cases hc : le x p = true
      · rw [if_pos hc]
        refine ⟨_, upd_of_lt _ (by omega), Part.refl _ _, hend (Or.inr ?_)⟩
        intro a ha; rw [hpV] at ha; simp at ha; subst ha; exact hc
      · rw [if_neg hc, upd_of_lt _ (show pos < ds.length by omega)]
        simp only [Option.bind_some]
        have hxp : le p x = true := le_of_not hle hc
        have hV' : (ds.set pos p).set ((pos - 1) / 2) x = ((ds.set pos x).set pos p).set ((pos - 1) / 2) x := hole_move hpp
        have hg := fun k => get_swap (k := k) hxV hpV
        rw [← hV'] at hg
        have hokk : ∀ i, 0 < i → i < s → i ≠ (pos - 1) / 2 → Ok le ((ds.set pos p).set ((pos - 1) / 2) x) i := by
          intro i h0 hi hne a b ha hb
          rw [hg] at ha hb
          rw [if_neg hne] at hb
          by_cases hip : i = pos
          · subst hip
            rw [if_pos rfl] at hb ha
            simp at ha hb; subst ha; subst hb; exact hxp
          · rw [if_neg hip] at hb
            by_cases h1 : (i - 1) / 2 = (pos - 1) / 2
            · rw [if_pos h1] at ha
              simp at ha; subst ha
              have := hok i h0 hi hip p b (by rw [h1]; exact hpV) hb
              exact hle.trans _ _ _ this hxp
            · rw [if_neg h1] at ha
              by_cases h2 : (i - 1) / 2 = pos
              · rw [if_pos h2] at ha
                simp at ha; subst ha
                exact hgr i h0 hi h2 hp p b hpV hb
              · rw [if_neg h2] at ha
                exact hok i h0 hi hip a b ha hb
        have hgrr : ∀ c, 0 < c → c < s → (c - 1) / 2 = (pos - 1) / 2 → 0 < (pos - 1) / 2 → ∀ a b,
            ((ds.set pos p).set ((pos - 1) / 2) x)[((pos - 1) / 2 - 1) / 2]? = some a → ((ds.set pos p).set ((pos - 1) / 2) x)[c]? = some b → le b a = true := by
          intro c h0 hc' hcp hpp0 a b ha hb
          rw [hg] at ha hb
          rw [if_neg (by omega), if_neg (by omega)] at ha
          have hpa : le p a = true := hok ((pos - 1) / 2) hpp0 (by omega) hpp a p ha hpV
          by_cases h1 : c = (pos - 1) / 2
          · omega
          · rw [if_neg h1] at hb
            by_cases h2 : c = pos
            · rw [if_pos h2] at hb; simp at hb; subst hb; exact hpa
            · rw [if_neg h2] at hb
              have := hok c h0 hc' h2 p b (by rw [hcp]; exact hpV) hb
              exact hle.trans _ _ _ this hpa
        obtain ⟨V, h1, h2, h3⟩ := ih (ds.set pos p) ((pos - 1) / 2) (by omega) (by omega) (by simpa using hs) hokk hgrr (by
          intro h i h0 hi
          by_cases hip : i = (pos - 1) / 2
          · subst hip
            rcases h with h | h
            · omega
            · intro a b ha hb
              rw [List.getElem?_set, if_pos rfl, if_pos (by simpa using hpar)] at hb
              simp at hb; subst hb
              exact h a ha
          · exact hokk i h0 hi hip)
        refine ⟨V, h1, Part.trans ?_ h2, h3⟩
        rw [hV']
        exact part_swap hpos (by omega) hxV hpV
    · have : pos = 0 := by omega
      simp only [hp, if_false]
      exact ⟨_, upd_of_lt _ (by omega), Part.refl _ _, hend (Or.inl this)⟩

theorem set_self {ds : List α} {pos : Nat} {x : α} (h : ds[pos]? = some x) : ds.set pos x = ds := by
  obtain ⟨hl, rfl⟩ := List.getElem?_eq_some_iff.1 h
  exact List.set_getElem_self _

theorem siftUp_spec (hle : TotalPreorder le) {s : Nat} (ds : List α) (pos : Nat) (hpos : pos < s) (hs : s ≤ ds.length)
    (hok : ∀ i, 0 < i → i < s → i ≠ pos → Ok le ds i)
    (hgr : ∀ c, 0 < c → c < s → (c - 1) / 2 = pos → 0 < pos → ∀ a b, ds[(pos - 1) / 2]? = some a → ds[c]? = some b → le b a = true) :
    ∃ V, siftUp le ds 0 pos = some V ∧ Part s ds V ∧ HeapOrd le s V := by
  obtain ⟨x, hx⟩ : ∃ x, ds[pos]? = some x := ⟨_, List.getElem?_eq_getElem (by omega)⟩
  have he := set_self hx
  obtain ⟨V, h1, h2, h3⟩ := siftUpAux_spec hle x pos ds pos (Nat.le_refl _) hpos hs (by rw [he]; exact hok) (by rw [he]; exact hgr)
  rw [he] at h2
  exact ⟨V, by simp only [siftUp, hx, Option.bind_eq_bind, Option.bind_some]; exact h1, h2, h3⟩

/-- The greater child. -/
theorem greaterChild_spec (hle : TotalPreorder le) {ds : List α} {child : Nat} (h : child + 1 < ds.length) :
    ∃ c xc, greaterChild le ds child = some c ∧ ds[c]? = some xc ∧ (c = child ∨ c = child + 1) ∧
      ∀ j b, (j = child ∨ j = child + 1) → ds[j]? = some b → le b xc = true := by
  have ha := List.getElem?_eq_getElem (show child < ds.length by omega)
  have hb := List.getElem?_eq_getElem h
  simp only [greaterChild, ha, hb, Option.bind_eq_bind, Option.bind_some, Option.pure_def]
  by_cases hc : le ds[child] ds[child + 1] = true
  · refine ⟨child + 1, _, by rw [if_pos hc], hb, Or.inr rfl, ?_⟩
    rintro j b (rfl | rfl) hj
    · rw [ha] at hj; simp at hj; subst hj; exact hc
    · rw [hb] at hj; simp at hj; subst hj; exact le_refl hle _
  · refine ⟨child, _, by rw [if_neg hc], ha, Or.inl rfl, ?_⟩
    rintro j b (rfl | rfl) hj
    · rw [ha] at hj; simp at hj; subst hj; exact le_refl hle _
    · rw [hb] at hj; simp at hj; subst hj; exact le_of_not hle hc

/-- One step down: the hole swaps with its greatest child. `lo` is the lowest position whose children are in order. -/
theorem down_step (hle : TotalPreorder le) {s lo : Nat} {ds : List α} {pos c : Nat} {x xc : α} (hpos : pos < s) (hs : s ≤ ds.length) (hcs : c < s)
    (hc : (c - 1) / 2 = pos) (hc0 : 0 < c) (hxc : ds[c]? = some xc) (hmax : ∀ j b, 0 < j → j < s → (j - 1) / 2 = pos → ds[j]? = some b → le b xc = true)
    (hok : ∀ i, 0 < i → i < s → lo ≤ (i - 1) / 2 → (i - 1) / 2 ≠ pos → i ≠ pos → Ok le (ds.set pos x) i)
    (hgr : ∀ d, 0 < d → d < s → (d - 1) / 2 = pos → 0 < pos → lo ≤ (pos - 1) / 2 → ∀ a b, (ds.set pos x)[(pos - 1) / 2]? = some a → (ds.set pos x)[d]? = some b → le b a = true)
    (hlo : lo ≤ pos) :
    Part s (ds.set pos x) ((ds.set pos xc).set c x) ∧
    (∀ i, 0 < i → i < s → lo ≤ (i - 1) / 2 → (i - 1) / 2 ≠ c → i ≠ c → Ok le ((ds.set pos xc).set c x) i) ∧
    (∀ d, 0 < d → d < s → (d - 1) / 2 = c → 0 < c → lo ≤ (c - 1) / 2 → ∀ a b, ((ds.set pos xc).set c x)[(c - 1) / 2]? = some a →
      ((ds.set pos xc).set c x)[d]? = some b → le b a = true) ∧
    (le x xc = true → Ok le ((ds.set pos xc).set c x) c) := by
  have hne : c ≠ pos := by omega
  have hxV : (ds.set pos x)[pos]? = some x := by rw [List.getElem?_set, if_pos rfl, if_pos (by omega)]
  have hcV : (ds.set pos x)[c]? = some xc := by rw [List.getElem?_set, if_neg (fun e => hne e.symm)]; exact hxc
  have hV' : (ds.set pos xc).set c x = ((ds.set pos x).set pos xc).set c x := hole_move hne
  have hg := fun k => get_swap (k := k) hxV hcV
  rw [← hV'] at hg
  have hVo : ∀ k, k ≠ pos → (ds.set pos x)[k]? = ds[k]? := fun k hk => by rw [List.getElem?_set, if_neg (fun e => hk e.symm)]
  refine ⟨by rw [hV']; exact part_swap hpos hcs hxV hcV, ?_, ?_, ?_⟩
  · intro i h0 hi hil hpi hic a b ha hb
    rw [hg] at ha hb
    rw [if_neg hic] at hb
    rw [if_neg hpi] at ha
    by_cases h1 : i = pos
    · rw [if_pos h1] at hb
      simp at hb; subst hb
      subst h1
      rw [if_neg (by omega)] at ha
      exact hgr c hc0 hcs hc h0 hil a xc ha hcV
    · rw [if_neg h1] at hb
      by_cases h2 : (i - 1) / 2 = pos
      · rw [if_pos h2] at ha
        simp at ha; subst ha
        exact hmax i b h0 hi h2 (by rw [← hVo i h1]; exact hb)
      · rw [if_neg h2] at ha
        exact hok i h0 hi hil h2 h1 a b ha hb
  · intro d h0 hd hdc hc0' hlc a b ha hb
    rw [hg] at ha hb
    rw [hc, if_neg (fun e => hne e.symm), if_pos rfl] at ha
    simp at ha; subst ha
    rw [if_neg (by omega), if_neg (by omega)] at hb
    exact hok d h0 hd (by omega) (by omega) (by omega) xc b (by rw [hdc]; exact hcV) hb
  · intro hx a b ha hb
    rw [hg] at ha hb
    rw [if_pos rfl] at hb
    rw [hc, if_neg (fun e => hne e.symm), if_pos rfl] at ha
    simp at ha hb; subst ha; subst hb; exact hx

/-- `sift_down`: the children of all positions from `lo` on are in order afterwards. -/
theorem siftDownAux_spec (hle : TotalPreorder le) {s lo : Nat} (x : α) (fuel : Nat) (ds : List α) (pos : Nat) (hf : s < fuel + pos) (hpos : pos < s)
    (hs : s ≤ ds.length) (hlo : lo ≤ pos)
    (hok : ∀ i, 0 < i → i < s → lo ≤ (i - 1) / 2 → (i - 1) / 2 ≠ pos → Ok le (ds.set pos x) i)
    (hgr : ∀ d, 0 < d → d < s → (d - 1) / 2 = pos → 0 < pos → lo ≤ (pos - 1) / 2 → ∀ a b, (ds.set pos x)[(pos - 1) / 2]? = some a → (ds.set pos x)[d]? = some b → le b a = true) :
    ∃ V, siftDownAux le s x fuel ds pos = some V ∧ Part s (ds.set pos x) V ∧ ∀ i, 0 < i → i < s → lo ≤ (i - 1) / 2 → Ok le V i := by
  induction fuel generalizing ds pos with
  | zero => omega
  | succ fuel ih =>
    have hxV : (ds.set pos x)[pos]? = some x := by rw [List.getElem?_set, if_pos rfl, if_pos (by omega)]
    have hVo : ∀ k, k ≠ pos → (ds.set pos x)[k]? = ds[k]? := fun k hk => by rw [List.getElem?_set, if_neg (fun e => hk e.symm)]
    -- stopping here
    have hstop : (∀ j b, 0 < j → j < s → (j - 1) / 2 = pos → ds[j]? = some b → le b x = true) →
        ∀ i, 0 < i → i < s → lo ≤ (i - 1) / 2 → Ok le (ds.set pos x) i := by
      intro h i h0 hi hil
      by_cases hip : (i - 1) / 2 = pos
      · intro a b ha hb
        rw [hip, hxV] at ha
        simp at ha; subst ha
        exact h i b h0 hi hip (by rw [← hVo i (by omega)]; exact hb)
      · exact hok i h0 hi hil hip
    unfold siftDownAux
    by_cases h1 : 2 * pos + 1 ≤ s - 2
    · obtain ⟨c, xc, e1, e2, e3, e4⟩ := greaterChild_spec hle (ds := ds) (child := 2 * pos + 1) (by omega)
      have hmax : ∀ j b, 0 < j → j < s → (j - 1) / 2 = pos → ds[j]? = some b → le b xc = true := fun j b h0 _ hj hb => e4 j b (by omega) hb
      simp only [h1, if_true, e1, e2, Option.bind_eq_bind, Option.bind_some]
      by_cases hc : le xc x = true
      · rw [if_pos hc]
        exact ⟨_, upd_of_lt _ (by omega), Part.refl _ _, hstop (fun j b h0 hj hjp hb => hle.trans _ _ _ (hmax j b h0 hj hjp hb) hc)⟩
      · rw [if_neg hc, upd_of_lt _ (show pos < ds.length by omega)]
        simp only [Option.bind_some]
        obtain ⟨d1, d2, d3, d4⟩ := down_step hle (lo := lo) (x := x) hpos hs (show c < s by omega) (show (c - 1) / 2 = pos by omega) (by omega) e2 hmax
          (fun i h0 hi hl hp _ => hok i h0 hi hl hp) hgr hlo
        obtain ⟨V, f1, f2, f3⟩ := ih (ds.set pos xc) c (by omega) (by omega) (by simpa using hs) (by omega) (fun i h0 hi hl hp => by
          by_cases hic : i = c
          · subst hic; exact d4 (le_of_not hle hc)
          · exact d2 i h0 hi hl hp hic) d3
        exact ⟨V, f1, d1.trans f2, f3⟩
    · rw [if_neg h1]
      by_cases h2 : 2 * pos + 1 = s - 1
      · obtain ⟨xc, e2⟩ : ∃ xc, ds[2 * pos + 1]? = some xc := ⟨_, List.getElem?_eq_getElem (by omega)⟩
        have hmax : ∀ j b, 0 < j → j < s → (j - 1) / 2 = pos → ds[j]? = some b → le b xc = true := by
          intro j b h0 hj hjp hb
          have : j = 2 * pos + 1 := by omega
          subst this
          rw [e2] at hb; simp at hb; subst hb; exact le_refl hle _
        rw [if_pos h2]
        simp only [e2, Option.bind_eq_bind, Option.bind_some]
        by_cases hc : le xc x = true
        · rw [if_pos hc]
          exact ⟨_, upd_of_lt _ (by omega), Part.refl _ _, hstop (fun j b h0 hj hjp hb => hle.trans _ _ _ (hmax j b h0 hj hjp hb) hc)⟩
        · rw [if_neg hc, upd_of_lt _ (show pos < ds.length by omega)]
          simp only [Option.bind_some]
          obtain ⟨d1, d2, d3, d4⟩ := down_step hle (lo := lo) (x := x) hpos hs (show 2 * pos + 1 < s by omega) (show (2 * pos + 1 - 1) / 2 = pos by omega) (by omega) e2 hmax
            (fun i h0 hi hl hp _ => hok i h0 hi hl hp) hgr hlo
          refine ⟨_, upd_of_lt _ (by simp; omega), d1, fun i h0 hi hl => ?_⟩
          by_cases hic : i = 2 * pos + 1
          · subst hic; exact d4 (le_of_not hle hc)
          · exact d2 i h0 hi hl (by omega) hic
      · rw [if_neg h2]
        exact ⟨_, upd_of_lt _ (by omega), Part.refl _ _, hstop (fun j b h0 hj hjp hb => by omega)⟩

/-- The way down in `sift_down_to_bottom`. -/
theorem bottomAux_spec (hle : TotalPreorder le) {s : Nat} (x : α) (fuel : Nat) (ds : List α) (pos : Nat) (hf : s < fuel + pos) (hpos : pos < s)
    (hs : s ≤ ds.length)
    (hok : ∀ i, 0 < i → i < s → (i - 1) / 2 ≠ pos → i ≠ pos → Ok le (ds.set pos x) i)
    (hgr : ∀ d, 0 < d → d < s → (d - 1) / 2 = pos → 0 < pos → ∀ a b, (ds.set pos x)[(pos - 1) / 2]? = some a → (ds.set pos x)[d]? = some b → le b a = true) :
    ∃ V p, bottomAux le s x fuel ds pos = some (V, p) ∧ Part s (ds.set pos x) V ∧ p < s ∧ s ≤ 2 * p + 1 ∧
      ∀ i, 0 < i → i < s → i ≠ p → Ok le V i := by
  induction fuel generalizing ds pos with
  | zero => omega
  | succ fuel ih =>
    unfold bottomAux
    by_cases h1 : 2 * pos + 1 ≤ s - 2
    · obtain ⟨c, xc, e1, e2, e3, e4⟩ := greaterChild_spec hle (ds := ds) (child := 2 * pos + 1) (by omega)
      have hmax : ∀ j b, 0 < j → j < s → (j - 1) / 2 = pos → ds[j]? = some b → le b xc = true := fun j b h0 _ hj hb => e4 j b (by omega) hb
      simp only [h1, if_true, e1, e2, Option.bind_eq_bind, Option.bind_some, upd_of_lt _ (show pos < ds.length by omega)]
      obtain ⟨d1, d2, d3, d4⟩ := down_step hle (lo := 0) (x := x) hpos hs (show c < s by omega) (show (c - 1) / 2 = pos by omega) (by omega) e2 hmax
        (fun i h0 hi hl hp hi' => hok i h0 hi hp hi') (fun d h0 hd hdp hp0 _ => hgr d h0 hd hdp hp0) (by omega)
      obtain ⟨V, p, f1, f2, f3⟩ := ih (ds.set pos xc) c (by omega) (by omega) (by simpa using hs)
        (fun i h0 hi hp hic => d2 i h0 hi (by omega) hp hic) (fun d h0 hd hdp hp0 => d3 d h0 hd hdp hp0 (by omega))
      exact ⟨V, p, f1, d1.trans f2, f3⟩
    · rw [if_neg h1]
      by_cases h2 : 2 * pos + 1 = s - 1
      · obtain ⟨xc, e2⟩ : ∃ xc, ds[2 * pos + 1]? = some xc := ⟨_, List.getElem?_eq_getElem (by omega)⟩
        have hmax : ∀ j b, 0 < j → j < s → (j - 1) / 2 = pos → ds[j]? = some b → le b xc = true := by
          intro j b h0 hj hjp hb
          have : j = 2 * pos + 1 := by omega
          subst this
          rw [e2] at hb; simp at hb; subst hb; exact le_refl hle _
        obtain ⟨d1, d2, d3, d4⟩ := down_step hle (lo := 0) (x := x) hpos hs (show 2 * pos + 1 < s by omega) (show (2 * pos + 1 - 1) / 2 = pos by omega) (by omega) e2 hmax
          (fun i h0 hi hl hp hi' => hok i h0 hi hp hi') (fun d h0 hd hdp hp0 _ => hgr d h0 hd hdp hp0) (by omega)
        rw [if_pos h2]
        simp only [e2, Option.bind_eq_bind, Option.bind_some, upd_of_lt _ (show pos < ds.length by omega),
          upd_of_lt _ (show 2 * pos + 1 < (ds.set pos xc).length by simp; omega), Option.pure_def]
        exact ⟨_, _, rfl, d1, by omega, by omega, fun i h0 hi hne => d2 i h0 hi (by omega) (by omega) hne⟩
      · rw [if_neg h2]
        simp only [Option.bind_eq_bind, Option.bind_some, upd_of_lt _ (show pos < ds.length by omega), Option.pure_def]
        exact ⟨_, _, rfl, Part.refl _ _, hpos, by omega, fun i h0 hi hne => hok i h0 hi (by omega) hne⟩

theorem siftDownToBottom_spec (hle : TotalPreorder le) (h : Heap α) (hs0 : 0 < h.split) (hs : h.split ≤ h.data.length)
    (hok : ∀ i, 0 < i → i < h.split → (i - 1) / 2 ≠ 0 → Ok le h.data i) :
    ∃ h', siftDownToBottom le h 0 = some h' ∧ h'.split = h.split ∧ Part h.split h.data h'.data ∧ HeapOrd le h.split h'.data := by
  obtain ⟨x, hx⟩ : ∃ x, h.data[0]? = some x := ⟨_, List.getElem?_eq_getElem (by omega)⟩
  have he := set_self hx
  obtain ⟨V, p, e1, e2, e3, e4, e5⟩ := bottomAux_spec hle x (h.split + 1) h.data 0 (by omega) hs0 hs
    (by rw [he]; intro i h0 hi hp _; exact hok i h0 hi hp) (by omega)
  rw [he] at e2
  obtain ⟨W, f1, f2, f3⟩ := siftUp_spec hle V p e3 (by rw [e2.length]; exact hs) e5 (by omega)
  refine ⟨⟨W, h.split⟩, ?_, rfl, e2.trans f2, f3⟩
  simp only [siftDownToBottom, hx, e1, f1, Option.bind_eq_bind, Option.bind_some, Option.pure_def]

/-! ### the operations -/

structure Inv (le : α → α → Bool) (h : Heap α) : Prop where
  split : h.split ≤ h.data.length
  ord : HeapOrd le h.split h.data

theorem root_max (hle : TotalPreorder le) {s : Nat} {V : List α} (h : HeapOrd le s V) {r : α} (hr : V[0]? = some r) (i : Nat) (hi : i < s) (b : α)
    (hb : V[i]? = some b) : le b r = true := by
  induction i using Nat.strongRecOn generalizing b with
  | ind i ih =>
    by_cases h0 : i = 0
    · subst h0; rw [hr] at hb; simp at hb; subst hb; exact le_refl hle _
    · have hl : i < V.length := (List.getElem?_eq_some_iff.1 hb).1
      have hp := List.getElem?_eq_getElem (show (i - 1) / 2 < V.length by omega)
      exact hle.trans _ _ _ (h i (by omega) hi _ _ hp hb) (ih ((i - 1) / 2) (by omega) (by omega) _ hp)

theorem swap_spec {V : List α} {i j : Nat} (hi : i < V.length) (hj : j < V.length) :
    swap V i j = some ((V.set i V[j]).set j V[i]) := by
  simp only [swap, List.getElem?_eq_getElem hi, List.getElem?_eq_getElem hj, Option.bind_eq_bind, Option.bind_some, upd_of_lt _ hi]
  exact upd_of_lt _ (by simpa using hj)

theorem push_spec (hle : TotalPreorder le) {h : Heap α} (hi : Inv le h) (x : α) :
    ∃ h', push le h x = some h' ∧ Inv le h' ∧ (h'.data.take h'.split).Perm (x :: h.data.take h.split) ∧ h'.popped.Perm h.popped := by
  have hl := hi.split
  have hlen : (h.data ++ [x]).length - 1 = h.data.length := by simp
  have hi1 : h.split < (h.data ++ [x]).length := by simp; omega
  have hj1 : h.data.length < (h.data ++ [x]).length := by simp
  have hsw := swap_spec hi1 hj1
  have hx : (h.data ++ [x])[h.data.length] = x := by simp
  rw [hx] at hsw
  obtain ⟨y, hy⟩ : ∃ y, y = (h.data ++ [x])[h.split] := ⟨_, rfl⟩
  rw [← hy] at hsw
  obtain ⟨V, hV⟩ : ∃ V, V = ((h.data ++ [x]).set h.split x).set h.data.length y := ⟨_, rfl⟩
  rw [← hV] at hsw
  have hg : ∀ k, V[k]? = if k = h.data.length then some y else if k = h.split then some x else (h.data ++ [x])[k]? := by
    intro k; rw [hV]
    refine get_swap ?_ ?_
    · rw [hy]; exact List.getElem?_eq_getElem hi1
    · rw [List.getElem?_eq_getElem hj1, hx]
  have hVl : V.length = h.data.length + 1 := by rw [hV]; simp
  -- the first part
  have htake : V.take (h.split + 1) = h.data.take h.split ++ [x] := by
    apply List.ext_getElem?
    intro k
    by_cases hk : k < h.split + 1
    · rw [List.getElem?_take_of_lt hk, hg]
      by_cases hks : k = h.split
      · subst hks
        have : (h.data.take h.split).length = h.split := by rw [List.length_take]; omega
        rw [List.getElem?_append_right (l₁ := h.data.take h.split) (by omega), this]
        simp
        intro he
        rw [hy]
        simp [he]
      · rw [if_neg (by omega), if_neg hks, List.getElem?_append_left (by omega),
          List.getElem?_append_left (by rw [List.length_take]; omega), List.getElem?_take_of_lt (by omega)]
    · rw [List.getElem?_eq_none (by rw [List.length_take]; omega),
        List.getElem?_eq_none (by rw [List.length_append, List.length_take]; simp; omega)]
  have hdrop : (V.drop (h.split + 1)).Perm (h.data.drop h.split) := by
    have hall : V.Perm (h.data ++ [x]) := by
      have := (part_swap (s := h.data.length + 1) (i := h.split) (j := h.data.length) (V := h.data ++ [x]) (a := y) (b := x) (by omega) (by omega)
        (by rw [hy]; exact List.getElem?_eq_getElem hi1) (by rw [List.getElem?_eq_getElem hj1, hx])).head
      rw [← hV, List.take_of_length_le (by omega), List.take_of_length_le (by simp)] at this
      exact this
    have h1 : (V.take (h.split + 1) ++ V.drop (h.split + 1)).Perm (h.data.take h.split ++ h.data.drop h.split ++ [x]) := by
      rw [List.take_append_drop, List.take_append_drop]; exact hall
    rw [htake] at h1
    have h2 : (h.data.take h.split ++ ([x] ++ V.drop (h.split + 1))).Perm (h.data.take h.split ++ ([x] ++ h.data.drop h.split)) := by
      refine (List.append_assoc _ _ _ ▸ h1).trans ?_
      rw [List.append_assoc]
      exact List.Perm.append_left _ List.perm_append_comm
    exact (List.perm_append_left_iff _).1 ((List.perm_append_left_iff _).1 h2)
  obtain ⟨W, f1, f2, f3⟩ := siftUp_spec hle (s := h.split + 1) V h.split (by omega) (by omega) (by
      intro i h0 hi' hne a b ha hb
      rw [hg] at ha hb
      rw [if_neg (by omega), if_neg (by omega), List.getElem?_append_left (by omega)] at ha
      rw [if_neg (by omega), if_neg hne, List.getElem?_append_left (by omega)] at hb
      exact hi.ord i h0 (by omega) a b ha hb) (by omega)
  refine ⟨⟨W, h.split + 1⟩, ?_, ⟨by show h.split + 1 ≤ W.length; rw [f2.length]; omega, f3⟩, ?_, ?_⟩
  · simp only [push, hlen, hsw, f1, Option.bind_eq_bind, Option.bind_some, Option.pure_def]
  · refine f2.head.trans ?_
    rw [htake]
    exact List.perm_append_comm
  · show (W.drop (h.split + 1)).Perm _
    rw [f2.tail]; exact hdrop

theorem pop_spec (hle : TotalPreorder le) {h : Heap α} (hi : Inv le h) :
    (h.split = 0 ∧ pop le h = some (none, h)) ∨
    ∃ x h', pop le h = some (some x, h') ∧ Inv le h' ∧ (h.data.take h.split).Perm (x :: h'.data.take h'.split) ∧
      (∀ y ∈ h'.data.take h'.split, le y x = true) ∧ h'.popped.Perm (x :: h.popped) ∧ h.peek = some x := by
  have hl := hi.split
  cases hsp : h.split with
  | zero => left; exact ⟨rfl, by unfold pop; rw [hsp]⟩
  | succ s =>
    right
    have h0l : 0 < h.data.length := by omega
    obtain ⟨x, hx⟩ : ∃ x, h.data[0]? = some x := ⟨_, List.getElem?_eq_getElem h0l⟩
    have hpeek : h.peek = some x := by simp [peek, hsp, hx]
    have hmax : ∀ y ∈ h.data.take (s + 1), le y x = true := by
      intro y hy
      obtain ⟨i, hi'⟩ := List.mem_iff_getElem?.1 hy
      have hlt : i < s + 1 := by
        have := (List.getElem?_eq_some_iff.1 hi').1; rw [List.length_take] at this; omega
      rw [List.getElem?_take_of_lt hlt] at hi'
      exact root_max hle hi.ord hx i (by omega) y hi'
    cases s with
    | zero =>
      refine ⟨x, ⟨h.data, 0⟩, ?_, ⟨Nat.zero_le _, fun i h0 h1 => absurd h1 (Nat.not_lt_zero i)⟩, ?_, ?_, ?_, hpeek⟩
      · unfold pop; rw [hsp]; simp only [hx, Option.bind_eq_bind, Option.bind_some, Option.pure_def]
      · have : h.data.take 1 = [x] := by
          cases hd : h.data with
          | nil => rw [hd] at h0l; simp at h0l
          | cons d t => rw [hd] at hx; simp at hx; simp [hx]
        simp [this]
      · simp
      · show (h.data.drop 0).Perm (x :: h.data.drop h.split)
        rw [hsp]
        cases hd : h.data with
        | nil => rw [hd] at h0l; simp at h0l
        | cons d t => rw [hd] at hx; simp at hx; simp [hx]
    | succ s =>
      have hsl : s + 1 < h.data.length := by omega
      have hsw := swap_spec h0l hsl
      have hx' : h.data[0] = x := by rw [List.getElem?_eq_getElem h0l] at hx; simpa using hx
      rw [hx'] at hsw
      obtain ⟨y, hy⟩ : ∃ y, y = h.data[s + 1] := ⟨_, rfl⟩
      have hyg : h.data[s + 1]? = some y := by rw [hy]; exact List.getElem?_eq_getElem hsl
      rw [← hy] at hsw
      obtain ⟨V, hV⟩ : ∃ V, V = (h.data.set 0 y).set (s + 1) x := ⟨_, rfl⟩
      rw [← hV] at hsw
      have hg : ∀ k, V[k]? = if k = s + 1 then some x else if k = 0 then some y else h.data[k]? := fun k => by
        rw [hV]; exact get_swap hx hyg
      have hVl : V.length = h.data.length := by rw [hV]; simp
      have hpart := part_swap (s := s + 2) (by omega) (by omega) hx hyg
      rw [← hV] at hpart
      obtain ⟨h', e1, e2, e3, e4⟩ := siftDownToBottom_spec hle ⟨V, s + 1⟩ (by simp) (by simp only; omega) (by
        intro i h0 hi' hp a b ha hb
        simp only at ha hb hi'
        rw [hg, if_neg (by omega), if_neg (by omega)] at ha hb
        exact hi.ord i h0 (by omega) a b ha hb)
      simp only at e2 e3 e4
      have hlast : h'.data[s + 1]? = some x := by
        have h1 : (h'.data.drop (s + 1))[0]? = (V.drop (s + 1))[0]? := by rw [e3.tail]
        rw [List.getElem?_drop, List.getElem?_drop, Nat.add_zero, hg, if_pos rfl] at h1
        exact h1
      have hVx : V[s + 1]? = some x := by rw [hg, if_pos rfl]
      have hheap : (h.data.take (s + 2)).Perm (x :: h'.data.take (s + 1)) := by
        refine hpart.head.symm.trans ?_
        rw [List.take_succ, hVx]
        refine List.perm_append_comm.trans ?_
        exact List.Perm.cons _ e3.head.symm
      refine ⟨x, h', ?_, ⟨by rw [e2, e3.length, hVl]; omega, by rw [e2]; exact e4⟩, by rw [e2]; exact hheap, ?_, ?_, hpeek⟩
      · unfold pop; rw [hsp]
        simp only [hsw, e1, e2, hlast, Option.bind_eq_bind, Option.bind_some, Option.pure_def]
      · intro z hz
        rw [e2] at hz
        exact hmax z (hheap.mem_iff.2 (by simp [hz]))
      · show (h'.data.drop h'.split).Perm (x :: h.data.drop h.split)
        have hd1 : h'.data.drop (s + 1) = x :: V.drop (s + 2) := by
          rw [e3.tail, List.drop_eq_getElem_cons (by omega)]
          congr 1
          have := hVx
          rw [List.getElem?_eq_getElem (by omega)] at this
          simpa using this
        rw [e2, hsp, hd1, hpart.tail]

/-- the popped element comes first in `popped()` -/
theorem pop_head {h h' : Heap α} {x : α} (h1 : pop le h = some (some x, h')) : h'.popped[0]? = some x := by
  unfold pop at h1
  split at h1
  · simp at h1
  · cases hd : h.data[0]? with
    | none => simp [hd] at h1
    | some y =>
      simp [hd] at h1
      obtain ⟨rfl, rfl⟩ := h1
      simpa [popped] using hd
  · rename_i s _ _
    cases hd : swap h.data 0 s with
    | none => simp [hd] at h1
    | some ds =>
      cases hs : siftDownToBottom le ⟨ds, s⟩ 0 with
      | none => simp [hd, hs] at h1
      | some k =>
        cases hk : k.data[k.split]? with
        | none => simp [hd, hs, hk] at h1
        | some y =>
          simp [hd, hs, hk] at h1
          obtain ⟨rfl, rfl⟩ := h1
          simpa [popped] using hk

theorem rebuild_spec (hle : TotalPreorder le) (n : Nat) (h : Heap α) (hs : h.split ≤ h.data.length) (hn : n ≤ h.split)
    (hok : ∀ i, 0 < i → i < h.split → n ≤ (i - 1) / 2 → Ok le h.data i) :
    ∃ h', rebuild le n h = some h' ∧ h'.split = h.split ∧ Part h.split h.data h'.data ∧ HeapOrd le h.split h'.data := by
  induction n generalizing h with
  | zero => exact ⟨h, rfl, rfl, Part.refl _ _, fun i h0 hi => hok i h0 hi (by omega)⟩
  | succ n ih =>
    obtain ⟨x, hx⟩ : ∃ x, h.data[n]? = some x := ⟨_, List.getElem?_eq_getElem (by omega)⟩
    have he := set_self hx
    obtain ⟨V, e1, e2, e3⟩ := siftDownAux_spec hle (s := h.split) (lo := n) x (h.split + 1) h.data n (by omega) (by omega) hs (by omega)
      (by rw [he]; intro i h0 hi hl hp; exact hok i h0 hi (by omega)) (by omega)
    rw [he] at e2
    obtain ⟨h', f1, f2, f3, f4⟩ := ih ⟨V, h.split⟩ (by show h.split ≤ V.length; rw [e2.length]; exact hs) (by show n ≤ h.split; omega) e3
    refine ⟨h', ?_, f2, e2.trans f3, f4⟩
    simp only [rebuild, siftDown, hx, e1, Option.bind_eq_bind, Option.bind_some, Option.pure_def]
    exact f1

theorem siftTail_spec (hle : TotalPreorder le) {s : Nat} (k i : Nat) (ds : List α) (hs : s ≤ ds.length) (hk : i + k = s) (hok : HeapOrd le i ds) :
    ∃ V, siftTail le k i ds = some V ∧ Part s ds V ∧ HeapOrd le s V := by
  induction k generalizing i ds with
  | zero => exact ⟨ds, rfl, Part.refl _ _, by rw [← hk]; exact hok⟩
  | succ k ih =>
    obtain ⟨V, e1, e2, e3⟩ := siftUp_spec hle (s := i + 1) ds i (by omega) (by omega) (fun j h0 hj hne => hok j h0 (by omega)) (by omega)
    obtain ⟨W, f1, f2, f3⟩ := ih (i + 1) V (by rw [e2.length]; exact hs) (by omega) e3
    refine ⟨W, by simp only [siftTail, e1, Option.bind_eq_bind, Option.bind_some]; exact f1, Part.trans ⟨?_, ?_⟩ f2, f3⟩
    · have h1 : ∀ l : List α, l.take s = l.take (i + 1) ++ (l.drop (i + 1)).take (s - (i + 1)) := by
        intro l
        conv => lhs; rw [show s = (i + 1) + (s - (i + 1)) by omega, List.take_add]
      rw [h1 V, h1 ds, e2.tail]
      exact List.Perm.append_right _ e2.head
    · have h1 : ∀ l : List α, l.drop s = (l.drop (i + 1)).drop (s - (i + 1)) := by
        intro l; rw [List.drop_drop]; congr 1; omega
      rw [h1 V, h1 ds, e2.tail]

theorem rebuildTail_spec (hle : TotalPreorder le) (h : Heap α) (start : Nat) (hs : h.split ≤ h.data.length) (hst : start ≤ h.split)
    (hok : HeapOrd le start h.data) :
    ∃ h', rebuildTail le h start = some h' ∧ h'.split = h.split ∧ Part h.split h.data h'.data ∧ HeapOrd le h.split h'.data := by
  have hreb := rebuild_spec hle (h.split / 2) h hs (by omega) (by intro i h0 hi hl; omega)
  obtain ⟨V, e1, e2, e3⟩ := siftTail_spec hle (h.split - start) start h.data hs (by omega) hok
  have hsift : ∃ h', (do
      let ds ← siftTail le (h.split - start) start h.data
      return (⟨ds, h.split⟩ : Heap α)) = some h' ∧ h'.split = h.split ∧ Part h.split h.data h'.data ∧ HeapOrd le h.split h'.data :=
    ⟨⟨V, h.split⟩, by simp only [e1, Option.bind_eq_bind, Option.bind_some, Option.pure_def], rfl, e2, e3⟩
  unfold rebuildTail
  by_cases hc : start = h.split
  · rw [if_pos hc]
    exact ⟨h, rfl, rfl, Part.refl _ _, by rw [← hc]; exact hok⟩
  · rw [if_neg hc]
    simp only
    generalize (if start < h.split - start then true
      else if h.split ≤ 2048 then decide (2 * h.split < (h.split - start) * start.log2) else decide (2 * h.split < (h.split - start) * 11)) = better
    cases better with
    | true => exact hreb
    | false => exact hsift

theorem retainLoop_spec (keep : α → Bool) (split : Nat) (es : List α) (i removed first : Nat) (hfs : first ≤ split) :
    ∃ r f, retainLoop keep split es i removed first = (es.filter keep, r, f) ∧
      r + ((es.take (split - i)).filter keep).length = removed + (es.take (split - i)).length ∧ f ≤ first ∧
      ∀ (j : Nat) (e : α), es[j]? = some e → i + j < f → keep e = true := by
  induction es generalizing i removed first with
  | nil => exact ⟨removed, first, rfl, by simp, Nat.le_refl _, by simp⟩
  | cons e es ih =>
    unfold retainLoop
    cases hk : keep e with
    | true =>
      obtain ⟨r, f, h1, h2, h3, h4⟩ := ih (i + 1) removed first hfs
      refine ⟨r, f, by simp [h1, hk], ?_, h3, ?_⟩
      · by_cases hi : i < split
        · rw [show split - i = (split - (i + 1)) + 1 by omega, List.take_succ_cons]
          simp only [List.filter_cons, hk, if_true, List.length_cons]; omega
        · rw [show split - i = 0 by omega]
          rw [show split - (i + 1) = 0 by omega] at h2
          simpa using h2
      · intro j x hj hjf
        cases j with
        | zero => simp at hj; subst hj; exact hk
        | succ j => exact h4 j x (by simpa using hj) (by omega)
    | false =>
      simp only [Bool.not_false, Bool.true_and, decide_eq_true_eq]
      obtain ⟨r, f, h1, h2, h3, h4⟩ := ih (i + 1) (if i < split then removed + 1 else removed) (if i < first then i else first) (by split <;> omega)
      refine ⟨r, f, by simp [h1, hk], ?_, by revert h3; split <;> omega, ?_⟩
      · by_cases hi : i < split
        · rw [show split - i = (split - (i + 1)) + 1 by omega, List.take_succ_cons]
          rw [if_pos hi] at h2
          simp only [List.filter_cons, hk, Bool.false_eq_true, if_false, List.length_cons]; omega
        · rw [show split - i = 0 by omega]
          rw [show split - (i + 1) = 0 by omega] at h2
          simpa [hi] using h2
      · intro j x hj hjf
        cases j with
        | zero =>
          exfalso
          by_cases hi : i < first
          · rw [if_pos hi] at h3; omega
          · rw [if_neg hi] at h3; omega
        | succ j => exact h4 j x (by simpa using hj) (by omega)

theorem retain_spec (hle : TotalPreorder le) {h : Heap α} (hi : Inv le h) (keep : α → Bool) :
    ∃ h', retain le h keep = some h' ∧ Inv le h' ∧ (h'.data.take h'.split).Perm ((h.data.take h.split).filter keep) ∧
      h'.popped = h.popped.filter keep := by
  have hl := hi.split
  obtain ⟨r, f, h1, h2, h3, h4⟩ := retainLoop_spec keep h.split h.data 0 0 h.split (Nat.le_refl _)
  rw [Nat.sub_zero] at h2
  have hlen : (h.data.take h.split).length = h.split := by rw [List.length_take]; omega
  have hfl := List.length_filter_le keep (h.data.take h.split)
  have hsplit : h.data.filter keep = (h.data.take h.split).filter keep ++ (h.data.drop h.split).filter keep := by
    rw [← List.filter_append, List.take_append_drop]
  have hs' : h.split - r = ((h.data.take h.split).filter keep).length := by omega
  have hpre : (h.data.filter keep).take f = h.data.take f := by
    have : h.data.filter keep = h.data.take f ++ (h.data.drop f).filter keep := by
      conv => lhs; rw [← List.take_append_drop f h.data, List.filter_append]
      congr 1
      rw [List.filter_eq_self]
      intro e he
      obtain ⟨j, hj⟩ := List.mem_iff_getElem?.1 he
      have hlt : j < f := by
        have := (List.getElem?_eq_some_iff.1 hj).1; rw [List.length_take] at this; omega
      rw [List.getElem?_take_of_lt hlt] at hj
      exact h4 j e hj (by omega)
    rw [this, List.take_left']
    rw [List.length_take]; omega
  have hf : f ≤ h.split - r := by
    have e1 : (h.data.take f).length ≤ ((h.data.take h.split).filter keep).length := by
      have : h.data.take h.split = h.data.take f ++ (h.data.drop f).take (h.split - f) := by
        conv => lhs; rw [show h.split = f + (h.split - f) by omega, List.take_add]
      rw [this, List.filter_append, List.length_append]
      have : (h.data.take f).filter keep = h.data.take f := by
        rw [List.filter_eq_self]
        intro e he
        obtain ⟨j, hj⟩ := List.mem_iff_getElem?.1 he
        have hlt : j < f := by
          have := (List.getElem?_eq_some_iff.1 hj).1; rw [List.length_take] at this; omega
        rw [List.getElem?_take_of_lt hlt] at hj
        exact h4 j e hj (by omega)
      rw [this]; omega
    rw [List.length_take] at e1
    omega
  obtain ⟨h', f1, f2, f3, f4⟩ := rebuildTail_spec hle ⟨h.data.filter keep, h.split - r⟩ f (by
      show h.split - r ≤ (h.data.filter keep).length
      rw [hsplit, List.length_append]; omega) hf (by
      intro i h0 hif a b ha hb
      have e : ∀ k, k < f → (h.data.filter keep)[k]? = h.data[k]? := by
        intro k hk
        rw [← List.getElem?_take_of_lt hk, hpre, List.getElem?_take_of_lt hk]
      simp only at ha hb
      rw [e _ (by omega)] at ha hb
      exact hi.ord i h0 (by omega) a b ha hb)
  simp only at f2 f3 f4
  refine ⟨h', ?_, ⟨by rw [f2, f3.length, hsplit, List.length_append]; omega, by rw [f2]; exact f4⟩, ?_, ?_⟩
  · simp only [retain, h1]
    rw [if_pos (by omega)]
    exact f1
  · rw [f2]
    refine f3.head.trans ?_
    rw [hsplit, hs', List.take_left' rfl]
  · show h'.data.drop h'.split = (h.data.drop h.split).filter keep
    rw [f2, f3.tail, hsplit, hs', List.drop_left' rfl]

/-! ### histories -/

/-- the heap represents the multisets `w` and `t` -/
structure Rep (le : α → α → Bool) (h : Heap α) (w t : List α) : Prop where
  inv : Inv le h
  waiting : (h.data.take h.split).Perm w
  taken : h.popped.Perm t

theorem Rep.step (hle : TotalPreorder le) {h : Heap α} {w t : List α} (hr : Rep le h w t) {ops outs} (hh : TailHeapHistory le ops outs w t) (op : TailHeapOp α) :
    ∃ o h' w' t', h.step le op = some (o, h') ∧ Rep le h' w' t' ∧ TailHeapHistory le (ops ++ [op]) (outs ++ [o]) w' t' := by
  cases op with
  | push x =>
    obtain ⟨h', e1, e2, e3, e4⟩ := push_spec hle hr.inv x
    refine ⟨none, h', x :: w, t, ?_, ⟨e2, e3.trans (hr.waiting.cons x), e4.trans hr.taken⟩, .push x hh⟩
    simp only [Heap.step, e1, Option.bind_eq_bind, Option.bind_some, Option.pure_def]
  | pop =>
    rcases pop_spec hle hr.inv with ⟨e0, e1⟩ | ⟨x, h', e1, e2, e3, e4, e5, _⟩
    · have : w = [] := by
        have := hr.waiting
        rw [e0, List.take_zero] at this
        exact this.nil_eq.symm
      subst this
      exact ⟨none, h, [], t, e1, hr, .popEmpty hh⟩
    · exact ⟨some x, h', h'.data.take h'.split, x :: t, e1, ⟨e2, List.Perm.refl _, e5.trans (hr.taken.cons x)⟩,
        .pop x _ hh (hr.waiting.symm.trans e3) e4⟩
  | retain keep =>
    obtain ⟨h', e1, e2, e3, e4⟩ := retain_spec hle hr.inv keep
    refine ⟨none, h', w.filter keep, t.filter keep, ?_, ⟨e2, e3.trans (hr.waiting.filter keep), by rw [e4]; exact hr.taken.filter keep⟩, .retain keep hh⟩
    simp only [Heap.step, e1, Option.bind_eq_bind, Option.bind_some, Option.pure_def]
  | clear =>
    exact ⟨none, h.clear, [], [], rfl, ⟨⟨Nat.le_refl _, fun i h0 hi => by simp only [clear] at hi; omega⟩, by simp [clear], by simp [clear, popped]⟩, .clear hh⟩

theorem Rep.run (hle : TotalPreorder le) {h : Heap α} {w t : List α} (hr : Rep le h w t) {ops outs} (hh : TailHeapHistory le ops outs w t)
    (more : List (TailHeapOp α)) :
    ∃ os h' w' t', h.run le more = some (os, h') ∧ Rep le h' w' t' ∧ TailHeapHistory le (ops ++ more) (outs ++ os) w' t' := by
  induction more generalizing h w t ops outs with
  | nil => exact ⟨[], h, w, t, rfl, hr, by simpa using hh⟩
  | cons op more ih =>
    obtain ⟨o, h1, w1, t1, e1, e2, e3⟩ := hr.step hle hh op
    obtain ⟨os, h2, w2, t2, f1, f2, f3⟩ := ih e2 e3
    refine ⟨o :: os, h2, w2, t2, ?_, f2, by simpa using f3⟩
    simp only [Heap.run, e1, f1, Option.bind_eq_bind, Option.bind_some, Option.pure_def]

theorem Rep.peek (hle : TotalPreorder le) {h : Heap α} {w t : List α} (hr : Rep le h w t) :
    (w = [] → h.peek = none) ∧ (w ≠ [] → ∃ x, h.peek = some x ∧ x ∈ w ∧ ∀ y ∈ w, le y x = true) ∧ (h.pop le).map (·.1) = some h.peek := by
  rcases pop_spec hle hr.inv with ⟨e0, e1⟩ | ⟨x, h', e1, e2, e3, e4, e5, e6⟩
  · have hw : w = [] := by
      have := hr.waiting
      rw [e0, List.take_zero] at this
      exact this.nil_eq.symm
    have hp : h.peek = none := by simp [Heap.peek, e0]
    exact ⟨fun _ => hp, fun hne => absurd hw hne, by rw [e1, hp]; rfl⟩
  · have hperm := hr.waiting.symm.trans e3
    refine ⟨fun hw => ?_, fun _ => ⟨x, e6, hperm.mem_iff.2 (by simp), fun y hy => ?_⟩, by rw [e1, e6]; rfl⟩
    · rw [hw] at hperm; exact absurd hperm.symm.eq_nil (by simp)
    · rcases List.mem_cons.1 (hperm.mem_iff.1 hy) with rfl | hy
      · exact le_refl hle _
      · exact e4 y hy

theorem Rep.new : Rep le (new : Heap α) [] [] := ⟨⟨Nat.le_refl _, fun i h0 hi => by simp only [Heap.new] at hi; omega⟩, by simp [Heap.new], by simp [Heap.new, popped]⟩

end Heap
end Verif
