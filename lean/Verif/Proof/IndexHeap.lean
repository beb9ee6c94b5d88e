import Verif.Model.IndexHeap
/- Helper lemmas for the indexed heap. -/
set_option linter.unusedSimpArgs false
set_option linter.unusedSectionVars false
namespace Verif
namespace IHeap
variable {α : Type} [HeapElem α]
open HeapElem

/-- `a ≤ b` -/
def le (a b : α) : Prop := lt b a = false

section order
variable [LawfulHeapElem α]
theorem le_refl (a : α) : le a a := LawfulHeapElem.irrefl a
theorem le_trans {a b c : α} (h1 : le a b) (h2 : le b c) : le a c := by
  unfold le at *
  cases hca : lt c a with
  | false => rfl
  | true =>
    cases hab : lt a b with
    | true =>
      have := LawfulHeapElem.trans c a b hca hab
      simp_all
    | false =>
      have := LawfulHeapElem.total a b hab h1
      subst this; simp_all
theorem le_total' (a b : α) : le a b ∨ le b a := by
  unfold le
  cases h1 : lt b a with
  | false => left; rfl
  | true =>
    right
    cases h2 : lt a b with
    | false => rfl
    | true =>
      have := LawfulHeapElem.trans a b a h2 h1
      have := LawfulHeapElem.irrefl a
      simp_all
theorem le_of_lt {a b : α} (h : lt a b = true) : le a b := by
  rcases le_total' a b with h' | h'
  · exact h'
  · unfold le at h'; simp_all
end order

/-- positions and data agree -/
structure PosOK (ps : List (Option Nat)) (ds : List α) : Prop where
  fwd : ∀ i x, ds[i]? = some x → ps[idx x]? = some (some i)
  bwd : ∀ id p, ps[id]? = some (some p) → ∃ x, ds[p]? = some x ∧ idx x = id

def ordAt (ds : List α) (i : Nat) : Prop :=
  ∀ x xp, ds[i]? = some x → ds[(i-1)/4]? = some xp → le xp x

def HeapOrd (ds : List α) : Prop := ∀ i, 0 < i → ordAt ds i

structure Inv (h : IHeap α) : Prop where
  pos : PosOK h.positions h.data
  ord : HeapOrd h.data

theorem PosOK.inj {ps : List (Option Nat)} {ds : List α} (hp : PosOK ps ds) {i j : Nat} {x y : α}
    (hi : ds[i]? = some x) (hj : ds[j]? = some y) (h : idx x = idx y) : i = j := by
  have h1 := hp.fwd i x hi
  have h2 := hp.fwd j y hj
  rw [h] at h1; rw [h1] at h2; simpa using h2

theorem PosOK.idx_lt {ps : List (Option Nat)} {ds : List α} (hp : PosOK ps ds) {i : Nat} {x : α}
    (hi : ds[i]? = some x) : idx x < ps.length := by
  have h1 := hp.fwd i x hi
  exact (List.getElem?_eq_some_iff.1 h1).1

theorem PosOK.swap {ps : List (Option Nat)} {ds : List α} (hp : PosOK ps ds) {i j : Nat} {a b : α}
    (hi : ds[i]? = some a) (hj : ds[j]? = some b) (hij : i ≠ j) :
    PosOK ((ps.set (idx a) (some j)).set (idx b) (some i)) ((ds.set i b).set j a) := by
  have hne : idx a ≠ idx b := fun h => hij (hp.inj hi hj h)
  have hla := hp.idx_lt hi
  have hlb := hp.idx_lt hj
  have hli := (List.getElem?_eq_some_iff.1 hi).1
  have hlj := (List.getElem?_eq_some_iff.1 hj).1
  constructor
  · intro k y hk
    by_cases hkj : j = k
    · subst hkj
      simp [hlj] at hk
      subst hk
      simp [List.getElem?_set, hne.symm, hla]
    · simp only [List.getElem?_set, hkj, if_false] at hk
      by_cases hki : i = k
      · subst hki
        simp [hli] at hk
        subst hk
        simp [List.getElem?_set, hlb]
      · simp only [hki, if_false] at hk
        have h1 : idx b ≠ idx y := fun h => hkj (hp.inj hj hk h)
        have h2 : idx a ≠ idx y := fun h => hki (hp.inj hi hk h)
        simp only [List.getElem?_set, h1, h2, if_false]
        exact hp.fwd k y hk
  · intro id p hps
    by_cases hb : idx b = id
    · subst hb
      simp [hlb] at hps
      subst hps
      exact ⟨b, by simp [List.getElem?_set, hij.symm, hli], rfl⟩
    · simp only [List.getElem?_set, hb, if_false] at hps
      by_cases ha : idx a = id
      · subst ha
        simp [hla] at hps
        subst hps
        exact ⟨a, by simp [List.getElem?_set, hlj], rfl⟩
      · simp only [ha, if_false] at hps
        obtain ⟨x, hx, hid⟩ := hp.bwd id p hps
        have h1 : j ≠ p := by
          intro h; subst h; rw [hj] at hx; simp at hx; subst hx; exact hb hid
        have h2 : i ≠ p := by
          intro h; subst h; rw [hi] at hx; simp at hx; subst hx; exact ha hid
        exact ⟨x, by simp [List.getElem?_set, h1, h2, hx], hid⟩

theorem mem_swap {ds : List α} {i j : Nat} {a b : α}
    (hi : ds[i]? = some a) (hj : ds[j]? = some b) (x : α) :
    x ∈ (ds.set i b).set j a ↔ x ∈ ds := by
  have hli := (List.getElem?_eq_some_iff.1 hi).1
  have hlj := (List.getElem?_eq_some_iff.1 hj).1
  simp only [List.mem_iff_getElem?, List.getElem?_set]
  constructor
  · rintro ⟨k, hk⟩
    by_cases h1 : j = k
    · simp [h1] at hk
      exact ⟨i, by rw [hi, ← hk.2]⟩
    · by_cases h2 : i = k
      · simp [h1, h2] at hk
        exact ⟨j, by rw [hj, ← hk.2]⟩
      · simp [h1, h2] at hk
        exact ⟨k, hk⟩
  · rintro ⟨k, hk⟩
    by_cases h1 : j = k
    · subst h1
      by_cases h2 : i = j
      · subst h2; refine ⟨i, ?_⟩; simp [hli]; rw [hi] at hk; simpa using hk
      · refine ⟨i, ?_⟩; simp [Ne.symm h2, hli]; rw [hj] at hk; simpa using hk
    · by_cases h2 : i = k
      · subst h2; refine ⟨j, ?_⟩; simp [hlj]; rw [hi] at hk; simpa using hk
      · exact ⟨k, by simp [h1, h2, hk]⟩

/-- The effect of the two sift operations. -/
structure Moved (ps : List (Option Nat)) (ds : List α) (h' : IHeap α) : Prop where
  inv : Inv h'
  len : h'.data.length = ds.length
  plen : h'.positions.length = ps.length
  mem : ∀ x, x ∈ h'.data ↔ x ∈ ds

variable [LawfulHeapElem α]

theorem moveUpAux_spec (fuel : Nat) (h : IHeap α) (pos : Nat) (hf : pos ≤ fuel)
    (hpos : pos < h.data.length) (hp : PosOK h.positions h.data)
    (ho : ∀ i, 0 < i → i ≠ pos → ordAt h.data i)
    (hg : ∀ c, 0 < c → (c - 1) / 4 = pos → 0 < pos → ∀ xc xp, h.data[c]? = some xc →
      h.data[(pos - 1) / 4]? = some xp → le xp xc) :
    ∃ h', moveUpAux fuel h pos = some h' ∧ Moved h.positions h.data h' := by
  induction fuel generalizing h pos with
  | zero =>
    have : pos = 0 := by omega
    subst this
    refine ⟨h, by simp [moveUpAux], ⟨hp, ?_⟩, rfl, rfl, fun _ => Iff.rfl⟩
    intro i hi; exact ho i hi (by omega)
  | succ fuel ih =>
    by_cases h0 : pos = 0
    · subst h0
      refine ⟨h, by simp [moveUpAux], ⟨hp, ?_⟩, rfl, rfl, fun _ => Iff.rfl⟩
      intro i hi; exact ho i hi (by omega)
    have hpp : (pos - 1) / 4 < pos := by omega
    have hx : h.data[pos]? = some h.data[pos] := List.getElem?_eq_getElem hpos
    have hppl : (pos - 1) / 4 < h.data.length := by omega
    have hxp : h.data[(pos - 1) / 4]? = some h.data[(pos - 1) / 4] := List.getElem?_eq_getElem hppl
    generalize h.data[pos] = x at hx
    generalize h.data[(pos - 1) / 4] = xp at hxp
    by_cases hlt : lt xp x = true
    · refine ⟨h, by simp [moveUpAux, h0, hx, hxp, hlt], ⟨hp, ?_⟩, rfl, rfl, fun _ => Iff.rfl⟩
      intro i hi
      by_cases hip : i = pos
      · subst hip
        intro y yp hy hyp
        rw [hx] at hy; rw [hxp] at hyp
        simp at hy hyp; subst hy; subst hyp
        exact le_of_lt hlt
      · exact ho i hi hip
    · have hle : le x xp := by unfold le; simpa using hlt
      have hpx := hp.fwd _ _ hx
      have hpxp := hp.fwd _ _ hxp
      have hl1 := hp.idx_lt hx
      have hl2 := hp.idx_lt hxp
      have hsw := hp.swap hxp hx (by omega)
      obtain ⟨h', he, hm⟩ := ih ⟨(h.positions.set (idx xp) (some pos)).set (idx x) (some ((pos - 1) / 4)),
        (h.data.set ((pos - 1) / 4) x).set pos xp⟩ ((pos - 1) / 4) (by omega) (by simpa using hppl) hsw
        (by
          intro i hi hne y yp hy hyp
          simp only [List.getElem?_set, hppl, List.length_set, hpos] at hy hyp
          by_cases h1 : pos = i
          · subst h1
            simp [Ne.symm hne] at hy
            simp [show ¬ (pos = (pos-1)/4) by omega] at hyp
            subst hy; subst hyp; exact hle
          · simp [h1, Ne.symm hne] at hy
            by_cases h2 : pos = (i - 1)/4
            · simp [← h2] at hyp
              subst hyp
              exact hg i hi h2.symm (by omega) y xp hy hxp
            · simp only [h2, if_false] at hyp
              by_cases h3 : (pos-1)/4 = (i-1)/4
              · simp [← h3] at hyp
                subst hyp
                have := ho i hi (Ne.symm h1) y xp hy (by rw [← h3]; exact hxp)
                exact le_trans hle this
              · simp [h3] at hyp
                exact ho i hi (Ne.symm h1) y yp hy hyp)
        (by
          intro c hc hcp hpos' xc xq hxc hxq
          simp only [List.getElem?_set, hppl, List.length_set, hpos] at hxc hxq
          have e1 : ¬ (pos = ((pos-1)/4 - 1)/4) := by omega
          have e2 : ¬ ((pos-1)/4 = ((pos-1)/4 - 1)/4) := by omega
          simp [e1, e2] at hxq
          have hq := ho ((pos-1)/4) hpos' (by omega) xp xq hxp hxq
          by_cases h1 : pos = c
          · simp [h1] at hxc
            subst hxc; exact hq
          · have : ¬ ((pos-1)/4 = c) := by omega
            simp [h1, this] at hxc
            have := ho c hc (Ne.symm h1) xc xp hxc (by rw [hcp]; exact hxp)
            exact le_trans hq this)
      refine ⟨h', ?_, hm.inv, ?_, ?_, ?_⟩
      · have hlt' : lt xp x = false := by simpa using hlt
        rw [moveUpAux]
        simp only [h0, if_false, hx, hxp, hlt', hpx, hpxp, Option.bind_eq_bind, Option.bind_some, Bool.false_eq_true]
        simp [upd_of_lt, hl1, hl2, hpos, hppl, he]
      · simpa using hm.len
      · simpa using hm.plen
      · intro y; rw [hm.mem]; exact mem_swap hxp hx y

theorem minByKey_go_spec (ds : List α) (best : Nat) (xb : α) (js : List Nat)
    (hb : ds[best]? = some xb) (hjs : ∀ j ∈ js, j < ds.length) :
    ∃ c xc, minByKey.go ds best xb js = some c ∧ ds[c]? = some xc ∧ (c = best ∨ c ∈ js) ∧
      le xc xb ∧ ∀ j ∈ js, ∀ xj, ds[j]? = some xj → le xc xj := by
  induction js generalizing best xb with
  | nil => exact ⟨best, xb, rfl, hb, Or.inl rfl, le_refl _, by simp⟩
  | cons j js ih =>
    have hj : j < ds.length := hjs j (by simp)
    have hxj : ds[j]? = some ds[j] := List.getElem?_eq_getElem hj
    generalize ds[j] = xj at hxj
    by_cases hlt : lt xj xb = true
    · obtain ⟨c, xc, h1, h2, h3, h4, h5⟩ := ih j xj hxj (fun k hk => hjs k (by simp [hk]))
      refine ⟨c, xc, by simp [minByKey.go, hxj, hlt, h1], h2, ?_, le_trans h4 (le_of_lt hlt), ?_⟩
      · rcases h3 with h3 | h3 <;> simp [h3]
      · intro k hk xk hxk
        rcases List.mem_cons.1 hk with hk | hk
        · subst hk; rw [hxj] at hxk; simp at hxk; subst hxk; exact h4
        · exact h5 k hk xk hxk
    · obtain ⟨c, xc, h1, h2, h3, h4, h5⟩ := ih best xb hb (fun k hk => hjs k (by simp [hk]))
      have hlt' : lt xj xb = false := by simpa using hlt
      refine ⟨c, xc, by simp [minByKey.go, hxj, hlt', h1], h2, ?_, h4, ?_⟩
      · rcases h3 with h3 | h3 <;> simp [h3]
      · intro k hk xk hxk
        rcases List.mem_cons.1 hk with hk | hk
        · subst hk; rw [hxj] at hxk; simp at hxk; subst hxk; exact le_trans h4 hlt'
        · exact h5 k hk xk hxk

theorem minByKey_spec (ds : List α) (js : List Nat) (hjs : ∀ j ∈ js, j < ds.length) :
    (js = [] ∧ minByKey ds js = some none) ∨
    ∃ c xc, minByKey ds js = some (some c) ∧ ds[c]? = some xc ∧ c ∈ js ∧
      ∀ j ∈ js, ∀ xj, ds[j]? = some xj → le xc xj := by
  cases js with
  | nil => left; exact ⟨rfl, rfl⟩
  | cons j js =>
    right
    have hj : j < ds.length := hjs j (by simp)
    have hxj : ds[j]? = some ds[j] := List.getElem?_eq_getElem hj
    generalize ds[j] = xj at hxj
    obtain ⟨c, xc, h1, h2, h3, h4, h5⟩ := minByKey_go_spec ds j xj js hxj (fun k hk => hjs k (by simp [hk]))
    refine ⟨c, xc, by simp [minByKey, hxj, h1], h2, by simpa using h3, ?_⟩
    intro k hk xk hxk
    rcases List.mem_cons.1 hk with hk | hk
    · subst hk; rw [hxj] at hxk; simp at hxk; subst hxk; exact h4
    · exact h5 k hk xk hxk

omit [HeapElem α] [LawfulHeapElem α] in
theorem mem_childrenRange {p n c : Nat} : c ∈ childrenRange p n ↔ c < n ∧ 0 < c ∧ (c - 1) / 4 = p := by
  simp only [childrenRange, List.mem_map, List.mem_range]
  constructor
  · rintro ⟨a, ha, rfl⟩; omega
  · rintro ⟨h1, h2, h3⟩
    exact ⟨c - (4 * p + 1), by omega, by omega⟩

theorem moveDownAux_spec (fuel : Nat) (ps : List (Option Nat)) (ds : List α) (pos : Nat) (x : α)
    (hf : ds.length < fuel + pos) (hpos : pos < ds.length) (hix : idx x < ps.length)
    (hp : PosOK (ps.set (idx x) (some pos)) (ds.set pos x))
    (ho : ∀ i, 0 < i → (i - 1) / 4 ≠ pos → ordAt (ds.set pos x) i)
    (hg : ∀ c, 0 < c → (c - 1) / 4 = pos → 0 < pos → ∀ xc xp, ds[c]? = some xc →
      ds[(pos - 1) / 4]? = some xp → le xp xc) :
    ∃ h', moveDownAux fuel ps ds pos x = some h' ∧ Moved ps (ds.set pos x) h' := by
  induction fuel generalizing ps ds pos with
  | zero => omega
  | succ fuel ih =>
    rcases minByKey_spec ds (childrenRange pos ds.length) (fun j hj => (mem_childrenRange.1 hj).1) with
      ⟨hnil, hmin⟩ | ⟨c, xc, hmin, hxc, hc, hcmin⟩
    · refine ⟨⟨ps.set (idx x) (some pos), ds.set pos x⟩, ?_, ⟨hp, ?_⟩, by simp, by simp, fun _ => Iff.rfl⟩
      · rw [moveDownAux]; simp [hmin, upd_of_lt, hix, hpos]
      · intro i hi
        by_cases hip : (i - 1)/4 = pos
        · intro y yp hy
          have : i < ds.length := by simpa using (List.getElem?_eq_some_iff.1 hy).1
          have : i ∈ childrenRange pos ds.length := mem_childrenRange.2 ⟨this, hi, hip⟩
          rw [hnil] at this; simp at this
        · exact ho i hi hip
    · obtain ⟨hcl, hc0, hcp⟩ := mem_childrenRange.1 hc
      by_cases hlt : lt xc x = false
      · refine ⟨⟨ps.set (idx x) (some pos), ds.set pos x⟩, ?_, ⟨hp, ?_⟩, by simp, by simp, fun _ => Iff.rfl⟩
        · rw [moveDownAux]; simp [hmin, hxc, hlt, upd_of_lt, hix, hpos]
        · intro i hi
          by_cases hip : (i - 1)/4 = pos
          · intro y yp hy hyp
            have hil : i < ds.length := by simpa using (List.getElem?_eq_some_iff.1 hy).1
            have him : i ∈ childrenRange pos ds.length := mem_childrenRange.2 ⟨hil, hi, hip⟩
            have hne : pos ≠ i := by omega
            rw [hip] at hyp
            simp [hpos] at hyp
            simp [hne] at hy
            subst hyp
            exact le_trans hlt (hcmin i him y hy)
          · exact ho i hi hip
      · have hlt' : lt xc x = true := by simpa using hlt
        have hne : pos ≠ c := by omega
        have hvx : (ds.set pos x)[pos]? = some x := by simp [hpos]
        have hvc : (ds.set pos x)[c]? = some xc := by simp [hne, hxc]
        have hidx : idx x ≠ idx xc := fun h => hne (hp.inj hvx hvc h)
        have hixc : idx xc < ps.length := by simpa using hp.idx_lt hvc
        have hsw := hp.swap hvx hvc hne
        rw [List.set_set, List.set_set, List.set_comm _ _ hidx] at hsw
        have hcl' : c < ds.length := hcl
        obtain ⟨h', he, hm⟩ := ih (ps.set (idx xc) (some pos)) (ds.set pos xc) c (by simp; omega) (by simpa using hcl)
          (by simpa using hix) hsw
          (by
            intro i hi hic y yp hy hyp
            have hil : i < ds.length := by simpa using (List.getElem?_eq_some_iff.1 hy).1
            simp only [List.getElem?_set, List.length_set, hpos, hcl', Ne.symm hic, if_false] at hy hyp
            by_cases h1 : c = i
            · subst h1
              simp at hy
              simp [hcp] at hyp
              subst hy; subst hyp
              exact le_of_lt hlt'
            · simp only [h1, if_false] at hy
              by_cases h2 : pos = (i - 1)/4
              · simp [h2.symm] at hyp
                have : pos ≠ i := by omega
                simp [this] at hy
                subst hyp
                exact hcmin i (mem_childrenRange.2 ⟨hil, hi, h2.symm⟩) y hy
              · simp [h2] at hyp
                by_cases h3 : pos = i
                · simp [h3] at hy
                  subst hy
                  exact hg c hc0 hcp (by omega) xc yp hxc (by rw [h3]; exact hyp)
                · simp [h3] at hy
                  exact ho i hi (Ne.symm h2) y yp (by simp [h3, hy]) (by simp [h2, hyp]))
          (by
            intro k hk hkc hc0' xk xp hxk hxp
            have h1 : pos ≠ k := by omega
            simp [h1] at hxk
            rw [hcp] at hxp
            simp [hpos] at hxp
            subst hxp
            exact ho k hk (by omega) xk xc (by simp [h1, hxk]) (by rw [hkc]; exact hvc))
        refine ⟨h', ?_, hm.inv, ?_, ?_, ?_⟩
        · rw [moveDownAux]
          simp [hmin, hxc, hlt', upd_of_lt, hixc, hpos, he]
        · simpa using hm.len
        · simpa using hm.plen
        · intro y; rw [hm.mem]
          have := mem_swap hvx hvc y
          rw [List.set_set] at this
          exact this

end IHeap
end Verif

namespace Verif
namespace IHeap
variable {α : Type} [HeapElem α]
open HeapElem

/-- What `get` returns, forgetting about panics. -/
def lookup (h : IHeap α) (id : Nat) : Option α :=
  match h.get id with
  | some (some x) => some x
  | _ => none

theorem lookup_eq_some {h : IHeap α} (hp : PosOK h.positions h.data) {id : Nat} {x : α} :
    h.lookup id = some x ↔ x ∈ h.data ∧ idx x = id := by
  unfold lookup get
  constructor
  · intro hl
    split at hl
    · rename_i y hy
      split at hy
      · simp at hy
      · simp at hy
      · rename_i p hpp
        obtain ⟨z, hz, hid⟩ := hp.bwd id p hpp
        rw [hz] at hy
        simp at hy hl
        subst hy; subst hl
        exact ⟨List.mem_of_getElem? hz, hid⟩
    · simp at hl
  · rintro ⟨hm, rfl⟩
    obtain ⟨i, hi⟩ := List.mem_iff_getElem?.1 hm
    rw [hp.fwd i x hi]
    simp [hi]

theorem lookup_congr {h h' : IHeap α} (hp : PosOK h.positions h.data) (hp' : PosOK h'.positions h'.data)
    (hm : ∀ x, x ∈ h'.data ↔ x ∈ h.data) (id : Nat) : h'.lookup id = h.lookup id := by
  apply Option.ext
  intro x
  rw [lookup_eq_some hp, lookup_eq_some hp', hm]

/-- `h` represents the finite map `m` (id ↦ element) over the id space `0..n`. -/
structure Rep (n : Nat) (h : IHeap α) (m : Nat → Option α) : Prop where
  inv : Inv h
  len : h.positions.length = n
  look : ∀ id, h.lookup id = m id

theorem Rep.mem {n : Nat} {h : IHeap α} {m : Nat → Option α} (hr : Rep n h m) {x : α} :
    x ∈ h.data ↔ m (idx x) = some x := by
  rw [← hr.look, lookup_eq_some hr.inv.pos]; simp

theorem Rep.idx_eq {n : Nat} {h : IHeap α} {m : Nat → Option α} (hr : Rep n h m) {x : α} {id : Nat}
    (hx : m id = some x) : idx x = id := by
  rw [← hr.look, lookup_eq_some hr.inv.pos] at hx; exact hx.2

theorem Rep.lt {n : Nat} {h : IHeap α} {m : Nat → Option α} (hr : Rep n h m) {x : α} {id : Nat}
    (hx : m id = some x) : id < n := by
  rw [← hr.look, lookup_eq_some hr.inv.pos] at hx
  obtain ⟨hm, rfl⟩ := hx
  obtain ⟨i, hi⟩ := List.mem_iff_getElem?.1 hm
  rw [← hr.len]; exact hr.inv.pos.idx_lt hi

theorem PosOK.pos_of_lookup {h : IHeap α} (hp : PosOK h.positions h.data) {id : Nat} {x : α}
    (hx : h.lookup id = some x) : ∃ p, h.positions[id]? = some (some p) ∧ h.data[p]? = some x := by
  rw [lookup_eq_some hp] at hx
  obtain ⟨hm, rfl⟩ := hx
  obtain ⟨i, hi⟩ := List.mem_iff_getElem?.1 hm
  exact ⟨i, hp.fwd i x hi, hi⟩

theorem PosOK.pos_of_lookup_none {h : IHeap α} (hp : PosOK h.positions h.data) {id : Nat}
    (hl : id < h.positions.length) (hx : h.lookup id = none) : h.positions[id]? = some none := by
  have h1 : h.positions[id]? = some h.positions[id] := List.getElem?_eq_getElem hl
  generalize h.positions[id] = p at h1
  cases p with
  | none => exact h1
  | some p =>
    obtain ⟨x, hx', hid⟩ := hp.bwd id p h1
    have : h.lookup id = some x := (lookup_eq_some hp).2 ⟨List.mem_of_getElem? hx', hid⟩
    rw [this] at hx; simp at hx

theorem rep_new (n : Nat) : Rep n (IHeap.new n : IHeap α) (fun _ => none) := by
  have hp : PosOK (IHeap.new n : IHeap α).positions (IHeap.new n : IHeap α).data := by
    constructor
    · intro i x hx; simp [new] at hx
    · intro id p hps; simp [new, List.getElem?_replicate] at hps
  refine ⟨⟨hp, ?_⟩, by simp [new], ?_⟩
  · intro i _ x xp hx; simp [new] at hx
  · intro id
    apply Option.ext; intro x
    rw [lookup_eq_some hp]; simp [new]

theorem rep_containsIndex {n : Nat} {h : IHeap α} {m : Nat → Option α} (hr : Rep n h m) {id : Nat}
    (hid : id < n) : h.containsIndex id = some (m id).isSome := by
  unfold containsIndex
  cases hm : m id with
  | none =>
    rw [hr.inv.pos.pos_of_lookup_none (by rw [hr.len]; exact hid) (by rw [hr.look, hm])]; simp
  | some x =>
    obtain ⟨p, h1, _⟩ := hr.inv.pos.pos_of_lookup (by rw [hr.look, hm])
    rw [h1]; simp

theorem rep_get {n : Nat} {h : IHeap α} {m : Nat → Option α} (hr : Rep n h m) {id : Nat}
    (hid : id < n) : h.get id = some (m id) := by
  unfold get
  cases hm : m id with
  | none =>
    rw [hr.inv.pos.pos_of_lookup_none (by rw [hr.len]; exact hid) (by rw [hr.look, hm])]
  | some x =>
    obtain ⟨p, h1, h2⟩ := hr.inv.pos.pos_of_lookup (by rw [hr.look, hm])
    rw [h1]; simp [h2]

theorem clear_go_spec (xs : List α) (ps : List (Option Nat)) (h : ∀ x ∈ xs, idx x < ps.length) :
    ∃ ps', clear.go xs ps = some ps' ∧ ps'.length = ps.length ∧
      ∀ id, ps'[id]? = if ∃ x ∈ xs, idx x = id then some none else ps[id]? := by
  induction xs generalizing ps with
  | nil => exact ⟨ps, rfl, rfl, by simp⟩
  | cons x xs ih =>
    have hx := h x (by simp)
    obtain ⟨ps', h1, h2, h3⟩ := ih (ps.set (idx x) none) (fun y hy => by simpa using h y (by simp [hy]))
    refine ⟨ps', ?_, by simpa using h2, ?_⟩
    · simp [clear.go, upd_of_lt, hx, h1]
    · intro id
      rw [h3]
      by_cases hid : idx x = id
      · subst hid; simp [hx]
      · simp [hid]

theorem rep_clear {n : Nat} {h : IHeap α} {m : Nat → Option α} (hr : Rep n h m) :
    ∃ h', h.clear = some h' ∧ Rep n h' (fun _ => none) := by
  obtain ⟨ps', h1, h2, h3⟩ := clear_go_spec h.data h.positions (by
    intro x hx
    obtain ⟨i, hi⟩ := List.mem_iff_getElem?.1 hx
    exact hr.inv.pos.idx_lt hi)
  refine ⟨⟨ps', []⟩, by simp [clear, h1], ?_⟩
  have hp : PosOK ps' ([] : List α) := by
    constructor
    · intro i x hx; simp at hx
    · intro id p hps
      rw [h3] at hps
      split at hps
      · simp at hps
      · rename_i hne
        obtain ⟨x, hx, hid⟩ := hr.inv.pos.bwd id p hps
        exact absurd ⟨x, List.mem_of_getElem? hx, hid⟩ hne
  refine ⟨⟨hp, ?_⟩, by rw [h2, hr.len], ?_⟩
  · intro i _ x xp hx; simp at hx
  · intro id
    apply Option.ext; intro x
    rw [lookup_eq_some hp]; simp

variable [LawfulHeapElem α]

theorem rep_push {n : Nat} {h : IHeap α} {m : Nat → Option α} (hr : Rep n h m) {x : α}
    (hx : idx x < n) (hm : m (idx x) = none) :
    ∃ h', h.push x = some h' ∧ Rep n h' (fupd m (idx x) (some x)) := by
  have hc := rep_containsIndex hr hx
  have hnone := hr.inv.pos.pos_of_lookup_none (by rw [hr.len]; exact hx) (by rw [hr.look, hm])
  have hlt : idx x < h.positions.length := by rw [hr.len]; exact hx
  have hnotin : ∀ (i : Nat) (y : α), h.data[i]? = some y → idx y ≠ idx x := by
    intro i y hy he
    have := hr.inv.pos.fwd i y hy
    rw [he, hnone] at this; simp at this
  have hp : PosOK (h.positions.set (idx x) (some h.data.length)) (h.data ++ [x]) := by
    constructor
    · intro i y hy
      by_cases hi : i < h.data.length
      · rw [List.getElem?_append_left hi] at hy
        have := hnotin i y hy
        simp [Ne.symm this, hr.inv.pos.fwd i y hy]
      · rw [List.getElem?_append_right (by omega)] at hy
        have hi2 : i = h.data.length := by
          have := (List.getElem?_eq_some_iff.1 hy).1
          simp at this; omega
        subst hi2
        simp at hy; subst hy
        simp [hlt]
    · intro id p hps
      by_cases hid : idx x = id
      · subst hid
        simp [hlt] at hps
        subst hps
        exact ⟨x, by simp, rfl⟩
      · simp [hid] at hps
        obtain ⟨y, hy, hidy⟩ := hr.inv.pos.bwd id p hps
        have := (List.getElem?_eq_some_iff.1 hy).1
        exact ⟨y, by rw [List.getElem?_append_left this]; exact hy, hidy⟩
  obtain ⟨h', he, hmv⟩ := moveUpAux_spec h.data.length
    ⟨h.positions.set (idx x) (some h.data.length), h.data ++ [x]⟩ h.data.length (Nat.le_refl _)
    (by simp) hp
    (by
      intro i hi hne y yp hy hyp
      have hil : i < h.data.length := by
        have := (List.getElem?_eq_some_iff.1 hy).1
        simp at this; omega
      simp only at hy hyp
      rw [List.getElem?_append_left hil] at hy
      rw [List.getElem?_append_left (by omega)] at hyp
      exact hr.inv.ord i hi y yp hy hyp)
    (by
      intro c hc hcp hl xc xp hxc
      have := (List.getElem?_eq_some_iff.1 hxc).1
      simp at this; omega)
  refine ⟨h', ?_, hmv.inv, ?_, ?_⟩
  · simp [push, hc, hm, upd_of_lt, hlt, moveUp, len, he]
  · rw [hmv.plen]; simp [hr.len]
  · intro id
    apply Option.ext; intro y
    rw [lookup_eq_some hmv.inv.pos, hmv.mem]
    simp only [List.mem_append, List.mem_singleton]
    by_cases hid : id = idx x
    · subst hid
      simp
      constructor
      · rintro ⟨h1 | h1, h2⟩
        · obtain ⟨i, hi⟩ := List.mem_iff_getElem?.1 h1
          exact absurd h2 (hnotin i y hi)
        · exact h1.symm
      · intro h1; subst h1; simp
    · rw [fupd_of_ne _ _ hid, ← hr.look, lookup_eq_some hr.inv.pos]
      constructor
      · rintro ⟨h1 | h1, h2⟩
        · exact ⟨h1, h2⟩
        · subst h1; exact absurd h2.symm hid
      · rintro ⟨h1, h2⟩; exact ⟨Or.inl h1, h2⟩

omit [LawfulHeapElem α] in
/-- overwriting an element by one of the same id -/
theorem posOK_replace {ps : List (Option Nat)} {ds : List α} (hp : PosOK ps ds) {p : Nat} {x y : α}
    (hy : ds[p]? = some y) (hid : idx x = idx y) : PosOK ps (ds.set p x) := by
  have hpl := (List.getElem?_eq_some_iff.1 hy).1
  constructor
  · intro i z hz
    by_cases hi : p = i
    · subst hi
      simp [hpl] at hz; subst hz
      rw [hid]; exact hp.fwd _ _ hy
    · simp [hi] at hz; exact hp.fwd i z hz
  · intro id q hq
    obtain ⟨z, hz, hidz⟩ := hp.bwd id q hq
    by_cases hq' : p = q
    · subst hq'
      rw [hy] at hz; simp at hz; subst hz
      exact ⟨x, by simp [hpl], by rw [hid, hidz]⟩
    · exact ⟨z, by simp [hq', hz], hidz⟩

omit [LawfulHeapElem α] in
theorem lookup_replace {n : Nat} {h : IHeap α} {m : Nat → Option α} (hr : Rep n h m) {p : Nat} {x y : α}
    (hy : h.data[p]? = some y) (hid : idx x = idx y) {h' : IHeap α} (hmv : Moved h.positions (h.data.set p x) h')
    (id : Nat) : h'.lookup id = fupd m (idx x) (some x) id := by
  have hpl := (List.getElem?_eq_some_iff.1 hy).1
  have hp := posOK_replace hr.inv.pos hy hid
  apply Option.ext; intro z
  rw [lookup_eq_some hmv.inv.pos, hmv.mem, ← lookup_eq_some (h := ⟨h.positions, h.data.set p x⟩) hp]
  by_cases hidx : id = idx x
  · subst hidx
    rw [fupd_same, lookup_eq_some (h := ⟨h.positions, h.data.set p x⟩) hp]
    constructor
    · rintro ⟨h1, h2⟩
      obtain ⟨i, hi⟩ := List.mem_iff_getElem?.1 h1
      have : p = i := hp.inj (x := x) (by simp [hpl]) hi h2.symm
      subst this
      simp [hpl] at hi; rw [hi]
    · intro h1; simp at h1; subst h1
      exact ⟨List.mem_iff_getElem?.2 ⟨p, by simp [hpl]⟩, rfl⟩
  · rw [fupd_of_ne _ _ hidx, ← hr.look, lookup_eq_some (h := ⟨h.positions, h.data.set p x⟩) hp,
      lookup_eq_some hr.inv.pos]
    constructor
    · rintro ⟨h1, h2⟩
      obtain ⟨i, hi⟩ := List.mem_iff_getElem?.1 h1
      have hpi : p ≠ i := by
        intro hpi; subst hpi; simp [hpl] at hi; subst hi; exact hidx h2.symm
      simp [hpi] at hi
      exact ⟨List.mem_of_getElem? hi, h2⟩
    · rintro ⟨h1, h2⟩
      obtain ⟨i, hi⟩ := List.mem_iff_getElem?.1 h1
      have hpi : p ≠ i := by
        intro hpi; subst hpi; rw [hy] at hi; simp at hi; subst hi; exact hidx (by rw [hid, h2])
      exact ⟨List.mem_iff_getElem?.2 ⟨i, by simp [hpi, hi]⟩, h2⟩

theorem rep_decreaseKey {n : Nat} {h : IHeap α} {m : Nat → Option α} (hr : Rep n h m) {x y : α}
    (hm : m (idx x) = some y) (hle : le x y) :
    ∃ h', h.decreaseKey x = some h' ∧ Rep n h' (fupd m (idx x) (some x)) := by
  obtain ⟨p, hpp, hy⟩ := hr.inv.pos.pos_of_lookup (by rw [hr.look, hm])
  have hid : idx x = idx y := (hr.idx_eq hm).symm
  have hpl := (List.getElem?_eq_some_iff.1 hy).1
  have hp := posOK_replace hr.inv.pos hy hid
  have hpx : (h.data.set p x)[p]? = some x := by simp [hpl]
  obtain ⟨h', he, hmv⟩ := moveUpAux_spec p ⟨h.positions, h.data.set p x⟩ p (Nat.le_refl _) (by simpa using hpl) hp
    (by
      intro i hi hne z zp hz hzp
      simp only [List.getElem?_set, hpl, Ne.symm hne, if_false] at hz hzp
      by_cases h1 : p = (i - 1)/4
      · simp [← h1] at hzp; subst hzp
        exact le_trans hle (hr.inv.ord i hi z y hz (by rw [← h1]; exact hy))
      · simp [h1] at hzp
        exact hr.inv.ord i hi z zp hz hzp)
    (by
      intro c hc hcp hp0 xc xp hxc hxp
      have h1 : p ≠ c := by omega
      have h2 : p ≠ (p-1)/4 := by omega
      simp [h1] at hxc
      simp [h2] at hxp
      exact le_trans (hr.inv.ord p hp0 y xp hy hxp) (hr.inv.ord c hc xc y hxc (by rw [hcp]; exact hy)))
  refine ⟨h', ?_, hmv.inv, by rw [hmv.plen]; exact hr.len, lookup_replace hr hy hid hmv⟩
  simp [decreaseKey, hpp, upd_of_lt, hpl, moveUp, he]

theorem rep_increaseKey {n : Nat} {h : IHeap α} {m : Nat → Option α} (hr : Rep n h m) {x y : α}
    (hm : m (idx x) = some y) (hle : le y x) :
    ∃ h', h.increaseKey x = some h' ∧ Rep n h' (fupd m (idx x) (some x)) := by
  obtain ⟨p, hpp, hy⟩ := hr.inv.pos.pos_of_lookup (by rw [hr.look, hm])
  have hid : idx x = idx y := (hr.idx_eq hm).symm
  have hpl := (List.getElem?_eq_some_iff.1 hy).1
  have hp := posOK_replace hr.inv.pos hy hid
  have hpx : (h.data.set p x)[p]? = some x := by simp [hpl]
  have hsame : h.positions.set (idx x) (some p) = h.positions := by
    apply List.ext_getElem?
    intro i
    by_cases hi : idx x = i
    · subst hi; rw [List.getElem?_set_self (List.getElem?_eq_some_iff.1 hpp).1, hpp]
    · simp [hi]
  have hix : idx x < h.positions.length := (List.getElem?_eq_some_iff.1 hpp).1
  obtain ⟨h', he, hmv⟩ := moveDownAux_spec (h.data.length + 1) h.positions (h.data.set p x) p x
    (by simp; omega) (by simpa using hpl) hix
    (by rw [hsame, List.set_set]; exact hp)
    (by
      intro i hi hne z zp hz hzp
      rw [List.set_set] at hz hzp
      simp only [List.getElem?_set, hpl, Ne.symm hne, if_false] at hz hzp
      by_cases h1 : p = i
      · simp [h1] at hz; subst hz
        rw [← h1] at hzp
        exact le_trans (hr.inv.ord p (by omega) y zp hy hzp) hle
      · simp [h1] at hz
        exact hr.inv.ord i hi z zp hz hzp)
    (by
      intro c hc hcp hp0 xc xp hxc hxp
      have h1 : p ≠ c := by omega
      have h2 : p ≠ (p-1)/4 := by omega
      simp [h1] at hxc
      simp [h2] at hxp
      exact le_trans (hr.inv.ord p hp0 y xp hy hxp) (hr.inv.ord c hc xc y hxc (by rw [hcp]; exact hy)))
  rw [List.set_set] at hmv
  refine ⟨h', ?_, hmv.inv, by rw [hmv.plen]; exact hr.len, lookup_replace hr hy hid hmv⟩
  simp only [increaseKey, hpp, upd_of_lt, hpl, moveDown, Option.bind_eq_bind, Option.bind_some, hpx]
  simpa using he

theorem rep_updateKey {n : Nat} {h : IHeap α} {m : Nat → Option α} (hr : Rep n h m) {x y : α}
    (hm : m (idx x) = some y) :
    ∃ h', h.updateKey x = some h' ∧ Rep n h' (fupd m (idx x) (some x)) := by
  obtain ⟨p, hpp, hy⟩ := hr.inv.pos.pos_of_lookup (by rw [hr.look, hm])
  simp only [updateKey, hpp, hy, Option.bind_eq_bind, Option.bind_some]
  by_cases h1 : lt x y = true
  · simp only [h1, if_true]
    exact rep_decreaseKey hr hm (le_of_lt h1)
  · by_cases h2 : lt y x = true
    · simp only [h1, h2, if_true, if_false]
      exact rep_increaseKey hr hm (le_of_lt h2)
    · simp only [h1, h2, if_false]
      refine ⟨h, rfl, hr.inv, hr.len, ?_⟩
      have : x = y := LawfulHeapElem.total x y (by simpa using h1) (by simpa using h2)
      subst this
      intro id
      rw [hr.look]
      by_cases hid : id = idx x
      · subst hid; simp [hm]
      · rw [fupd_of_ne _ _ hid]

/-- the root is the minimum -/
theorem root_le {ds : List α} (ho : HeapOrd ds) {r : α} (hr : ds[0]? = some r) (i : Nat) (x : α)
    (hx : ds[i]? = some x) : le r x := by
  induction i using Nat.strongRecOn generalizing x with
  | ind i ih =>
    by_cases h0 : i = 0
    · subst h0; rw [hr] at hx; simp at hx; subst hx; exact le_refl _
    · have hl := (List.getElem?_eq_some_iff.1 hx).1
      have hpl : (i-1)/4 < ds.length := by omega
      have hp : ds[(i-1)/4]? = some ds[(i-1)/4] := List.getElem?_eq_getElem hpl
      exact le_trans (ih _ (by omega) _ hp) (ho i (by omega) x _ hx hp)

theorem rep_peek {n : Nat} {h : IHeap α} {m : Nat → Option α} (hr : Rep n h m) :
    (h.peek = none ∧ ∀ id, m id = none) ∨
    ∃ x, h.peek = some x ∧ m (idx x) = some x ∧ ∀ id y, m id = some y → le x y := by
  cases hd : h.data with
  | nil =>
    left
    refine ⟨by simp [peek, hd], ?_⟩
    intro id
    rw [← hr.look]
    apply Option.ext; intro x
    rw [lookup_eq_some hr.inv.pos, hd]; simp
  | cons r rest =>
    right
    refine ⟨r, by simp [peek, hd], ?_, ?_⟩
    · rw [← hr.mem, hd]; simp
    · intro id y hy
      rw [← hr.look, lookup_eq_some hr.inv.pos] at hy
      obtain ⟨i, hi⟩ := List.mem_iff_getElem?.1 hy.1
      exact root_le hr.inv.ord (by rw [hd]; rfl) i y hi

theorem rep_pop {n : Nat} {h : IHeap α} {m : Nat → Option α} (hr : Rep n h m) :
    (h.pop = some (none, h) ∧ ∀ id, m id = none) ∨
    ∃ x h', h.pop = some (some x, h') ∧ m (idx x) = some x ∧ (∀ id y, m id = some y → le x y) ∧
      Rep n h' (fupd m (idx x) none) := by
  rcases rep_peek hr with ⟨hpk, hall⟩ | ⟨top, hpk, hmt, hmin⟩
  · left
    refine ⟨?_, hall⟩
    have : h.data = [] := by simpa [peek] using hpk
    simp [pop, this]
  · right
    refine ⟨top, ?_⟩
    have hne : h.data ≠ [] := by intro h0; simp [peek, h0] at hpk
    have hlen : 0 < h.data.length := List.length_pos_iff.2 hne
    obtain ⟨item, hitem⟩ : ∃ item, h.data.getLast? = some item := by
      cases hl : h.data.getLast? with
      | none => simp at hl; exact absurd hl hne
      | some x => exact ⟨x, rfl⟩
    have hdrop : h.data.dropLast ++ [item] = h.data := by
      rw [List.getLast?_eq_some_iff] at hitem
      obtain ⟨ys, hys⟩ := hitem
      simp [hys]
    have hilast : h.data[h.data.length - 1]? = some item := by
      rw [List.getLast?_eq_getElem?] at hitem; exact hitem
    have htop : h.data[0]? = some top := by
      rw [← List.head?_eq_getElem?]; exact hpk
    have hitl := hr.inv.pos.idx_lt hilast
    have htl := hr.inv.pos.idx_lt htop
    have hkey : ∀ (h' : IHeap α), PosOK h'.positions h'.data →
        (∀ y, y ∈ h'.data ↔ y ∈ h.data ∧ idx y ≠ idx top) →
        ∀ id, h'.lookup id = fupd m (idx top) none id := by
      intro h' hp' hmem id
      apply Option.ext; intro y
      rw [lookup_eq_some hp', hmem]
      by_cases hid : id = idx top
      · subst hid; simp
      · rw [fupd_of_ne _ _ hid, ← hr.look, lookup_eq_some hr.inv.pos]
        constructor
        · rintro ⟨⟨h1, _⟩, h3⟩; exact ⟨h1, h3⟩
        · rintro ⟨h1, h3⟩; exact ⟨⟨h1, by rw [h3]; exact hid⟩, h3⟩
    cases hds : h.data.dropLast with
    | nil =>
      rw [hds] at hdrop
      have hd1 : h.data = [item] := by rw [← hdrop]; rfl
      have hti : top = item := by rw [hd1] at htop; simpa using htop.symm
      subst hti
      have hp' : PosOK (h.positions.set (idx top) none) ([] : List α) := by
        constructor
        · intro i x hx; simp at hx
        · intro id p hps
          by_cases hid : idx top = id
          · subst hid; simp [htl] at hps
          · simp [hid] at hps
            obtain ⟨z, hz, hzid⟩ := hr.inv.pos.bwd id p hps
            rw [hd1] at hz
            have : p = 0 := by
              have := (List.getElem?_eq_some_iff.1 hz).1; simp at this; exact this
            subst this; simp at hz; subst hz; exact absurd hzid hid
      refine ⟨⟨h.positions.set (idx top) none, []⟩, ?_, hmt, hmin, ⟨hp', ?_⟩, by simp [hr.len], ?_⟩
      · simp [pop, hitem, hds, upd_of_lt, htl]
      · intro i _ x xp hx; simp at hx
      · refine hkey _ hp' ?_
        intro y; simp [hd1]; intro h; rw [h]
    | cons t rest =>
      rw [hds] at hdrop
      have htt : t = top := by rw [← hdrop] at htop; simpa using htop
      subst htt
      have hlen2 : h.data.length = rest.length + 2 := by rw [← hdrop]; simp
      have hnei : idx item ≠ idx t := by
        intro he
        have := hr.inv.pos.inj hilast htop he
        omega
      have hget : ∀ i, i ≠ 0 → i ≤ rest.length → (item :: rest)[i]? = h.data[i]? := by
        intro i hi hil
        rw [← hdrop]
        obtain ⟨j, rfl⟩ : ∃ j, i = j + 1 := ⟨i - 1, by omega⟩
        simp only [List.cons_append, List.getElem?_cons_succ]
        rw [List.getElem?_append_left (by omega)]
      have hp' : PosOK ((h.positions.set (idx item) (some 0)).set (idx t) none) (item :: rest) := by
        constructor
        · intro i y hy
          by_cases hi : i = 0
          · subst hi; simp at hy; subst hy
            simp [hnei.symm, hitl]
          · have hil : i ≤ rest.length := by
              have := (List.getElem?_eq_some_iff.1 hy).1; simp at this; omega
            rw [hget i hi hil] at hy
            have h1 : idx t ≠ idx y := fun he => hi (hr.inv.pos.inj hy htop he.symm)
            have h2 : idx item ≠ idx y := fun he => by
              have := hr.inv.pos.inj hilast hy he; omega
            simp [h1, h2, hr.inv.pos.fwd i y hy]
        · intro id p hps
          by_cases h1 : idx t = id
          · subst h1; simp [htl] at hps
          · simp only [List.getElem?_set, h1, if_false] at hps
            by_cases h2 : idx item = id
            · simp [h2] at hps
              exact ⟨item, by simp [← hps.2], h2⟩
            · simp [h2] at hps
              obtain ⟨z, hz, hzid⟩ := hr.inv.pos.bwd id p hps
              have hp0 : p ≠ 0 := by
                intro h0; subst h0; rw [htop] at hz; simp at hz; subst hz; exact h1 hzid
              have hpl : p ≠ h.data.length - 1 := by
                intro h0; subst h0; rw [hilast] at hz; simp at hz; subst hz; exact h2 hzid
              have := (List.getElem?_eq_some_iff.1 hz).1
              exact ⟨z, by rw [hget p hp0 (by omega)]; exact hz, hzid⟩
      have hsame : (((h.positions.set (idx item) (some 0)).set (idx t) none).set (idx item) (some 0)) =
          ((h.positions.set (idx item) (some 0)).set (idx t) none) := by
        rw [List.set_comm _ _ hnei.symm, List.set_set]
      obtain ⟨h', he, hmv⟩ := moveDownAux_spec (rest.length + 1 + 1)
        ((h.positions.set (idx item) (some 0)).set (idx t) none) (item :: rest) 0 item
        (by simp) (by simp) (by simpa using hitl) (by rw [hsame]; simpa using hp')
        (by
          intro i hi hne z zp hz hzp
          simp only [List.set_cons_zero] at hz hzp
          have hil : i ≤ rest.length := by
            have := (List.getElem?_eq_some_iff.1 hz).1; simp at this; omega
          rw [hget i (by omega) hil] at hz
          rw [hget _ hne (by omega)] at hzp
          exact hr.inv.ord i hi z zp hz hzp)
        (by intro c _ _ h0; omega)
      refine ⟨h', ?_, hmt, hmin, hmv.inv, by rw [hmv.plen]; simp [hr.len], ?_⟩
      · simp only [pop, hitem, hds]
        simp [upd_of_lt, hitl, htl, List.set_set, moveDown, he]
      · refine hkey _ hmv.inv.pos ?_
        intro y
        rw [hmv.mem]
        simp only [List.set_cons_zero]
        rw [← hdrop]
        simp only [List.mem_cons, List.cons_append, List.mem_append, List.mem_singleton, List.not_mem_nil, or_false]
        constructor
        · rintro (h1 | h1)
          · subst h1; exact ⟨by simp, hnei⟩
          · refine ⟨by simp [h1], ?_⟩
            intro he
            obtain ⟨i, hi⟩ := List.mem_iff_getElem?.1 h1
            have hil := (List.getElem?_eq_some_iff.1 hi).1
            have hi' : h.data[i+1]? = some y := by
              rw [← hget (i+1) (by omega) (by omega)]; simpa using hi
            have := hr.inv.pos.inj hi' htop he
            omega
        · rintro ⟨h1 | h1 | h1, h2⟩
          · subst h1; exact absurd rfl h2
          · exact Or.inr h1
          · exact Or.inl h1

end IHeap
end Verif
