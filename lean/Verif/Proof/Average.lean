import Verif.Model.Average
import Verif.Proof.Plf
/-
Helper lemmas for `average` (C70).
-/
set_option linter.unusedSimpArgs false
set_option linter.unusedVariables false

namespace Verif
namespace Plf

open Spec (Lookup PERIOD ValidPlf BinarySearch)

variable {bs : List Nat → Nat → Lookup} {f : Fn}

/-- The segments of a list of break points, cut to the range from `a` to `b`. -/
def cut (a b : Nat) (ds ts : List Nat) : Option (List (Nat × Nat × Nat)) :=
  ((ds.zip ds.tail).zip (ts.zip ts.tail)).mapM fun s => do
    let d ← sub32 (min s.1.2 b) (max s.1.1 a)
    return (s.2.1, s.2.2, d)

theorem cut_spec (a b : Nat) (hab : a < b) : ∀ (ds ts : List Nat) (x u : Nat), ds.length = ts.length →
    (x :: ds).Pairwise (· < ·) → (∀ y ∈ ds, a ≤ y) → (∀ y ∈ (x :: ds).dropLast, y < b) →
    (∀ y, (x :: ds).getLast? = some y → b ≤ y) →
    ∃ l, cut a b (x :: ds) (u :: ts) = some l ∧ (l.map (fun s => s.2.2)).sum = b - min (max x a) b ∧
      ∀ s ∈ l, s.1 ∈ u :: ts ∧ s.2.1 ∈ u :: ts := by
  intro ds
  induction ds with
  | nil =>
    intro ts x u hl _ _ _ h
    have : ts = [] := by simpa using hl.symm
    subst this
    have := h x (by simp)
    refine ⟨[], by simp [cut], ?_, by simp⟩
    simp; omega
  | cons y ds ih =>
    intro ts x u hl hp ha hb hlast
    cases ts with
    | nil => simp at hl
    | cons v ts =>
      obtain ⟨l, h1, h2, h3⟩ := ih ts y v (by simpa using hl) (List.pairwise_cons.1 hp).2 (fun z hz => ha z (by simp [hz]))
        (fun z hz => hb z (by rw [List.dropLast_cons_of_ne_nil (by simp)]; exact List.mem_cons_of_mem _ hz))
        (fun z hz => hlast z (by simpa using hz))
      have hxy : x < y := (List.pairwise_cons.1 hp).1 y (by simp)
      have hay : a ≤ y := ha y (by simp)
      have hxb : x < b := hb x (by rw [List.dropLast_cons_of_ne_nil (by simp)]; simp)
      have hs : sub32 (min y b) (max x a) = some (min y b - max x a) := by rw [sub32, if_pos (by omega)]
      refine ⟨(u, v, min y b - max x a) :: l, ?_, ?_, ?_⟩
      · have h1' : ((y :: ds).zip ds).zip ((v :: ts).zip ts) = ((y :: ds).zip (y :: ds).tail).zip ((v :: ts).zip (v :: ts).tail) := rfl
        simp only [cut, List.tail_cons, List.zip_cons_cons, List.mapM_cons, hs, Option.bind_eq_bind, Option.bind_some, Option.pure_def] at h1 ⊢
        rw [h1]
        rfl
      · simp only [List.map_cons, List.sum_cons, h2]; omega
      · intro s hs
        rcases List.mem_cons.1 hs with rfl | hs
        · simp
        · obtain ⟨h4, h5⟩ := h3 s hs
          exact ⟨List.mem_cons_of_mem _ h4, List.mem_cons_of_mem _ h5⟩

theorem sum_bounds (lo hi : Nat) : ∀ (l : List (Nat × Nat × Nat)), (∀ s ∈ l, (lo ≤ s.1 ∧ s.1 ≤ hi) ∧ lo ≤ s.2.1 ∧ s.2.1 ≤ hi) →
    2 * lo * (l.map (fun s => s.2.2)).sum ≤ (l.map (fun s => s.1 * s.2.2 + s.2.1 * s.2.2)).sum ∧
    (l.map (fun s => s.1 * s.2.2 + s.2.1 * s.2.2)).sum ≤ 2 * hi * (l.map (fun s => s.2.2)).sum := by
  intro l
  induction l with
  | nil => intro _; simp
  | cons s l ih =>
    intro h
    obtain ⟨h1, h2⟩ := ih (fun s hs => h s (by simp [hs]))
    obtain ⟨⟨h3, h4⟩, h5, h6⟩ := h s (by simp)
    have e1 := Nat.mul_le_mul_right s.2.2 h3
    have e2 := Nat.mul_le_mul_right s.2.2 h4
    have e3 := Nat.mul_le_mul_right s.2.2 h5
    have e4 := Nat.mul_le_mul_right s.2.2 h6
    simp only [List.map_cons, List.sum_cons, Nat.mul_add]
    have e5 : 2 * lo * s.2.2 = 2 * (lo * s.2.2) := Nat.mul_assoc ..
    have e6 : 2 * hi * s.2.2 = 2 * (hi * s.2.2) := Nat.mul_assoc ..
    omega

/-- first index of `index_range` -/
def Loc.first : Loc → Nat
  | .on i => i
  | .between lo _ => lo

/-- end index of `index_range` -/
def Loc.stop : Loc → Nat
  | .on i => i + 1
  | .between _ up => up + 1

/-- The break points that bound the parts of the window from `a` to `b`: those within it, the last one before and the first one
behind it. -/
def Near (dt : List Nat) (a b x : Nat) : Prop := (∀ y ∈ dt, x < y → a < y) ∧ (∀ y ∈ dt, y < x → y < b)

theorem segs_spec (hbs : BinarySearch bs) (hv : ValidPlf f.dt f.tt) (h1 : f.dt.length ≠ 1) {a b : Nat} (hab : a < b)
    (hb : b ≤ PERIOD) :
    ∃ l, segs bs f a b = some l ∧ (l.map (fun s => s.2.2)).sum = b - a ∧
      ∀ s ∈ l, (∃ (i x : Nat), f.dt[i]? = some x ∧ f.tt[i]? = some s.1 ∧ Near f.dt a b x) ∧
        (∃ (i x : Nat), f.dt[i]? = some x ∧ f.tt[i]? = some s.2.1 ∧ Near f.dt a b x) := by
  -- first index
  obtain ⟨la, hla, hla'⟩ := locate_spec hbs hv h1 (t := a) (by omega)
  obtain ⟨lb, hlb, hlb'⟩ := locate_spec hbs hv h1 (t := b) hb
  obtain ⟨i, x, hi, hx, hxa, hnext⟩ : ∃ i x : Nat, la.first = i ∧ f.dt[i]? = some x ∧
      x ≤ a ∧ ∀ y, f.dt[i + 1]? = some y → a < y := by
    cases la with
    | on i => exact ⟨i, a, rfl, hla', Nat.le_refl _, fun y hy => dt_lt hv hla' hy (by omega)⟩
    | between lo up =>
      obtain ⟨h2, x, y, h3, h4, h5, h6⟩ := hla'
      refine ⟨lo, x, rfl, h3, by omega, fun y' hy' => ?_⟩
      subst h2
      rw [h4] at hy'
      injection hy' with hy'
      omega
  obtain ⟨j, z, hj, hz, hzb, hprev⟩ : ∃ j z : Nat, lb.stop = j + 1 ∧ f.dt[j]? = some z ∧
      b ≤ z ∧ ∀ k y, f.dt[k]? = some y → k < j → y < b := by
    cases lb with
    | on i => exact ⟨i, b, rfl, hlb', Nat.le_refl _, fun k y hy hk => dt_lt hv hy hlb' hk⟩
    | between lo up =>
      obtain ⟨h2, x, y, h3, h4, h5, h6⟩ := hlb'
      refine ⟨up, y, rfl, h4, by omega, fun k y' hy' hk => ?_⟩
      subst h2
      rcases Nat.lt_or_ge k lo with h | h
      · have := dt_lt hv hy' h3 h; omega
      · have : k = lo := by omega
        subst this
        rw [h3] at hy'
        injection hy' with hy'
        omega
  have hij : i < j := by
    rcases Nat.lt_trichotomy i j with h | h | h
    · exact h
    · subst h; rw [hx] at hz; injection hz with hz; omega
    · have := dt_lt hv hz hx h; omega
  have hjl : j < f.dt.length := (List.getElem?_eq_some_iff.1 hz).1
  have hr : indexRange bs f.dt a b = some (i, j + 1) := by
    rw [indexRange, if_neg (by omega), hla, hlb]
    rw [← hi, ← hj]
    cases la <;> cases lb <;> rfl
  have hlen := hv.len
  have hsd : slice f.dt i (j + 1) = some ((f.dt.drop i).take (j + 1 - i)) := by rw [slice, if_pos (by omega)]
  have hst : slice f.tt i (j + 1) = some ((f.tt.drop i).take (j + 1 - i)) := by rw [slice, if_pos (by omega)]
  obtain ⟨ds, hds⟩ : ∃ ds, (f.dt.drop i).take (j + 1 - i) = ds := ⟨_, rfl⟩
  obtain ⟨ts, hts⟩ : ∃ ts, (f.tt.drop i).take (j + 1 - i) = ts := ⟨_, rfl⟩
  have gd : ∀ k : Nat, ds[k]? = if k < j + 1 - i then f.dt[i + k]? else none := by
    intro k; rw [← hds, List.getElem?_take]; simp only [List.getElem?_drop]
  have gt : ∀ k : Nat, ts[k]? = if k < j + 1 - i then f.tt[i + k]? else none := by
    intro k; rw [← hts, List.getElem?_take]; simp only [List.getElem?_drop]
  have hdl : ds.length = j + 1 - i := by rw [← hds]; simp; omega
  have htl : ts.length = j + 1 - i := by rw [← hts]; simp; omega
  have hpw : ds.Pairwise (· < ·) := by rw [← hds]; exact (hv.mono.drop).take
  -- break points in the slice bound parts of the window
  have hnear : ∀ (k y : Nat), ds[k]? = some y → Near f.dt a b y := by
    intro k y hy
    rw [gd k] at hy
    split at hy
    · rename_i hk
      constructor
      · intro w hw hlt
        obtain ⟨q, hq⟩ := List.mem_iff_getElem?.1 hw
        have hqi : i + k < q := by
          rcases Nat.lt_trichotomy q (i + k) with h | h | h
          · have := dt_lt hv hq hy h; omega
          · subst h; rw [hq] at hy; injection hy with hy; omega
          · exact h
        obtain ⟨y1, hy1⟩ := getElem?_ofLt (l := f.dt) (i := i + 1) (by omega)
        have h9 := hnext y1 hy1
        rcases Nat.lt_or_ge (i + 1) q with h | h
        · have := dt_lt hv hy1 hq h; omega
        · have : q = i + 1 := by omega
          subst this
          rw [hq] at hy1; injection hy1 with hy1; omega
      · intro w hw hlt
        obtain ⟨q, hq⟩ := List.mem_iff_getElem?.1 hw
        have hqi : q < i + k := by
          rcases Nat.lt_trichotomy q (i + k) with h | h | h
          · exact h
          · subst h; rw [hq] at hy; injection hy with hy; omega
          · have := dt_lt hv hy hq h; omega
        exact hprev q w hq (by omega)
    · simp at hy
  cases ds with
  | nil => simp at hdl; omega
  | cons x0 ds =>
    cases ts with
    | nil => simp at htl; omega
    | cons u0 ts =>
      have hx0 : x0 = x := by
        have := gd 0
        rw [if_pos (by omega)] at this
        simp only [Nat.add_zero, hx, List.getElem?_cons_zero, Option.some.injEq] at this
        exact this
      subst hx0
      have hdl' : ds.length = ts.length := by simp at hdl htl; omega
      obtain ⟨l, h2, h3, h4⟩ := cut_spec a b hab ds ts x0 u0 hdl' hpw
        (by
          intro y hy
          obtain ⟨k, hk⟩ := List.mem_iff_getElem?.1 hy
          have := gd (k + 1)
          simp only [List.getElem?_cons_succ, hk] at this
          split at this
          · have hn := (hnear 0 x0 (by simp)).1 y (List.mem_iff_getElem?.2 ⟨_, this.symm⟩)
              ((List.pairwise_cons.1 hpw).1 y hy)
            omega
          · simp at this)
        (by
          intro y hy
          obtain ⟨k, hk⟩ := List.mem_iff_getElem?.1 hy
          rw [List.getElem?_dropLast] at hk
          split at hk
          · rename_i hkl
            rw [gd k] at hk
            split at hk
            · exact hprev _ _ hk (by omega)
            · simp at hk
          · simp at hk)
        (by
          intro y hy
          rw [List.getLast?_eq_getElem?, hdl, gd, if_pos (by omega), show i + (j + 1 - i - 1) = j by omega, hz] at hy
          injection hy with hy
          omega)
      refine ⟨l, ?_, ?_, ?_⟩
      · simp only [segs, hr, Option.bind_eq_bind, Option.bind_some, hsd, hst, hds, hts]
        exact h2
      · rw [h3]; omega
      · intro s hs
        obtain ⟨h5, h6⟩ := h4 s hs
        have key : ∀ v, v ∈ u0 :: ts → ∃ (i x : Nat), f.dt[i]? = some x ∧ f.tt[i]? = some v ∧ Near f.dt a b x := by
          intro v hvm
          obtain ⟨k, hk⟩ := List.mem_iff_getElem?.1 hvm
          rw [gt k] at hk
          split at hk
          · rename_i hkl
            obtain ⟨y, hy⟩ := getElem?_ofLt (l := f.dt) (i := i + k) (by omega)
            exact ⟨i + k, y, hy, hk, hnear k y (by rw [gd k, if_pos hkl, hy])⟩
          · simp at hk
        exact ⟨key _ h5, key _ h6⟩

theorem segs_empty (bs : List Nat → Nat → Lookup) (f : Fn) (p : Nat) : segs bs f p p = some [] := by
  simp [segs, indexRange, slice]

/-- The part of the range behind the end of the period is looked up there: out of bounds. -/
theorem segs_beyond (hbs : BinarySearch bs) (hv : ValidPlf f.dt f.tt) {b : Nat} (hb : PERIOD < b) :
    segs bs f PERIOD b = none := by
  have hpos := dt_pos hv
  have hp0 : PERIOD ≠ 0 := by simp [PERIOD]
  have hla : locate bs f.dt PERIOD = some (.on (f.dt.length - 1)) := by
    rw [locate, if_neg hp0, if_pos rfl, if_neg (by omega)]
  have hall : ∀ (k x : Nat), f.dt[k]? = some x → x < b := by
    intro k x hx
    have hk := (List.getElem?_eq_some_iff.1 hx).1
    rcases hv.period with h | h
    · have : k = 0 := by omega
      subst this
      rw [hv.zero] at hx; injection hx with hx; omega
    · rw [List.getLast?_eq_getElem?] at h
      rcases Nat.lt_or_ge k (f.dt.length - 1) with h' | h'
      · have := dt_lt hv hx h h'; omega
      · have : k = f.dt.length - 1 := by omega
        subst this
        rw [h] at hx; injection hx with hx; omega
  have hlb : locate bs f.dt b = some (.between (f.dt.length - 1) f.dt.length) := by
    have e : locate bs f.dt b = locOf (bs f.dt b) := by rw [locate, if_neg (by omega), if_neg (by omega)]
    have hval := hbs f.dt b (hv.mono.imp (fun h => Nat.le_of_lt h))
    rw [e]
    cases h : bs f.dt b with
    | ok i =>
      rw [h] at hval
      have := hall i b hval
      omega
    | err u =>
      rw [h] at hval
      obtain ⟨h2, _, _, h5⟩ := hval
      have : u = f.dt.length := by
        rcases Nat.lt_or_ge u f.dt.length with h' | h'
        · obtain ⟨x, hx⟩ := getElem?_ofLt h'
          have h6 := h5 u x hx (Nat.le_refl _)
          have := hall u x hx
          omega
        · omega
      subst this
      have h0 : f.dt.length ≠ 0 := by omega
      simp [locOf, h0]
  have : slice f.dt (f.dt.length - 1) (f.dt.length + 1) = none := by rw [slice, if_neg (by omega)]
  simp [segs, indexRange, hla, hlb, this, show PERIOD ≠ b by omega]

end Plf
end Verif
