import Verif.Model.FlTdGraph
import Verif.Spec.FlTdDijkstra
import Verif.Props.TdDijkstra
import Verif.Props.FlTdDijkstra
set_option linter.unusedSimpArgs false
set_option linter.unusedVariables false
/- The constructor of the time-dependent graphs of CATCHUp, and how they relate to the graphs in milliseconds. -/
namespace Verif.FlTd
open Spec Fl

theorem ms_nonneg (n : Nat) : (0 : Rat) ≤ (n : Rat) / 1000 := by
  have : (0 : Rat) ≤ n := Nat.cast_nonneg n
  linarith

theorem points_get {dt tt : List Nat} {i : Nat} {p : Pt} : (points dt tt)[i]? = some p ↔ ∃ (x a : Nat), dt[i]? = some x ∧ tt[i]? = some a ∧ p = ⟨(x : Rat) / 1000, (a : Rat) / 1000⟩ := by
  rw [points, List.getElem?_map, Option.map_eq_some_iff]
  constructor
  · rintro ⟨⟨x, a⟩, h, rfl⟩
    rw [List.getElem?_zip_eq_some] at h
    exact ⟨x, a, h.1, h.2, rfl⟩
  · rintro ⟨x, a, h1, h2, rfl⟩
    exact ⟨(x, a), List.getElem?_zip_eq_some.2 ⟨h1, h2⟩, rfl⟩

theorem split_get {α : Type} {l A B : List α} {p q : α} (h : l = A ++ p :: q :: B) : l[A.length]? = some p ∧ l[A.length + 1]? = some q := by
  subst h
  constructor
  · simp
  · rw [List.getElem?_append_right (by omega)]; simp

theorem get_split {α : Type} {l : List α} {i : Nat} {p q : α} (h1 : l[i]? = some p) (h2 : l[i + 1]? = some q) : ∃ A B, l = A ++ p :: q :: B := by
  obtain ⟨a1, a2⟩ := List.getElem?_eq_some_iff.1 h1
  obtain ⟨b1, b2⟩ := List.getElem?_eq_some_iff.1 h2
  refine ⟨l.take i, l.drop (i + 2), ?_⟩
  conv => lhs; rw [← List.take_append_drop i l]
  congr 1
  rw [List.drop_eq_getElem_cons a1, a2, List.drop_eq_getElem_cons b1, b2]

theorem valid_points {dt tt : List Nat} (h : ValidPlf dt tt) : ValidTtf (points dt tt) := by
  obtain ⟨h0, _⟩ := List.getElem?_eq_some_iff.1 h.zero
  obtain ⟨v, hv⟩ : ∃ v, tt[0]? = some v := ⟨tt[0]'(by rw [← h.len]; exact h0), List.getElem?_eq_getElem _⟩
  have hl : (points dt tt).length = dt.length := by simp [points, h.len]
  rcases h.period with h1 | hp
  · left
    refine ⟨(v : Rat) / 1000, ?_, ms_nonneg v⟩
    obtain ⟨x, rfl⟩ := List.length_eq_one_iff.1 h1
    obtain ⟨y, rfl⟩ := List.length_eq_one_iff.1 (h.len ▸ h1)
    have := h.zero
    simp only [List.getElem?_cons_zero, Option.some.injEq] at this hv
    subst this hv
    simp [points, toPoint]
  · have hlen : 2 ≤ dt.length := by
      rcases Nat.lt_or_ge dt.length 2 with hlt | hge
      · have : dt.length = 1 := by omega
        obtain ⟨x, rfl⟩ := List.length_eq_one_iff.1 this
        have h1 := h.zero
        simp [PERIOD] at hp h1
        omega
      · exact hge
    apply Ok.valid
    refine ⟨by omega, ch_iff.2 ?_, ?_, (v : Rat) / 1000, ?_, ?_⟩
    · intro A p q B e
      obtain ⟨e1, e2⟩ := split_get e
      obtain ⟨x, a, x1, x2, rfl⟩ := points_get.1 e1
      obtain ⟨y, b, y1, y2, rfl⟩ := points_get.1 e2
      have hlt : x < y := by
        have hm := List.pairwise_iff_getElem.1 h.mono A.length (A.length + 1) (List.getElem?_eq_some_iff.1 x1).1 (List.getElem?_eq_some_iff.1 y1).1 (by omega)
        rw [(List.getElem?_eq_some_iff.1 x1).2, (List.getElem?_eq_some_iff.1 y1).2] at hm
        exact hm
      have hf := h.fifo _ x y a b x1 y1 x2 y2
      have hlt' : (x : Rat) < y := by exact_mod_cast hlt
      have hf' : (x : Rat) + a ≤ y + b := by exact_mod_cast hf
      constructor
      · show (x : Rat) / 1000 < y / 1000
        linarith
      · show (x : Rat) / 1000 + a / 1000 ≤ y / 1000 + b / 1000
        linarith
    · intro p hp
      obtain ⟨i, hi⟩ := List.mem_iff_getElem?.1 hp
      obtain ⟨x, a, _, _, rfl⟩ := points_get.1 hi
      exact ms_nonneg a
    · rw [points_get.2 ⟨0, v, h.zero, hv, rfl⟩]; simp
    · have e1 : dt[dt.length - 1]? = some PERIOD := by rw [← List.getLast?_eq_getElem?]; exact hp
      have e2 : tt[dt.length - 1]? = some v := by rw [h.len, ← List.getLast?_eq_getElem?, h.last]; exact hv
      rw [hl, points_get.2 ⟨PERIOD, v, e1, e2, rfl⟩]
      simp only [PERIOD, day, Option.some.injEq, Pt.mk.injEq, and_true]
      norm_num

theorem day_split (τ : Nat) : ((τ : Rat) / 1000 - ((τ / PERIOD : Nat) : Int) * day) = ((τ % PERIOD : Nat) : Rat) / 1000 := by
  have h : τ = PERIOD * (τ / PERIOD) + τ % PERIOD := (Nat.div_add_mod τ PERIOD).symm
  have h' : (τ : Rat) = PERIOD * ((τ / PERIOD : Nat) : Rat) + ((τ % PERIOD : Nat) : Rat) := by exact_mod_cast h
  rw [h']
  simp only [PERIOD, day, Int.cast_natCast]
  push_cast
  ring

/-- the value in milliseconds is the value in seconds, rounded down -/
theorem rounded {dt tt : List Nat} (h : ValidPlf dt tt) {τ d : Nat} (hd : PlfValue dt tt (τ % PERIOD) d) {y : Rat} (hy : TravelTime (points dt tt) ((τ : Rat) / 1000) y) :
    (d : Rat) ≤ 1000 * y ∧ 1000 * y < d + 1 := by
  have hv := valid_points h
  rcases hd with ⟨h1, h2⟩ | ⟨i, x, z, a, b, x1, z1, a1, b1, l1, l2, hi⟩
  · obtain ⟨x, rfl⟩ := List.length_eq_one_iff.1 h1
    obtain ⟨w, rfl⟩ := List.length_eq_one_iff.1 (h.len ▸ h1)
    simp only [List.getElem?_cons_zero, Option.some.injEq] at h2
    subst h2
    have : TravelTime (points [x] [w]) ((τ : Rat) / 1000) ((w : Rat) / 1000) := .inl ⟨_, rfl, rfl⟩
    rw [tt_unique hv hy this]
    constructor <;> linarith
  · have hxz : x < z := by
      have hm := List.pairwise_iff_getElem.1 h.mono i (i + 1) (List.getElem?_eq_some_iff.1 x1).1 (List.getElem?_eq_some_iff.1 z1).1 (by omega)
      rw [(List.getElem?_eq_some_iff.1 x1).2, (List.getElem?_eq_some_iff.1 z1).2] at hm
      exact hm
    have hf := h.fifo i x z a b x1 z1 a1 b1
    obtain ⟨A, B, e⟩ := get_split (points_get.2 ⟨x, a, x1, a1, rfl⟩) (points_get.2 ⟨z, b, z1, b1, rfl⟩)
    generalize hs : τ % PERIOD = s at l1 l2 hi
    have hxz' : (x : Rat) < z := by exact_mod_cast hxz
    have hne : (z : Rat) - x ≠ 0 := by linarith
    let y0 : Rat := (a + (b - a) * (s - x) / (z - x)) / 1000
    have hy0 : TravelTime (points dt tt) ((τ : Rat) / 1000) y0 := by
      refine .inr ⟨((τ / PERIOD : Nat) : Int), ?_, ?_, A, _, _, B, e, ?_⟩
      · rw [day_split]; exact ms_nonneg _
      · rw [day_split, day]
        have : τ % PERIOD < PERIOD := Nat.mod_lt _ (by simp [PERIOD])
        have : ((τ % PERIOD : Nat) : Rat) < PERIOD := by exact_mod_cast this
        simp only [PERIOD] at this ⊢
        push_cast at this
        linarith
      · rw [day_split, hs]
        have g1 : (x : Rat) ≤ s := by exact_mod_cast l1
        have g2 : (s : Rat) ≤ z := by exact_mod_cast l2
        refine ⟨?_, ?_, ?_⟩
        · show (x : Rat) / 1000 ≤ s / 1000
          linarith
        · show (s : Rat) / 1000 ≤ z / 1000
          linarith
        · show (y0 - a / 1000) * (z / 1000 - x / 1000) = (b / 1000 - a / 1000) * (s / 1000 - x / 1000)
          simp only [y0]
          field_simp
          ring
    rw [tt_unique hv hy hy0]
    have k0 : (1000 : Rat) * y0 * (z - x) = a * (z - x) + (b - a) * (s - x) := by
      simp only [y0]; field_simp
    obtain ⟨i1, i2⟩ := hi
    have c1 : ((s : Rat) + d) * (z - x) ≤ (x + a) * (z - x) + (s - x) * ((z + b) - (x + a)) := by
      have : (((s + d) * (z - x) : Nat) : Rat) ≤ (((x + a) * (z - x) + (s - x) * ((z + b) - (x + a)) : Nat) : Rat) := by exact_mod_cast i1
      push_cast [Nat.cast_sub (Nat.le_of_lt hxz), Nat.cast_sub l1, Nat.cast_sub hf] at this
      exact this
    have c2 : ((x : Rat) + a) * (z - x) + (s - x) * ((z + b) - (x + a)) < (s + d + 1) * (z - x) := by
      have : (((x + a) * (z - x) + (s - x) * ((z + b) - (x + a)) : Nat) : Rat) < (((s + d + 1) * (z - x) : Nat) : Rat) := by exact_mod_cast i2
      push_cast [Nat.cast_sub (Nat.le_of_lt hxz), Nat.cast_sub l1, Nat.cast_sub hf] at this
      exact this
    have hpos : (0 : Rat) < z - x := by linarith
    constructor
    · refine le_of_mul_le_mul_right ?_ hpos
      rw [k0]; nlinarith
    · refine lt_of_mul_lt_mul_right ?_ (le_of_lt hpos)
      rw [k0]; nlinarith

/-- at a break point the value is exact -/
theorem at_point {dt tt : List Nat} (h : ValidPlf dt tt) {i x a : Nat} (h1 : dt[i]? = some x) (h2 : tt[i]? = some a) (hx : x < PERIOD) :
    TravelTime (points dt tt) ((x : Rat) / 1000) ((a : Rat) / 1000) := by
  rcases h.period with hl | hp
  · obtain ⟨x0, rfl⟩ := List.length_eq_one_iff.1 hl
    obtain ⟨w, rfl⟩ := List.length_eq_one_iff.1 (h.len ▸ hl)
    cases i with
    | zero =>
      simp only [List.getElem?_cons_zero, Option.some.injEq] at h2
      subst h2
      exact .inl ⟨_, rfl, rfl⟩
    | succ i => simp at h2
  · have hi := (List.getElem?_eq_some_iff.1 h1).1
    have hlast : i + 1 < dt.length := by
      rcases Nat.lt_or_ge (i + 1) dt.length with hlt | hge
      · exact hlt
      · have : i = dt.length - 1 := by omega
        rw [List.getLast?_eq_getElem?, ← this, h1] at hp
        cases hp; omega
    have hlast' : i + 1 < tt.length := by rw [← h.len]; exact hlast
    obtain ⟨A, B, e⟩ := get_split (points_get.2 ⟨x, a, h1, h2, rfl⟩) (points_get.2 ⟨dt[i + 1], tt[i + 1], List.getElem?_eq_getElem hlast, List.getElem?_eq_getElem hlast', rfl⟩)
    have hm := List.pairwise_iff_getElem.1 h.mono i (i + 1) hi hlast (by omega)
    rw [(List.getElem?_eq_some_iff.1 h1).2] at hm
    have hm' : (x : Rat) < (dt[i + 1] : Nat) := by exact_mod_cast hm
    have hx' : (x : Rat) < PERIOD := by exact_mod_cast hx
    simp only [PERIOD] at hx'
    push_cast at hx'
    refine .inr ⟨0, ?_, ?_, A, _, _, B, e, ?_, ?_, ?_⟩
    · simp only [Int.cast_zero, zero_mul, sub_zero]; exact ms_nonneg x
    · simp only [Int.cast_zero, zero_mul, sub_zero, day]; linarith
    · simp
    · simp only [Int.cast_zero, zero_mul, sub_zero]; linarith
    · simp

theorem slice_points {dt tt a b : List Nat} {i j : Nat} (h1 : slice dt i j = some a) (h2 : slice tt i j = some b) : slice (points dt tt) i j = some (points a b) := by
  unfold slice at h1 h2 ⊢
  split at h1
  · split at h2
    · cases h1; cases h2
      rename_i g1 g2
      rw [if_pos ⟨g1.1, by simp [points]; omega⟩]
      simp only [points, List.zip, ← List.take_zipWith, ← List.drop_zipWith, List.map_take, List.map_drop]
    · cases h2
  · cases h1

theorem ttf_points {g : TD.Graph} {e : Nat} {f : Plf.Fn} (h : g.ttf e = some f) :
    Graph.ttf ⟨g.firstOut, g.head, g.firstIpp, points g.dt g.tt⟩ e = some (points f.dt f.tt) := by
  simp only [TD.Graph.ttf, Option.bind_eq_bind, Option.bind_eq_some_iff, Option.pure_def, Option.some.injEq] at h
  obtain ⟨a, h1, b, h2, x, h3, y, h4, rfl⟩ := h
  simp only [Graph.ttf, h1, h2, Option.bind_eq_bind, Option.bind_some, slice_points h3 h4]

theorem edge_tail {fo hd : List Nat} (h : TD.TopoOK fo hd) {e : Nat} (he : e < hd.length) :
    ∃ (u a b : Nat), fo[u]? = some a ∧ fo[u + 1]? = some b ∧ a ≤ e ∧ e < b := by
  have key : ∀ (v b : Nat), fo[v]? = some b → e < b → ∃ (u a b : Nat), fo[u]? = some a ∧ fo[u + 1]? = some b ∧ a ≤ e ∧ e < b := by
    intro v
    induction v with
    | zero =>
      intro b hb hlt
      have := h.first
      simp only [List.head?_eq_getElem?] at this
      rw [hb] at this; cases this; omega
    | succ v ih =>
      intro b hb hlt
      have hv : v < fo.length := by have := (List.getElem?_eq_some_iff.1 hb).1; omega
      rcases Nat.lt_or_ge e fo[v] with hlt' | hge
      · exact ih _ (List.getElem?_eq_getElem hv) hlt'
      · exact ⟨v, fo[v], b, List.getElem?_eq_getElem hv, hb, hge, hlt⟩
  have hl := h.last
  simp only [List.getLast?_eq_getElem?] at hl
  exact key _ _ hl he

theorem choose_list {α : Type} {P : Nat → α → Prop} : ∀ (m : Nat), (∀ e, e < m → ∃ r, P e r) → ∃ l : List α, l.length = m ∧ ∀ (e : Nat) (r : α), l[e]? = some r → P e r
  | 0, _ => ⟨[], rfl, by simp⟩
  | m + 1, h => by
    obtain ⟨l, h1, h2⟩ := choose_list m (fun e he => h e (by omega))
    obtain ⟨r, hr⟩ := h m (by omega)
    refine ⟨l ++ [r], by simp [h1], ?_⟩
    intro e x hx
    rcases Nat.lt_or_ge e l.length with hlt | hge
    · rw [List.getElem?_append_left hlt] at hx; exact h2 e x hx
    · rw [List.getElem?_append_right hge] at hx
      have : e - l.length = 0 := by
        have := (List.getElem?_eq_some_iff.1 hx).1
        simp at this; omega
      rw [this] at hx
      simp at hx
      subst hx
      have : e = m := by omega
      rw [this]; exact hr

end Verif.FlTd
