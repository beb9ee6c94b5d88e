import Verif.Proof.TdDijkstra
import Verif.Proof.Reversed
set_option linter.unusedSimpArgs false
set_option linter.unusedVariables false
/- The constructor of time-dependent graphs. -/
namespace Verif.TD
open Spec

theorem normalize_len {f g : Plf.Fn} (hl : f.dt.length = f.tt.length) (h : Plf.normalize f = some g) :
    g.dt.length = g.tt.length ∧ f.dt.length ≤ g.dt.length ∧ g.dt.length ≤ f.dt.length + 2 := by
  unfold Plf.normalize at h
  cases h0 : f.dt[0]? with
  | none => simp [h0] at h
  | some d0 =>
  cases h1 : f.tt[0]? with
  | none => simp [h0, h1] at h
  | some t0 =>
  simp only [h0, h1, Option.bind_eq_bind, Option.bind_some, Option.pure_def] at h
  have hpos := (List.getElem?_eq_some_iff.1 h0).1
  by_cases c : f.dt.length > 1
  · rw [if_pos c] at h
    by_cases c0 : d0 ≠ 0
    · simp only [c0, if_true, ne_eq, not_false_eq_true] at h
      cases hl' : (0 :: f.dt).getLast? with
      | none => simp at hl'
      | some l =>
        simp only [hl', Option.bind_some] at h
        split at h <;> injection h with h <;> subst h <;> simp [hl] <;> omega
    · simp only [c0, if_false] at h
      cases hl' : f.dt.getLast? with
      | none => simp [hl'] at h
      | some l =>
        simp only [hl', Option.bind_some] at h
        split at h <;> injection h with h <;> subst h <;> simp [hl] <;> omega
  · rw [if_neg c] at h
    injection h with h; subst h
    simp; omega

theorem normalize_nonempty {f g : Plf.Fn} (h : Plf.normalize f = some g) : 0 < f.dt.length := by
  unfold Plf.normalize at h
  cases h0 : f.dt[0]? with
  | none => simp [h0] at h
  | some d0 => exact (List.getElem?_eq_some_iff.1 h0).1

theorem flatten_take_length {γ : Type _} (P : List Nat) (N : Nat → List γ) (j : Nat) :
    ((P.map N).take j).flatten.length = ((P.take j).map N).flatten.length := by rw [List.map_take]

/-- the function of arc `e` after normalisation -/
def normOf (raw : Graph) (e : Nat) : Plf.Fn := ((raw.ttf e).bind Plf.normalize).getD ⟨[], []⟩

theorem ttf_len {g : Graph} {e : Nat} {f : Plf.Fn} (h : g.ttf e = some f) : ∃ a b, g.firstIpp[e]? = some a ∧ g.firstIpp[e + 1]? = some b ∧
    slice g.dt a b = some f.dt ∧ slice g.tt a b = some f.tt ∧ f.dt.length = b - a ∧ f.tt.length = b - a ∧ a ≤ b ∧ b ≤ g.dt.length := by
  unfold Graph.ttf at h
  cases ha : g.firstIpp[e]? with
  | none => simp [ha] at h
  | some a =>
  cases hb : g.firstIpp[e + 1]? with
  | none => simp [ha, hb] at h
  | some b =>
  cases h1 : slice g.dt a b with
  | none => simp [ha, hb, h1] at h
  | some s1 =>
  cases h2 : slice g.tt a b with
  | none => simp [ha, hb, h1, h2] at h
  | some s2 =>
  simp only [ha, hb, h1, h2, Option.bind_eq_bind, Option.bind_some, Option.pure_def] at h
  injection h with h; subst h
  refine ⟨a, b, rfl, rfl, h1, h2, ?_⟩
  unfold slice at h1 h2
  split at h1
  · split at h2
    · injection h1 with h1; injection h2 with h2
      subst h1; subst h2
      simp; omega
    · cases h2
  · cases h1

theorem new_spec {raw : Graph} (h0 : raw.firstIpp[0]? = some 0)
    (hn : ∀ e, e < raw.head.length → ∃ f g, raw.ttf e = some f ∧ Plf.normalize f = some g)
    (hsmall : raw.dt.length + 2 * raw.head.length < U32) :
    ∃ g, Graph.new raw.firstOut raw.head raw.firstIpp raw.dt raw.tt = some g ∧ g.firstOut = raw.firstOut ∧ g.head = raw.head ∧
      ∀ e f, e < raw.head.length → raw.ttf e = some f → g.ttf e = Plf.normalize f := by
  let N := normOf raw
  have hN : ∀ e, e < raw.head.length → ∃ f, raw.ttf e = some f ∧ Plf.normalize f = some (N e) := by
    intro e he
    obtain ⟨f, g, h1, h2⟩ := hn e he
    refine ⟨f, h1, ?_⟩
    show _ = some (normOf raw e)
    rw [normOf, h1]
    simp [h2]
  have hNl : ∀ e, e < raw.head.length → (N e).dt.length = (N e).tt.length := by
    intro e he
    obtain ⟨f, h1, h2⟩ := hN e he
    obtain ⟨a, b, _, _, _, _, h5, h6, _⟩ := ttf_len h1
    exact (normalize_len (by omega) h2).1
  obtain ⟨st, hst, hinv⟩ := GraphOps.foldlM_inv (newStep raw.firstIpp raw.dt raw.tt)
    (fun P st => st.dt = (P.map (fun e => (N e).dt)).flatten ∧ st.tt = (P.map (fun e => (N e).tt)).flatten
      ∧ st.first = (List.range P.length).map (fun j => ((P.take j).map (fun e => (N e).dt)).flatten.length)
      ∧ ∃ x, raw.firstIpp[P.length]? = some x ∧ x + st.added = st.dt.length ∧ st.dt.length ≤ x + 2 * P.length ∧ x ≤ raw.dt.length)
    (List.range raw.head.length) (by
      intro P i Q st hE hinv
      have hi : i = P.length ∧ P.length < raw.head.length := by
        have hl := congrArg List.length hE
        simp at hl
        have := congrArg (fun l => l[P.length]?) hE
        simp at this
        rw [List.getElem?_range (by omega)] at this
        injection this with this
        omega
      obtain ⟨rfl, hi⟩ := hi
      obtain ⟨f, h1, h2⟩ := hN _ hi
      obtain ⟨a, b, ha, hb, hs1, hs2, h5, h6, h7, h8⟩ := ttf_len h1
      obtain ⟨i1, i2, i3, x, i4, i5, i6, i7⟩ := hinv
      rw [ha] at i4; injection i4 with i4; subst i4
      have hne := normalize_nonempty h2
      obtain ⟨n1, n2, n3⟩ := normalize_len (by omega) h2
      have hf : (⟨f.dt, f.tt⟩ : Plf.Fn) = f := rfl
      refine ⟨⟨st.first ++ [a + st.added], st.dt ++ (N P.length).dt, st.tt ++ (N P.length).tt, st.added + ((N P.length).dt.length - f.dt.length)⟩, ?_, ?_, ?_, ?_, ?_⟩
      · simp only [newStep, ha, hb, Option.bind_eq_bind, Option.bind_some]
        rw [if_neg (by omega), add32_of_lt (by omega)]
        simp only [hs1, hs2, Option.bind_some, h2]
        rw [add32_of_lt (by omega)]
        rfl
      · simp [i1]
      · simp [i2]
      · rw [i3, List.length_append, List.length_singleton, List.range_succ, List.map_append]
        have e1 : (List.range P.length).map (fun j => (((P ++ [P.length]).take j).map (fun e => (N e).dt)).flatten.length)
            = (List.range P.length).map (fun j => ((P.take j).map (fun e => (N e).dt)).flatten.length) := by
          apply List.map_congr_left
          intro j hj
          rw [List.take_append_of_le_length (by have := List.mem_range.1 hj; omega)]
        have e2 : a + st.added = (((P ++ [P.length]).take P.length).map (fun e => (N e).dt)).flatten.length := by
          rw [List.take_left' rfl, i5, i1]
        rw [e1, e2]; rfl
      · refine ⟨b, by simpa using hb, ?_, ?_, h8⟩ <;> simp only [List.length_append, List.length_singleton] <;> omega)
    ⟨[], [], [], 0⟩ ⟨rfl, rfl, rfl, 0, h0, rfl, by simp, by omega⟩
  obtain ⟨i1, i2, i3, x, i4, i5, i6, i7⟩ := hinv
  simp only [List.length_range] at i3 i4 i6
  refine ⟨⟨raw.firstOut, raw.head, st.first ++ [x + st.added], st.dt, st.tt⟩, ?_, rfl, rfl, ?_⟩
  · simp only [Graph.new, hst, i4, Option.bind_eq_bind, Option.bind_some]
    rw [add32_of_lt (by omega)]
    rfl
  · intro e f he hf
    obtain ⟨f', h1, h2⟩ := hN e he
    rw [hf] at h1; injection h1 with h1; subst h1
    let R := List.range raw.head.length
    have hget : ∀ j, j ≤ raw.head.length → (st.first ++ [x + st.added])[j]? = some ((R.map (fun e => (N e).dt)).take j).flatten.length := by
      intro j hj
      rw [flatten_take_length]
      rcases Nat.lt_or_ge j raw.head.length with h | h
      · rw [List.getElem?_append_left (by rw [i3]; simpa using h), i3, List.getElem?_map, List.getElem?_range h]; rfl
      · have : j = st.first.length := by rw [i3]; simp; omega
        rw [this, List.getElem?_concat_length, i5, i1, ← this, List.take_of_length_le (by simp [R]; omega)]
    have htt : ∀ j, j ≤ raw.head.length → ((R.map (fun e => (N e).dt)).take j).flatten.length = ((R.map (fun e => (N e).tt)).take j).flatten.length := by
      intro j hj
      simp only [List.length_flatten, ← List.map_take, List.map_map]
      congr 1
      apply List.map_congr_left
      intro e he'
      have := hNl e (by have := List.mem_of_mem_take he'; simpa [R] using this)
      simpa using this
    have hle : e < (R.map (fun e => (N e).dt)).length := by simpa [R] using he
    have hle' : e < (R.map (fun e => (N e).tt)).length := by simpa [R] using he
    have s1 := slice_flatten (R.map (fun e => (N e).dt)) hle
    have s2 := slice_flatten (R.map (fun e => (N e).tt)) hle'
    rw [← htt e (by omega), ← htt (e + 1) (by omega)] at s2
    rw [h2]
    simp only [Graph.ttf, hget e (by omega), hget (e + 1) (by omega), Option.bind_eq_bind, Option.bind_some]
    rw [i1, i2, s1, s2]
    simp [R]

end Verif.TD
