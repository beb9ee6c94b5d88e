import Verif.Proof.MultiCritPath
import Verif.Proof.NearestNeighbor
set_option linter.unusedSimpArgs false
set_option linter.unusedVariables false
/- Lemmas about one search of the traffic aware server. -/
namespace Verif.Traffic
open Spec UBS CCH MC

variable {σ : Type}

/-! ### More fuel does not matter -/

theorem search_mono (P : Potential σ) (g : FOGraph) (b : Blocked) (tt : Nat) {r : MData × σ} :
    ∀ (fuel fuel' : Nat) (d : MData) (c : σ), fuel ≤ fuel' → MData.search P g b tt fuel d c = some r → MData.search P g b tt fuel' d c = some r := by
  intro fuel
  induction fuel with
  | zero => intro fuel' d c _ h; simp [MData.search] at h
  | succ fuel ih =>
    intro fuel' d c hle h
    obtain ⟨k, rfl⟩ : ∃ k, fuel' = k + 1 := ⟨fuel' - 1, by omega⟩
    rw [MData.search] at h ⊢
    cases hs : MData.settle P g b d c with
    | none => rw [hs] at h; simp at h
    | some x =>
      obtain ⟨o, d1, c1⟩ := x
      rw [hs] at h
      simp only [Option.bind_eq_bind, Option.bind_some] at h ⊢
      cases o with
      | none => exact h
      | some v =>
        simp only at h ⊢
        by_cases hv : v = tt
        · rw [if_pos hv] at h ⊢; exact h
        · rw [if_neg hv] at h ⊢; exact ih _ _ _ (by omega) h

theorem unpack_mono (g : FOGraph) (d : MData) (s : Nat) {r : List Nat} :
    ∀ (fuel fuel' v : Nat) (rest : List Nat) (idx : Nat), fuel ≤ fuel' → unpack g d s fuel v rest idx = some r → unpack g d s fuel' v rest idx = some r := by
  intro fuel
  induction fuel with
  | zero => intro fuel' v rest idx _ h; simp [unpack] at h
  | succ fuel ih =>
    intro fuel' v rest idx hle h
    obtain ⟨k, rfl⟩ : ∃ k, fuel' = k + 1 := ⟨fuel' - 1, by omega⟩
    rw [unpack] at h ⊢
    by_cases hv : v = s
    · rw [if_pos hv] at h ⊢; exact h
    · rw [if_neg hv] at h ⊢
      simp only [Option.bind_eq_bind, Option.bind_eq_some_iff] at h ⊢
      obtain ⟨q, h1, l, h2, w, h3, x, h4, pq, h5, i, h6, h7⟩ := h
      exact ⟨q, h1, l, h2, w, h3, x, h4, pq, h5, i, h6, ih _ _ _ _ (by omega) h7⟩

/-- One search. -/
theorem searchPath_spec {g : FOGraph} {b : Blocked} {loc : Nat → Nat → Nat} {P : Potential σ} {R : σ → Prop} {s : Nat} {pot : Nat → Option Nat}
    (hC : Ctx g b loc P R s pot) (hs : s < g.numNodes) {t C B : Nat} {a0 : Active} (hrun : Run (env g b s pot) s (Active.new 0) t a0 C)
    (ht : pot t = some 0) (hB : ∀ u v w, g.Arc u v w → w ≤ B) (hCB : C + B < INFINITY) (ubs : CchServer) {st : TState σ} (hops : st.ops = b)
    (hd : MReady g.numNodes st.data) (hc : R st.pot) :
    ∃ F dist path d' c', (∀ dbg fuel, F ≤ fuel → searchPath dbg ⟨ubs, g, P⟩ fuel st s t = some (some (dist, path), { st with data := d', pot := c' })) ∧
      MReady g.numNodes d' ∧ R c' ∧ path.head? = some s ∧ path.getLast? = some t ∧ CheapestLen g.Arc path dist ∧
      (∃ a, track g b path (Active.new 0) = some a) ∧ s ∉ path.tail ∧ Apart path ∧ ∀ a C, Run (env g b s pot) s (Active.new 0) t a C → dist ≤ C := by
  obtain ⟨d1, c1, f1, e1, e2, e3⟩ := init_spec hC hd hc hs
  obtain ⟨N, hN⟩ := codes_finite g.numNodes b C
  obtain ⟨d2, c2, S2, f2, e, e4, e5, e6, e7⟩ := search_spec hC hrun ht hB hCB hN (N + 1) (MC.start_inv hC.ok) e3 e2 (H := [])
    ⟨by simp, by simp⟩ (by simp) (by simp) (by simp [start]) (by simp)
  have htn : t < g.numNodes := e6.node t e (.inr ((e7.top e).2 rfl))
  have hh := e6.heap t htn
  have hpop : (f2 t).popped = [e] := by
    have hmem : ∀ l, l ∈ (f2 t).popped ↔ l = e := fun l => (hh.pop l).trans (e7.top l)
    have hnd : (f2 t).popped.Nodup := by
      have := hh.nodup
      unfold Heap.popped
      exact this.sublist (List.drop_sublist _ _)
    cases hl : (f2 t).popped with
    | nil => have := (hmem e).2 rfl; rw [hl] at this; simp at this
    | cons x xs =>
      rw [hl] at hmem hnd
      have hx := (hmem x).1 (by simp)
      subst hx
      cases xs with
      | nil => rfl
      | cons y ys =>
        have hy := (hmem y).1 (by simp)
        subst hy
        simp at hnd
  obtain ⟨p, u1, u2⟩ := unpack_spec hC e7 e6 (e.dist + 1) (v := t) (L := e) ((e7.top e).2 rfl) (.inl rfl) (idx := 0) (by rw [hpop]; rfl) (by omega) []
  refine ⟨N + e.dist + 2, e.dist, p, d2, c2, ?_, e6.ready, e5, u2.head, ?_, u2.len, ?_, u2.once, u2.apart, e7.best⟩
  · intro dbg fuel hf
    have h1 := search_mono P g b t (N + 1) fuel d1 c1 (by omega) e4
    have h2 := unpack_mono g d2 s (e.dist + 1) fuel t [] 0 (by omega) u1
    subst hops
    unfold searchPath
    simp only [e1, h1, Option.bind_eq_bind, Option.bind_some, (e6.dist.get htn), hpop]
    have hck : check dbg (([] : List Lab) = []) = some () := by simp [check]
    simp only [hck, h2, Option.bind_some, List.append_nil, Option.pure_def]
    cases dbg <;> simp [check]
  · obtain ⟨ns, rfl⟩ := u2.last; simp
  · obtain ⟨a, h, _⟩ := u2.track; exact ⟨a, h⟩

end Verif.Traffic
