import Verif.Proof.Sources
set_option linter.unusedVariables false
/- C86: which arcs the interval potential for live traffic keeps. -/
namespace Verif
open Spec Sources

/-- **C86.** Let each arc of the hierarchy come with the arcs or original edges it stands for, where parts of an arc belong to nodes that are processed
earlier and to the same task. Afterwards an arc is required exactly if it was before, its lower bound is not above its upper bound, and it can be
unpacked into original edges using only such arcs. There is no panic. The order of the nodes does not matter as long as parts come first. -/
theorem C86_required (d : Arrays) (n m : Nat) (hn : d.firstOut.length = n + 1) (hm : d.firstOut[n]? = some m) (h0 : d.firstOut[0]? = some 0)
    (hmono : ∀ (i j a b : Nat), i ≤ j → d.firstOut[i]? = some a → d.firstOut[j]? = some b → a ≤ b)
    (src : Bool → Nat → List Via) (hsrc : ∀ up e, e < m → d.sources up e = some (src up e))
    (offset : Nat → Nat) (ho : ∀ (x a : Nat), x < n → d.firstOut[x]? = some a → offset x ≤ a)
    (L : List Nat) (hL : L.Perm (List.range n))
    (hord : ∀ pre x post, L = pre ++ x :: post → ∀ up e, ArcOf d.firstOut x e → ∀ a b, Via.pair a b ∈ src up e → ∀ c, c = a ∨ c = b →
      offset x ≤ c ∧ c < e ∧ ∃ y ∈ pre, ArcOf d.firstOut y c)
    (r : Required) (fwLower fwUpper bwLower bwUpper : List Nat) (h1 : r.fw.length = m) (h2 : r.bw.length = m) (h3 : fwLower.length = m)
    (h4 : fwUpper.length = m) (h5 : bwLower.length = m) (h6 : bwUpper.length = m) :
    ∃ r', prune d offset L r fwLower fwUpper bwLower bwUpper = some r' ∧ r'.fw.length = m ∧ r'.bw.length = m ∧
      ∀ (good : Bool → Nat → Prop),
        (∀ e, good true e ↔ r.fw[e]? = some true ∧ ∃ l u, fwLower[e]? = some l ∧ fwUpper[e]? = some u ∧ l ≤ u) →
        (∀ e, good false e ↔ r.bw[e]? = some true ∧ ∃ l u, bwLower[e]? = some l ∧ bwUpper[e]? = some u ∧ l ≤ u) →
        ∀ e, e < m → (r'.fw[e]? = some true ↔ Unpacks good src true e) ∧ (r'.bw[e]? = some true ↔ Unpacks good src false e) := by
  obtain ⟨f1, f2⟩ := dropAbove_spec r.fw fwLower fwUpper (by omega) (by omega)
  obtain ⟨b1, b2⟩ := dropAbove_spec r.bw bwLower bwUpper (by omega) (by omega)
  obtain ⟨r0, hr0⟩ : ∃ r0 : Required, r0 = ⟨dropAbove r.fw fwLower fwUpper, dropAbove r.bw bwLower bwUpper⟩ := ⟨_, rfl⟩
  have hnd : L.Nodup := hL.nodup_iff.2 List.nodup_range
  have hmem : ∀ x, x ∈ L ↔ x < n := fun x => by rw [hL.mem_iff]; simp
  have hi : SInv m src r0 (fun _ e => ∃ x ∈ ([] : List Nat), ArcOf d.firstOut x e) r0 := by
    refine ⟨?_, ?_, fun _ _ _ => rfl⟩
    · intro up; subst hr0; cases up <;> simp only [Required.dir] <;> omega
    · rintro up e _ ⟨x, hx, _⟩; simp at hx
  obtain ⟨r', k1, k2⟩ := disable_ok hn hm hmono offset ho hsrc L [] r0 (by simpa using hnd) (fun x hx => (hmem x).1 hx) (by simp) hi (by simpa using hord)
  refine ⟨r', by rw [prune, ← hr0, k1], k2.len true, k2.len false, ?_⟩
  intro good hg1 hg2 e he
  have hgood : good = Good r0 := by
    funext up e; apply propext
    subst hr0
    cases up
    · rw [hg2]; exact (b2 e).symm
    · rw [hg1]; exact (f2 e).symm
  have hcov : ∀ k, k ≤ n → ∀ b, d.firstOut[k]? = some b → e < b → ∃ x, x < n ∧ ArcOf d.firstOut x e := by
    intro k
    induction k with
    | zero => intro _ b hb hlt; rw [h0] at hb; injection hb with hb; omega
    | succ k ih =>
      intro hk b hb hlt
      obtain ⟨a, ha⟩ : ∃ a, d.firstOut[k]? = some a := ⟨_, List.getElem?_eq_getElem (by omega)⟩
      by_cases c : e < a
      · exact ih (by omega) a ha c
      · exact ⟨k, by omega, a, b, ha, hb, by omega, hlt⟩
  obtain ⟨x, hx, hxe⟩ := hcov n (Nat.le_refl _) m hm he
  rw [hgood]
  have hD : ∃ x ∈ [] ++ L, ArcOf d.firstOut x e := ⟨x, by simpa using (hmem x).2 hx, hxe⟩
  exact ⟨k2.done true e he hD, k2.done false e he hD⟩

namespace SourcesExample

/-- Three nodes with the arcs `0: 0 → 1`, `1: 0 → 2`, `2: 1 → 2`. The last arc stands for original edges or for the way over node `0`. -/
def d : Arrays := ⟨[0, 2, 3, 3], [0, 1, 2, 3], [.edge 0, .edge 1, .pair 0 1], [0, 1, 1, 3], [.edge 2, .pair 1 0, .edge 3]⟩

def src (up : Bool) (e : Nat) : List Via := (d.sources up e).getD []

/-- The arc `0` downwards has a lower bound above its upper bound, so arc `2` upwards goes, too; arc `1` downwards has no sources. -/
example : prune d (fun _ => 0) [0, 1, 2] ⟨[true, true, true], [true, true, true]⟩ [1, 1, 1] [5, 5, 5] [7, 1, 1] [5, 5, 5] =
    some ⟨[true, true, false], [false, false, true]⟩ := by decide

/-- With better bounds all stay except for the arc without sources. -/
example : prune d (fun _ => 0) [0, 2, 1] ⟨[true, true, true], [true, true, true]⟩ [1, 1, 1] [5, 5, 5] [5, 1, 1] [5, 5, 5] =
    some ⟨[true, true, true], [true, false, true]⟩ := by decide

/-- The hypotheses are met. -/
example := C86_required d 3 3 rfl rfl rfl
  (by intro i j a b hij ha hb
      have hi := (List.getElem?_eq_some_iff.1 ha).1
      have hj := (List.getElem?_eq_some_iff.1 hb).1
      simp [d] at hi hj
      have hi : i = 0 ∨ i = 1 ∨ i = 2 ∨ i = 3 := by omega
      have hj : j = 0 ∨ j = 1 ∨ j = 2 ∨ j = 3 := by omega
      rcases hi with rfl | rfl | rfl | rfl <;> rcases hj with rfl | rfl | rfl | rfl <;> simp [d] at ha hb <;> omega)
  src (by
    intro up e he
    have : e = 0 ∨ e = 1 ∨ e = 2 := by omega
    rcases this with rfl | rfl | rfl <;> cases up <;> decide)
  (fun _ => 0) (by omega) [0, 2, 1] (by decide)
  (by
    intro pre x post h up e he a b hab c hc
    obtain ⟨a', b', q1, q2, q3, q4⟩ := he
    have key : e = 2 → c < 2 → 0 ∈ pre → (fun _ => 0) x ≤ c ∧ c < e ∧ ∃ y ∈ pre, ArcOf d.firstOut y c := by
      intro h1 h2 h3
      exact ⟨by simp, by omega, 0, h3, 0, 2, rfl, rfl, by omega, h2⟩
    have hx : x = 0 ∨ x = 1 ∨ x = 2 := by
      have : x ∈ [0, 2, 1] := by rw [h]; simp
      simpa [or_comm] using this
    rcases hx with rfl | rfl | rfl
    · simp [d] at q1 q2
      subst q1; subst q2
      have : e = 0 ∨ e = 1 := by omega
      rcases this with rfl | rfl <;> cases up <;> revert hab <;> simp [src, d, Arrays.sources, slice]
    · simp [d] at q1 q2
      subst q1; subst q2
      have h2 : e = 2 := by omega
      have hpre : 0 ∈ pre := by
        cases pre with
        | nil => simp at h
        | cons p pre => simp at h; simp [h.1.symm]
      refine key h2 ?_ hpre
      subst h2
      cases up <;> revert hab <;> simp [src, d, Arrays.sources, slice] <;> omega
    · simp [d] at q1 q2
      omega)
  ⟨[true, true, true], [true, true, true]⟩ [1, 1, 1] [5, 5, 5] [7, 1, 1] [5, 5, 5] rfl rfl rfl rfl rfl rfl

end SourcesExample
end Verif
