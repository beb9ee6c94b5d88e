import Verif.Proof.TrafficAwareForbid
import Verif.Proof.TrafficAwareSearch
set_option linter.unusedSimpArgs false
set_option linter.unusedVariables false
/- Lemmas about the loop of the traffic aware server. -/
namespace Verif.Traffic
open Spec UBS CCH MC

variable {σ : Type} {g : FOGraph} {b : Blocked} {loc : Nat → Nat → Nat} {P : Potential σ} {R : σ → Prop} {s : Nat} {pot : Nat → Option Nat}

theorem infix_cases {f α L ω : List Nat} (h : f <:+: α ++ L ++ ω) : f <:+: α ++ L ∨ f <:+: L ++ ω ∨ ∃ c e, c ≠ [] ∧ f = c ++ L ++ e := by
  obtain ⟨X, Y, h⟩ := h
  rw [List.append_assoc, List.append_assoc] at h
  rcases List.append_eq_append_iff.1 h with ⟨c, h1, h2⟩ | ⟨c, h1, h2⟩
  · rcases List.append_eq_append_iff.1 (h2.trans (List.append_assoc _ _ _).symm) with ⟨e, h3, h4⟩ | ⟨e, h3, h4⟩
    · exact .inl ⟨X, e, by rw [h1, List.append_assoc, ← h3]; simp⟩
    · by_cases hc : c = []
      · subst hc
        exact .inr (.inl ⟨[], Y, by rw [h3]; simp [h4]⟩)
      · exact .inr (.inr ⟨c, e, hc, by rw [h3]⟩)
  · exact .inr (.inl ⟨c, Y, by rw [h2]; simp⟩)

/-- The same loop does not occur twice on a path that was found, if no forbidden path visits a node twice, apart from its first node. -/
theorem no_repeat (hC : Ctx g b loc P R s pot) (hF : ∀ f ∈ b.nodes, f.tail.Nodup) {t D : Nat} {p : List Nat} (hs : p.head? = some s) (ht : p.getLast? = some t)
    (hp : PathOf g.Arc p D) {a : Active} (htr : track g b p (Active.new 0) = some a) (hap : Apart p)
    (hbest : ∀ a C, Run (env g b s pot) s (Active.new 0) t a C → D ≤ C) {r r' : Rng} (hr : Loop p r) (hr' : Loop p r') (hlt : r'.stop < r.stop) :
    subPath p r' ≠ subPath p r := by
  intro heq
  have hno := track_infix hC.hg hC.hb p _ a (linked_of_pathOf hC.hg hp) (fun u hu => by
    rw [hs] at hu; injection hu with hu; subst hu; exact hC.src) htr
  obtain ⟨w, m, e1, e2⟩ := loop_closed hr
  obtain ⟨l1, v, l2, l3, l4⟩ := hr
  obtain ⟨k1, v', k2, k3, k4⟩ := hr'
  have hlen := (List.getElem?_eq_some_iff.1 l3).1
  have hv : v' = v := by
    have h1 := subPath_cons l2
    have h2 := subPath_cons k2
    rw [heq, h1] at h2
    injection h2 with h2
    exact h2.symm
  subst hv
  obtain ⟨d1, l, d2, c1, c2, c3, c4⟩ := cut (r := ⟨r'.stop, r.stop⟩) hp hlt k3 l3
  simp only at c1 c3
  have hq := PathOf.join c3 c1
  have hlpos := pathOf_pos hC.pos c2
  have := subPath_two (p := p) (r := ⟨r'.stop, r.stop⟩) hlt hlen
  obtain ⟨α, Y1, s1, s2⟩ := split_at (p := p) (r := r') k1 (by omega)
  obtain ⟨X2, ω, s3, s4⟩ := split_at (p := p) (r := r) l1 hlen
  have hLlen : (subPath p r).length = r.stop - r.start + 1 := by simp only [subPath, List.length_take, List.length_drop]; omega
  have hLlen' : (subPath p r').length = r'.stop - r'.start + 1 := by simp only [subPath, List.length_take, List.length_drop]; omega
  have hpre : p.take r'.stop ++ [v'] = α ++ subPath p r' := by
    rw [← take_succ k3]
    conv_lhs => rw [s1]
    rw [List.take_append_of_le_length (by simp; omega), List.take_of_length_le (by simp; omega)]
  have hsuf : p.drop (r.stop + 1) = ω := by
    conv_lhs => rw [s3]
    rw [List.drop_append_of_le_length (by simp; omega), List.drop_of_length_le (by simp; omega)]
    rfl
  have hqeq : p.take r'.stop ++ v' :: p.drop (r.stop + 1) = α ++ subPath p r ++ ω := by
    rw [hsuf, ← heq, ← hpre]; simp
  -- no forbidden path on the shorter walk
  have hnoq : ∀ f ∈ b.nodes, ¬ f <:+: p.take r'.stop ++ v' :: p.drop (r.stop + 1) := by
    intro f hf hin
    rw [hqeq] at hin
    rcases infix_cases hin with h | h | ⟨c, e, h1, h2⟩
    · refine hno f hf (h.trans ⟨[], Y1, ?_⟩)
      rw [← heq]; simpa using s1.symm
    · refine hno f hf (h.trans ⟨X2, [], ?_⟩)
      simpa using s3.symm
    · have h3 := hF f hf
      rw [h2, e1] at h3
      cases c with
      | nil => exact absurd rfl h1
      | cons x c =>
        have h3' : (c ++ w :: (m ++ [w]) ++ e).Nodup := by simpa using h3
        have h4 : (w :: (m ++ [w])).Nodup := h3'.sublist ((List.sublist_append_right _ _).trans (List.sublist_append_left _ _))
        simp at h4
  have hqh : (p.take r'.stop ++ v' :: p.drop (r.stop + 1)).head? = some s := by
    cases p with
    | nil => simp at hs
    | cons x p =>
      obtain ⟨k, hk⟩ : ∃ k, r'.stop = k + 1 := ⟨r'.stop - 1, by omega⟩
      rw [hk]
      simpa using hs
  have hql : (p.take r'.stop ++ v' :: p.drop (r.stop + 1)).getLast? = some t := by
    rw [← ht]
    have e1 : p = p.take r.stop ++ v' :: p.drop (r.stop + 1) := by
      obtain ⟨h2, h3⟩ := (List.getElem?_eq_some_iff.1 l3)
      rw [← h3]
      simp
    conv_rhs => rw [e1]
    rw [List.getLast?_append_of_ne_nil _ (by simp), List.getLast?_append_of_ne_nil _ (by simp)]
  have hget : ∀ i, (i ≤ r'.stop → (p.take r'.stop ++ v' :: p.drop (r.stop + 1))[i]? = p[i]?) ∧
      (r'.stop ≤ i → (p.take r'.stop ++ v' :: p.drop (r.stop + 1))[i]? = p[i + (r.stop - r'.stop)]?) := by
    intro i
    have hl : (p.take r'.stop).length = r'.stop := by simp; omega
    refine ⟨fun hi => ?_, fun hi => ?_⟩
    · rcases Nat.lt_or_ge i r'.stop with h | h
      · rw [List.getElem?_append_left (by omega), List.getElem?_take_of_lt h]
      · have : i = r'.stop := by omega
        subst this
        rw [List.getElem?_append_right (by omega), hl, Nat.sub_self, k3]
        rfl
    · rw [List.getElem?_append_right (by omega), hl]
      rcases Nat.lt_or_ge r'.stop i with h | h
      · obtain ⟨k, hk⟩ : ∃ k, i - r'.stop = k + 1 := ⟨i - r'.stop - 1, by omega⟩
        rw [hk, List.getElem?_cons_succ, List.getElem?_drop]
        congr 1
        omega
      · have : i = r'.stop := by omega
        subst this
        rw [Nat.sub_self, show r'.stop + (r.stop - r'.stop) = r.stop from by omega, l3]
        rfl
  have hqa : Apart (p.take r'.stop ++ v' :: p.drop (r.stop + 1)) := by
    intro i x y hx hy
    rcases Nat.lt_or_ge i r'.stop with h | h
    · rw [(hget i).1 (by omega)] at hx
      rw [(hget (i + 1)).1 (by omega)] at hy
      exact hap i x y hx hy
    · rw [(hget i).2 (by omega)] at hx
      rw [(hget (i + 1)).2 (by omega), show i + 1 + (r.stop - r'.stop) = i + (r.stop - r'.stop) + 1 from by omega] at hy
      exact hap _ x y hx hy
  generalize p.take r'.stop ++ v' :: p.drop (r.stop + 1) = q at *
  obtain ⟨q', rfl⟩ : ∃ q', q = s :: q' := by
    cases q with
    | nil => simp at hqh
    | cons x q => simp at hqh; subst hqh; exact ⟨q, rfl⟩
  obtain ⟨x, hx⟩ := track_simple hC.hg hC.hb hF q' [s] s (Active.new 0) rfl (linked_of_pathOf hC.hg hq) hC.src (hist_new _ _ _ _ _) hnoq
  have hrun := run_of_track (s := s) (pot := pot) hq (Active.new 0) x (fun u hu => by simp at hu; subst hu; exact hC.src) hC.hg ⟨loc, hC.hb⟩ hqa hx s t rfl hql
  have := hbest _ _ hrun
  omega

end Verif.Traffic
