import Verif.Model.TrafficAware
import Verif.Proof.MultiCritSearch
import Verif.Proof.SubPathsLen
/- The path is read off the labels. -/
set_option linter.unusedSimpArgs false
set_option linter.unusedVariables false
namespace Verif.Traffic
namespace MC
open Active Spec CCH

theorem minWeight_spec {g : FOGraph} (hg : g.WF) {u v w : Nat} (hA : g.Arc u v w) :
    ∃ m, minWeight g u v = some m ∧ g.Arc u v m ∧ ∀ w', g.Arc u v w' → m ≤ w' := by
  have hu := (CCH.FOGraph.WF.arc_lt hg hA).1
  obtain ⟨es, h1, h2⟩ := CCH.edgeIndices_spec hg (v := v) hu
  obtain ⟨ws, h3, h4⟩ : ∃ ws, es.mapM (fun e => (g.link e).map Link.weight) = some ws ∧ ∀ x, x ∈ ws ↔ ∃ e ∈ es, EdgeAt g.firstOut g.head g.weight e u v x := by
    have : ∀ l : List Nat, (∀ e ∈ l, e ∈ es) → ∃ ws, l.mapM (fun e => (g.link e).map Link.weight) = some ws ∧
        ∀ x, x ∈ ws ↔ ∃ e ∈ l, EdgeAt g.firstOut g.head g.weight e u v x := by
      intro l
      induction l with
      | nil => intro _; exact ⟨[], rfl, by simp⟩
      | cons e l ih =>
        intro hl
        obtain ⟨ws, k1, k2⟩ := ih (fun e he => hl e (by simp [he]))
        obtain ⟨x, hx⟩ := (h2 e).1 (hl e (by simp))
        have hlink : g.link e = some ⟨v, x⟩ := by
          obtain ⟨_, _, _, _, _, _, h5, h6⟩ := hx
          simp [FOGraph.link, h5, h6]
        refine ⟨x :: ws, ?_, fun y => ?_⟩
        · simp only [List.mapM_cons, hlink, k1, Option.map_some, Option.bind_eq_bind, Option.bind_some, Option.pure_def]
        · rw [List.mem_cons, k2]
          constructor
          · rintro (rfl | ⟨e', q1, q2⟩)
            · exact ⟨e, by simp, hx⟩
            · exact ⟨e', by simp [q1], q2⟩
          · rintro ⟨e', q1, q2⟩
            rcases List.mem_cons.1 q1 with rfl | q1
            · left
              obtain ⟨_, _, _, _, _, _, _, h6⟩ := hx
              obtain ⟨_, _, _, _, _, _, _, h7⟩ := q2
              rw [h6] at h7
              injection h7 with h7
              exact h7.symm
            · exact .inr ⟨e', q1, q2⟩
    exact this es (fun _ h => h)
  have hmem : ∀ x, x ∈ ws ↔ g.Arc u v x := by
    intro x
    rw [h4, edgeAt_arc hg]
    constructor
    · rintro ⟨e, _, h⟩; exact ⟨e, h⟩
    · rintro ⟨e, h⟩; exact ⟨e, (h2 e).2 ⟨x, h⟩, h⟩
  cases hm : ws.min? with
  | none =>
    rw [List.min?_eq_none_iff] at hm
    have := (hmem w).2 hA
    rw [hm] at this; simp at this
  | some m =>
    rw [List.min?_eq_some_iff] at hm
    refine ⟨m, ?_, (hmem m).1 hm.1, fun w' hw' => hm.2 w' ((hmem w').2 hw')⟩
    simp only [minWeight, h1, h3, Option.bind_eq_bind, Option.bind_some]
    rw [List.min?_eq_some_iff]
    exact hm

theorem position_spec {dist : Nat} {act : Active} (hact : Active.Good act) (ls : List Lab) (i : Nat) (hls : ∀ l ∈ ls, Active.Good l.act)
    (hex : ∃ l ∈ ls, l.dist = dist ∧ Sub l.act act) : ∃ j l, position dist act ls i = some j ∧ i ≤ j ∧ ls[j - i]? = some l ∧ l.dist = dist ∧ Sub l.act act := by
  induction ls generalizing i with
  | nil => obtain ⟨l, h, _⟩ := hex; simp at h
  | cons l ls ih =>
    obtain ⟨x, e1, e2⟩ := isSubset_spec (hls l (by simp)) hact
    by_cases hit : l.dist = dist ∧ Sub l.act act
    · refine ⟨i, l, ?_, Nat.le_refl _, by simp, hit.1, hit.2⟩
      rw [position, if_pos hit.1, e1]
      have := e2.2 hit.2
      simp [this]
    · obtain ⟨j, l', k1, k2, k3, k4, k5⟩ := ih (i + 1) (fun l hl => hls l (by simp [hl])) (by
        obtain ⟨l', h1, h2⟩ := hex
        rcases List.mem_cons.1 h1 with rfl | h1
        · exact absurd h2 hit
        · exact ⟨l', h1, h2⟩)
      refine ⟨j, l', ?_, by omega, ?_, k4, k5⟩
      · rw [position]
        by_cases hd : l.dist = dist
        · have hx : x = false := by
            cases x with
            | false => rfl
            | true => exact absurd ⟨hd, e2.1 rfl⟩ hit
          simp only [if_pos hd, e1, hx, Option.bind_eq_bind, Option.bind_some, Bool.false_eq_true, if_false, k1]
        · simp only [if_neg hd, Option.bind_eq_bind, Option.bind_some, Bool.false_eq_true, if_false, k1]
      · rw [show j - i = (j - (i + 1)) + 1 from by omega, List.getElem?_cons_succ]; exact k3

theorem linked_of_pathOf {g : FOGraph} (hg : g.WF) {p : List Nat} {d : Nat} (h : PathOf g.Arc p d) : Linked g p := by
  induction h with
  | single u => intro i a b ha hb; simp at hb
  | @cons u v w d p hA _ ih =>
    intro i a b ha hb
    cases i with
    | zero =>
      simp at ha hb
      subst ha hb
      obtain ⟨e, he⟩ := (edgeAt_arc hg).1 hA
      exact ⟨e, w, he⟩
    | succ i => exact ih i a b (by simpa using ha) (by simpa using hb)

/-- no node is followed by itself -/
def Apart (p : List Nat) : Prop := ∀ (i u v : Nat), p[i]? = some u → p[i + 1]? = some v → u ≠ v

theorem Apart.tail {u : Nat} {p : List Nat} (h : Apart (u :: p)) : Apart p := fun i a b ha hb => h (i + 1) a b (by simpa using ha) (by simpa using hb)

theorem Apart.of_nodup {p : List Nat} (h : p.Nodup) : Apart p := by
  intro i u v hu hv he
  subst he
  have := nodup_get h hu hv
  omega

/-- the path to `v` that belongs to the label -/
structure Got (g : FOGraph) (b : Blocked) (s v : Nat) (L : Lab) (p : List Nat) : Prop where
  last : ∃ ns, p = ns ++ [v]
  head : p.head? = some s
  len : CheapestLen g.Arc p L.dist
  track : ∃ a, track g b p (Active.new 0) = some a ∧ Sub a L.act
  once : s ∉ p.tail
  apart : Apart p

variable {σ : Type} {g : FOGraph} {b : Blocked} {loc : Nat → Nat → Nat} {P : Potential σ} {R : σ → Prop} {s : Nat} {pot : Nat → Option Nat}

/-- the label before -/
theorem prev_label (hC : Ctx g b loc P R s pot) {S : St} {t : Nat} {e : Lab} (hF : Found (env g b s pot) S t e) {v : Nat} {L : Lab} (hT : S.T v L) (hv : v ≠ s)
    (hch : (v, L) = (t, e) ∨ Chain (env g b s pot) S (t, e) (v, L)) :
    ∃ m, minWeight g L.parent v = some m ∧ g.Arc L.parent v m ∧ (∀ w, g.Arc L.parent v w → m ≤ w) ∧ m ≤ L.dist ∧ Shape b L.parent L.pact ∧
      stepF g b L.parent v L.pact = some L.act ∧ (∃ L', S.T L.parent L' ∧ L'.dist = L.dist - m ∧ Sub L'.act L.pact) ∧
      ∀ L', S.T L.parent L' → L'.dist = L.dist - m → Sub L'.act L.pact → Dep (env g b s pot) S (v, L) (L.parent, L') := by
  have hi := hF.inv
  obtain ⟨w, h1, h2, h3, h4, h5⟩ := hi.gen v L (.inr hT) hv
  have h1 : g.Arc L.parent v w := h1
  obtain ⟨m, m1, m2, m3⟩ := minWeight_spec hC.hg h1
  obtain ⟨L', hd⟩ := hi.ex v L (.inr hT) hv
  obtain ⟨arcs, hr⟩ := hF.round
  have hT' : S.T L.parent L' := by
    rcases hd.cy with hW | hT'
    · exfalso
      refine hr.free L.parent L' ⟨hW, hi.ppot v L (.inr hT) hv⟩ ?_
      rcases hch with hch | hch
      · rw [← hch]; exact .one hd
      · exact hch.trans (.one hd)
    · exact hT'
  obtain ⟨a', ha1, ha2⟩ := hC.ok.mono L.parent v m L'.act L.pact L.act m2 (hi.shp _ _ (.inr hT')) h4 hd.sub h3
  obtain ⟨X, hX1, hX2, hX3⟩ := hi.closed L.parent L' hT' v m m2 (fun h => h5 h.symm) a' ha1
  have hdist : L'.dist = S.γ v L := hd.dist
  have hmw := m3 w h1
  have hXL : X = L := hi.inc v X L hX1 (.inr hT) ⟨by omega, hX3.trans ha2⟩
  subst hXL
  have hγ : X.dist = S.γ v X + m := by omega
  refine ⟨m, m1, m2, m3, by omega, h4, h3, ⟨L', hT', by omega, hd.sub⟩, ?_⟩
  intro L'' q1 q2 q3
  exact ⟨hv, .inr hT, rfl, .inr q1, by show L''.dist = S.γ v X; omega, q3⟩

theorem unpack_spec (hC : Ctx g b loc P R s pot) {S : St} {t : Nat} {e : Lab} (hF : Found (env g b s pot) S t e) {d : MData} {f : Nat → Heap Lab}
    (hd : CRep g.numNodes pot d S f) (fuel : Nat) {v : Nat} {L : Lab} (hT : S.T v L) (hch : (v, L) = (t, e) ∨ Chain (env g b s pot) S (t, e) (v, L)) {idx : Nat}
    (hidx : (f v).popped[idx]? = some L) (hfuel : L.dist < fuel) (rest : List Nat) :
    ∃ p, unpack g d s fuel v rest idx = some (p ++ rest) ∧ Got g b s v L p := by
  induction fuel generalizing v L idx rest with
  | zero => omega
  | succ fuel ih =>
    have hi := hF.inv
    by_cases hv : v = s
    · subst hv
      have hL : L = MData.source v := (hi.src L).1 (.inr hT)
      subst hL
      refine ⟨[v], by simp [unpack], ⟨[], rfl⟩, rfl, ⟨.single v, fun len' h => Nat.zero_le _⟩, ⟨_, rfl, Sub.refl _⟩, by simp, Apart.of_nodup (by simp)⟩
    · obtain ⟨m, m1, m2, m3, m4, m5, m6, m7, m8⟩ := prev_label hC hF hT hv hch
      have hvn : v < g.numNodes := hd.node v L (.inr hT)
      have hpn : L.parent < g.numNodes := (CCH.FOGraph.WF.arc_lt hC.hg m2).1
      have hmin : UBS.minus L.dist m = some (L.dist - m) := by simp [UBS.minus, m4]
      obtain ⟨j, L', p1, p2, p3, p4, p5⟩ := position_spec (dist := L.dist - m) (Shape.good m5) (f L.parent).popped 0
        (fun l hl => Shape.good (hi.shp _ l (.inr (((hd.heap _ hpn).pop l).1 hl)))) (by
          obtain ⟨L', q1, q2, q3⟩ := m7
          exact ⟨L', ((hd.heap _ hpn).pop L').2 q1, q2, q3⟩)
      rw [Nat.sub_zero] at p3
      have hT' : S.T L.parent L' := ((hd.heap _ hpn).pop L').1 (List.mem_of_getElem? p3)
      have hdep := m8 L' hT' p4 p5
      have hlt : L'.dist < L.dist := hi.lt hC.ok hdep
      obtain ⟨p, k1, k2⟩ := ih hT' (.inr (by
        rcases hch with hch | hch
        · rw [← hch]; exact .one hdep
        · exact hch.trans (.one hdep))) p3 (by omega) (v :: rest)
      refine ⟨p ++ [v], ?_, ?_⟩
      · have hdv := hd.dist.get hvn
        have hdp := hd.dist.get hpn
        rw [unpack, if_neg hv]
        simp only [hdv, hidx, m1, hmin, hdp, p1, Option.bind_eq_bind, Option.bind_some]
        rw [k1]; simp
      · obtain ⟨⟨ns, rfl⟩, g2, g3, ⟨a, g4, g5⟩, g6, g7⟩ := k2
        have hpath : PathOf g.Arc (ns ++ [L.parent, v]) (L'.dist + m) := by
          have := PathOf.join (PathOf.cons m2 (.single v)) g3.1
          simpa using this
        have heq : ns ++ [L.parent] ++ [v] = ns ++ [L.parent, v] := by simp
        have hsum : L'.dist + m = L.dist := by omega
        refine ⟨⟨_, rfl⟩, ?_, ?_, ?_, ?_, ?_⟩
        · rw [List.head?_append, g2]; rfl
        · rw [heq]
          refine ⟨by rw [← hsum]; exact hpath, fun len' h => ?_⟩
          obtain ⟨d1, d2, q1, q2, q3⟩ := PathOf.split h
          have h1 := g3.2 d1 q1
          cases q2 with
          | @cons _ _ w d2 _ hA hr =>
            cases hr
            have := m3 w hA
            omega
        · have hlk := linked_of_pathOf hC.hg g3.1
          have hsh := track_shape hC.hg hC.hb ns L.parent _ a hlk (fun u hu => by
            rw [g2] at hu
            injection hu with hu
            subst hu
            exact hC.src) g4
          obtain ⟨a', q1, q2⟩ := hC.ok.mono L.parent v m a L.pact L.act m2 hsh m5 (g5.trans p5) m6
          refine ⟨a', ?_, q2⟩
          rw [heq, track_append, g4, Option.bind_some, Traffic.track, show stepF g b L.parent v a = some a' from q1, Option.bind_some]
          rfl
        · intro hmem
          rw [List.tail_append_of_ne_nil (by simp)] at hmem
          rcases List.mem_append.1 hmem with hm | hm
          · exact g6 hm
          · exact hv (List.mem_singleton.1 hm).symm
        · obtain ⟨_, _, _, _, _, hpv⟩ := hi.gen v L (.inr hT) hv
          intro i x y hx hy he
          subst he
          rcases Nat.lt_or_ge (i + 1) (ns ++ [L.parent]).length with hlt | hge
          · rw [List.getElem?_append_left (by omega)] at hx hy
            exact g7 i x x hx hy rfl
          · have hlt := (List.getElem?_eq_some_iff.1 hy).1
            simp only [List.length_append, List.length_cons, List.length_nil] at hlt hge
            have hi' : i = ns.length := by omega
            subst hi'
            rw [heq] at hx hy
            simp at hx hy
            exact hpv (hx.trans hy.symm)

/-! ### One search -/

theorem run_of_track {p : List Nat} {d : Nat} (hp : PathOf g.Arc p d) : ∀ (a a' : Active), (∀ u, p.head? = some u → Shape b u a) → g.WF → (∃ loc, BOK g b loc) →
    Apart p → track g b p a = some a' → ∀ u t, p.head? = some u → p.getLast? = some t → Run (env g b s pot) u a t a' d := by
  induction hp with
  | single x =>
    intro a a' _ _ _ _ h u t hu ht
    simp at hu ht
    subst hu ht
    simp [track] at h
    subst h
    exact .nil
  | @cons x y w d p hA hp ih =>
    intro a a' hsh hg hb hnd h u t hu ht
    simp at hu
    subst hu
    obtain ⟨loc, hb⟩ := hb
    have hsx := hsh x rfl
    rw [track] at h
    cases hst : stepF g b x y a with
    | none => simp [hst] at h
    | some a1 =>
      rw [hst, Option.bind_some] at h
      obtain ⟨e, he⟩ := (edgeAt_arc hg).1 hA
      obtain ⟨_, _, _, _, _, _, k⟩ := stepF_spec hg hb ⟨w, he⟩ hsx
      refine .cons hA (fun h => hnd 0 x y rfl rfl h.symm) hsx hst (ih a1 a' (fun v hv => by simp at hv; subst hv; exact (k a1 hst).1) hg ⟨loc, hb⟩ hnd.tail h y t rfl ?_)
      simpa using ht

end MC
end Verif.Traffic
