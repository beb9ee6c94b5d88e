import Verif.Model.TdAStar
import Verif.Proof.Dijkstra
import Verif.Spec.TimedPaths
set_option linter.unusedSimpArgs false
set_option linter.unusedVariables false
/- Time-dependent A* with potentials that are only admissible: nodes may be settled several times. -/
namespace Verif
namespace TdAStar
open Spec DData
variable {α β σ : Type}

/-- the callback that corresponds to the closures -/
def cb (P : TDPot σ) (s : σ) (v label : Nat) : Option (σ × Option Nat) := (closures P).key s v label

/-- Without skipping, following an edge is the relaxation of Dijkstra's algorithm. -/
theorem relaxEdge_plain (n : Nat) (G : Topo.TGraph α) (ops : DOps α β) (P : TDPot σ) (node : Nat) (st : DData β × σ) (e : α)
    (hdeg : ∃ d, G.deg (ops.head e) = some d) :
    Topo.relaxEdge n ⟨false, false⟩ G ops (closures P) node st e = relax ops (cb P) node st e := by
  obtain ⟨d, s⟩ := st
  obtain ⟨dg, hdg⟩ := hdeg
  have hb : ∀ q prev dist loc (s : σ), Topo.branch ⟨false, false⟩ G ops (closures P) q prev (ops.head e) dist loc s = some (⟨none, true⟩, loc, s) := by
    intro q prev dist loc s
    cases dg <;> simp [Topo.branch, hdg]
  simp only [Topo.relaxEdge, relax, Topo.follow, Option.bind_eq_bind]
  cases h1 : d.dist.get node with
  | none => simp
  | some label =>
    simp only [Option.bind_some]
    cases h2 : ops.link label e with
    | none => simp
    | some x =>
      simp only [Option.bind_some, Option.pure_def]
      rw [show 2 * n + 4 = (2 * n + 2) + 1 + 1 from rfl, Topo.chainLoop]
      simp only [Topo.chainBody, Option.bind_eq_bind]
      cases h3 : d.dist.get (ops.head e) with
      | none => simp
      | some old =>
        simp only [Option.bind_some]
        cases h4 : d.dist.modify (ops.head e) (fun l => if x < l then x else l) with
        | none => simp
        | some dist =>
          simp only [Option.bind_some]
          by_cases hlt : x < old
          · simp only [if_pos hlt]
            cases h5 : dist.get (ops.head e) with
            | none =>
              simp only [Option.bind_none]
              cases upd d.pred (ops.head e) (node, ops.predLink e) <;> simp
            | some label' =>
              simp only [Option.bind_some, hb]
              cases h6 : upd d.pred (ops.head e) (node, ops.predLink e) with
              | none => simp
              | some pred =>
                simp only [Option.bind_some, Topo.advance, Topo.enqueue, closures, if_true, Option.bind_eq_bind, cb]
                cases h7 : P.get s (ops.head e) (some label') with
                | none => simp
                | some r =>
                  obtain ⟨s', o⟩ := r
                  cases o with
                  | none => simp [Topo.second, Topo.chainLoop]
                  | some p =>
                    simp only [Option.bind_some]
                    cases h8 : add32 p label' with
                    | none => simp
                    | some key =>
                      simp only [Option.bind_some, Option.pure_def]
                      cases h9 : d.queue.containsIndex (ops.head e) with
                      | none => simp
                      | some b =>
                        cases b
                        · simp only [Option.bind_some, Bool.false_eq_true, if_false]
                          cases d.queue.push ⟨key, ops.head e⟩ <;> simp [Topo.second, Topo.chainLoop]
                        · simp only [Option.bind_some, if_true]
                          cases d.queue.decreaseKey ⟨key, ops.head e⟩ <;> simp [Topo.second, Topo.chainLoop]
          · simp only [if_neg hlt, Topo.second, Option.bind_some, Option.pure_def, Topo.chainLoop]

/-- What a time-dependent potential has to do during a query for `t` from `s` at time `τ`: it does not panic, never increases (`cur` is the last
value of each node), and a value for a node and a time does not exceed the remaining travel time, if one arrives not later than `L`. -/
structure Good (n : Nat) (F : Nat → Nat → (Nat → Nat) → Prop) (P : TDPot σ) (s τ t L : Nat) (I : σ → Prop) (cur : σ → Nat → Nat) : Prop where
  get : ∀ c v x, I c → v < n → x < INFINITY → TWalk F s τ v x → ∃ c' o, P.get c v (some x) = some (c', o) ∧ I c' ∧ (∀ u, cur c' u ≤ cur c u) ∧
    cur c' v = o.getD INFINITY ∧ (∀ p, o = some p → p < INFINITY) ∧ ∀ y, TWalk F v x t y → y ≤ L → ∃ p, o = some p ∧ x + p ≤ y

/-- Invariant of the search; `pend v b`: arc `b` of the popped node `v` has not been relaxed yet. -/
structure Inv (p : Prob α β) (s τ t L : Nat) (cur : Nat → Nat) (pend : Nat → α → Prop) (a : Abs β) : Prop where
  ub : ∀ v, a.D v ≤ INFINITY
  src : a.D s = τ
  walk : ∀ v, a.D v < INFINITY → TWalk p.F s τ v (a.D v)
  dlt : ∀ v, a.D v < INFINITY → v < p.n
  queue : ∀ v k, a.Q v = some k → a.D v < INFINITY ∧ (v ≠ s → a.D v + cur v ≤ k) ∧ ∀ y, TWalk p.F v (a.D v) t y → y ≤ L → k ≤ y
  done : ∀ v, a.D v < INFINITY → a.Q v = none →
    (∀ ls b, p.links v = some ls → b ∈ ls → ¬ pend v b → a.D (p.ops.head b) ≤ p.lf b (a.D v)) ∨ ∀ y, TWalk p.F v (a.D v) t y → L < y

/-- the measure that decreases with every settled node -/
def meas (n : Nat) (a : Abs β) : Nat := ((List.range n).map (fun v => 2 * a.D v + if (a.Q v).isSome then 1 else 0)).sum

theorem sum_lt {f g : Nat → Nat} (hle : ∀ v, f v ≤ g v) {l : List Nat} {u : Nat} (hu : u ∈ l) {k : Nat} (hk : f u + k ≤ g u) : (l.map f).sum + k ≤ (l.map g).sum := by
  have hmono : ∀ l : List Nat, (l.map f).sum ≤ (l.map g).sum := by
    intro l
    induction l with
    | nil => simp
    | cons x l ih => simp only [List.map_cons, List.sum_cons]; have := hle x; omega
  induction l with
  | nil => simp at hu
  | cons x l ih =>
    simp only [List.map_cons, List.sum_cons]
    rcases List.mem_cons.1 hu with rfl | h
    · have := hmono l; omega
    · have := ih h; have := hle x; omega

theorem twalk_ge {p : Prob α β} (hp : p.OK) {u v a x : Nat} (h : TWalk p.F u a v x) : a ≤ x := by
  induction h with
  | nil => exact Nat.le_refl _
  | snoc _ ha ih =>
    obtain ⟨ls, b, h1, h2, _, rfl⟩ := ha
    exact Nat.le_trans ih (hp.ge _ _ _ _ h1 h2)

/-- departing earlier one arrives not later -/
theorem twalk_mono {p : Prob α β} (hp : p.OK) {u v a a' x : Nat} (h : TWalk p.F u a v x) (hx : x < INFINITY) (ha : a' ≤ a) : ∃ x', x' ≤ x ∧ TWalk p.F u a' v x' := by
  induction h with
  | nil => exact ⟨a', ha, .nil⟩
  | @snoc w v y f h1 hf ih =>
    obtain ⟨ls, b, h2, h3, h4, rfl⟩ := hf
    have hge := hp.ge _ _ _ y h2 h3
    obtain ⟨x', h5, h6⟩ := ih (by omega)
    exact ⟨_, hp.mono _ _ _ _ _ h2 h3 h5 (by omega), .snoc h6 ⟨ls, b, h2, h3, h4, rfl⟩⟩

/-- One relaxation. -/
theorem relax_inv {p : Prob α β} (hp : p.OK) {P : TDPot σ} {s τ t L : Nat} {I : σ → Prop} {cur : σ → Nat → Nat} (hP : Good p.n p.F P s τ t L I cur)
    {v : Nat} {ls : List α} {b : α} {rest : List α} (hls : p.links v = some ls) (hb : b ∈ ls) {a : Abs β} {d : DData β} {c : σ} (hr : Refines p.n d a) (hc : I c)
    (hv : a.D v < INFINITY) (hi : Inv p s τ t L (cur c) (fun x e => x = v ∧ e ∈ b :: rest) a) :
    ∃ d' c' a', relax p.ops (cb P) v (d, c) b = some (d', c') ∧ Refines p.n d' a' ∧ I c' ∧ a'.D v = a.D v ∧
      Inv p s τ t L (cur c') (fun x e => x = v ∧ e ∈ rest) a' ∧ meas p.n a' ≤ meas p.n a := by
  have hvn := hi.dlt v hv
  have hun := hp.heads v ls b hls hb
  have hlink := hp.link v ls b _ hls hb hv
  obtain ⟨dist, hd1, hd2, hd3, hd4⟩ := hr.modify hun (fun l => if p.lf b (a.D v) < l then p.lf b (a.D v) else l)
  have hg1 := hr.get hvn
  have hg2 := hr.get hun
  by_cases hlt : p.lf b (a.D v) < a.D (p.ops.head b)
  · simp only [hlt, if_true] at hd3 hd4
    generalize hu : p.ops.head b = u at *
    generalize hx : p.lf b (a.D v) = x at *
    have hxinf : x < INFINITY := Nat.lt_of_lt_of_le hlt (hi.ub _)
    have harc : p.F v u (p.lf b) := ⟨ls, b, hls, hb, hu, rfl⟩
    have hw : TWalk p.F s τ u x := by rw [← hx]; exact .snoc (hi.walk v hv) harc
    have hvx : a.D v ≤ x := by rw [← hx]; exact hp.ge _ _ _ _ hls hb
    have huv : v ≠ u := by rintro rfl; omega
    have hus : u ≠ s := by
      rintro rfl
      have := twalk_ge hp hw
      rw [hi.src] at hlt; omega
    obtain ⟨c', o, g1, g2, g3, g4, g5, g6⟩ := hP.get c u x hc hun hxinf hw
    have hpl : u < d.pred.length := by rw [hr.plen]; exact hun
    have hpred : ∀ y, y < p.n → (d.pred.set u (v, p.ops.predLink b))[y]? = some (fupd a.P u (v, p.ops.predLink b) y) := by
      intro y hy
      by_cases hxu : y = u
      · subst hxu; simp [hr.plen, hy]
      · rw [List.getElem?_set_ne (by omega), hr.pred y hy, fupd_of_ne _ _ hxu]
    have hcont := IHeap.rep_containsIndex hr.queue hun
    -- the invariant for the new labels and any queue in which only `u` may have changed
    have key : ∀ (Q : Nat → Option Nat) (P' : Nat → Nat × β), (∀ y, y ≠ u → Q y = a.Q y) →
        (∀ k, Q u = some k → x + cur c' u ≤ k ∧ ∀ y, TWalk p.F u x t y → y ≤ L → k ≤ y) → (Q u = none → ∀ y, TWalk p.F u x t y → L < y) →
        Inv p s τ t L (cur c') (fun y e => y = v ∧ e ∈ rest) ⟨fupd a.D u x, Q, P'⟩ := by
      intro Q P' hQ hQ1 hQ2
      have hle : ∀ y, fupd a.D u x y ≤ a.D y := by
        intro y; by_cases hy : y = u
        · subst hy; simp [fupd]; omega
        · rw [fupd_of_ne _ _ hy]; exact Nat.le_refl _
      refine ⟨fun y => Nat.le_trans (hle y) (hi.ub y), by show fupd a.D u x s = τ; rw [fupd_of_ne _ _ (Ne.symm hus)]; exact hi.src, ?_, ?_, ?_, ?_⟩
      · intro y hy
        by_cases hyu : y = u
        · subst hyu; simp only [fupd, if_true] at hy ⊢; exact hw
        · simp only [fupd_of_ne _ _ hyu] at hy ⊢; exact hi.walk y hy
      · intro y hy
        by_cases hyu : y = u
        · subst hyu; exact hun
        · simp only [fupd_of_ne _ _ hyu] at hy; exact hi.dlt y hy
      · intro y k hk
        by_cases hyu : y = u
        · subst hyu
          obtain ⟨h1, h2⟩ := hQ1 k hk
          simp only [fupd, if_true]
          exact ⟨hxinf, fun _ => h1, h2⟩
        · simp only [hQ y hyu] at hk
          obtain ⟨h1, h2, h3⟩ := hi.queue y k hk
          simp only [fupd_of_ne _ _ hyu]
          refine ⟨h1, fun h => ?_, h3⟩
          have := h2 h; have := g3 y; omega
      · intro y hy hq
        by_cases hyu : y = u
        · subst hyu
          right
          simp only [fupd, if_true]; exact hQ2 hq
        · simp only [hQ y hyu] at hq
          simp only [fupd_of_ne _ _ hyu] at hy ⊢
          rcases hi.done y hy hq with h | h
          · left
            intro ls' b' h1 h2 h3
            by_cases hyv : y = v ∧ b' = b
            · obtain ⟨rfl, rfl⟩ := hyv
              rw [hx, hu]; simp [fupd]
            · refine Nat.le_trans (hle _) (h ls' b' h1 h2 ?_)
              rintro ⟨rfl, h4⟩
              rcases List.mem_cons.1 h4 with rfl | h4
              · exact hyv ⟨rfl, rfl⟩
              · exact h3 ⟨rfl, h4⟩
          · exact .inr h
    have hmeas : ∀ (Q : Nat → Option Nat) (P' : Nat → Nat × β), (∀ y, y ≠ u → Q y = a.Q y) → meas p.n ⟨fupd a.D u x, Q, P'⟩ ≤ meas p.n a := by
      intro Q P' hQ
      unfold meas
      have := sum_lt (f := fun y => 2 * fupd a.D u x y + if (Q y).isSome then 1 else 0) (g := fun y => 2 * a.D y + if (a.Q y).isSome then 1 else 0) (l := List.range p.n) (u := u) (k := 0)
        (by
          intro y
          by_cases hyu : y = u
          · subst hyu; simp only [fupd, if_true]; split <;> split <;> omega
          · simp only [fupd_of_ne _ _ hyu, hQ y hyu]; omega) (List.mem_range.2 hun) (by
          simp only [fupd, if_true]; split <;> split <;> omega)
      simpa using this
    have hxeq : fupd a.D u x v = a.D v := fupd_of_ne _ _ huv
    cases o with
    | none =>
      refine ⟨⟨dist, d.pred.set u (v, p.ops.predLink b), d.queue⟩, c', ⟨fupd a.D u x, a.Q, fupd a.P u (v, p.ops.predLink b)⟩, ?_, ⟨hd4, hd2, hr.queue, by simp [hr.plen], hpred⟩, g2, hxeq,
        key _ _ (fun _ _ => rfl) ?_ ?_, hmeas _ _ (fun _ _ => rfl)⟩
      · simp only [relax, hg1, hlink, hu, hg2, hd1, hd3, hlt, cb, closures, g1, upd_of_lt _ hpl, Option.bind_eq_bind, Option.bind_some, if_true, Option.pure_def]
      · intro k hk
        obtain ⟨h1, h2, h3⟩ := hi.queue u k hk
        have := h2 hus; have := g3 u
        refine ⟨by omega, fun y hy hyL => ?_⟩
        obtain ⟨q, hq, _⟩ := g6 y hy hyL
        simp at hq
      · intro _ y hy
        apply Classical.byContradiction
        intro hn
        obtain ⟨q, hq, _⟩ := g6 y hy (by omega)
        simp at hq
    | some q =>
      have hq5 := g5 q rfl
      simp only [Option.getD_some] at g4
      have hadd : add32 q x = some (q + x) := add32_of_lt (by unfold INFINITY at *; unfold U32; omega)
      have hfin : Inv p s τ t L (cur c') (fun y e => y = v ∧ e ∈ rest) ⟨fupd a.D u x, fupd a.Q u (some (q + x)), fupd a.P u (v, p.ops.predLink b)⟩ := by
        apply key _ _ (fun y hy => fupd_of_ne _ _ hy)
        · intro k hk
          simp only [fupd, if_true, Option.some.injEq] at hk
          subst hk
          refine ⟨by omega, fun y hy hyL => ?_⟩
          obtain ⟨q', e1, e2⟩ := g6 y hy hyL
          simp at e1; subst e1; omega
        · intro hk; simp [fupd] at hk
      have hm := hmeas (fupd a.Q u (some (q + x))) (fupd a.P u (v, p.ops.predLink b)) (fun y hy => fupd_of_ne _ _ hy)
      cases hQ : a.Q u with
      | none =>
        simp only [hQ, Option.map_none, Option.isSome_none] at hcont
        obtain ⟨qu, hq1, hq2⟩ := IHeap.rep_push (x := (⟨q + x, u⟩ : QState)) hr.queue hun (by simp [idx_q, hQ])
        refine ⟨⟨dist, d.pred.set u (v, p.ops.predLink b), qu⟩, c', _, ?_, ⟨hd4, hd2, ?_, by simp [hr.plen], hpred⟩, g2, hxeq, hfin, hm⟩
        · simp only [relax, hg1, hlink, hu, hg2, hd1, hd3, hlt, cb, closures, g1, hadd, upd_of_lt _ hpl, hcont, hq1, Option.bind_eq_bind, Option.bind_some, if_true, Option.pure_def]
          simp [hq1]
        · convert hq2 using 1
          funext y
          by_cases hxu : y = u
          · subst hxu; simp [idx_q]
          · simp only [idx_q]; rw [fupd_of_ne _ _ hxu, fupd_of_ne _ _ hxu]
      | some k =>
        obtain ⟨_, hk, _⟩ := hi.queue _ k hQ
        have hk := hk hus
        have := g3 u
        simp only [hQ, Option.map_some, Option.isSome_some] at hcont
        obtain ⟨qu, hq1, hq2⟩ := IHeap.rep_decreaseKey (x := (⟨q + x, u⟩ : QState)) (y := ⟨k, u⟩) hr.queue (by simp [idx_q, hQ]) (by
            simp only [IHeap.le, HeapElem.lt]; simp; omega)
        refine ⟨⟨dist, d.pred.set u (v, p.ops.predLink b), qu⟩, c', _, ?_, ⟨hd4, hd2, ?_, by simp [hr.plen], hpred⟩, g2, hxeq, hfin, hm⟩
        · simp only [relax, hg1, hlink, hu, hg2, hd1, hd3, hlt, cb, closures, g1, hadd, upd_of_lt _ hpl, hcont, hq1, Option.bind_eq_bind, Option.bind_some, if_true, Option.pure_def]
        · convert hq2 using 1
          funext y
          by_cases hxu : y = u
          · subst hxu; simp [idx_q]
          · simp only [idx_q]; rw [fupd_of_ne _ _ hxu, fupd_of_ne _ _ hxu]
  · simp only [hlt, if_false] at hd3 hd4
    refine ⟨⟨dist, d.pred, d.queue⟩, c, a, ?_, ⟨?_, hd2, hr.queue, hr.plen, hr.pred⟩, hc, rfl, { hi with
      done := ?_ }, Nat.le_refl _⟩
    · simp only [relax, hg1, hlink, hg2, hd1, hlt, Option.bind_eq_bind, Option.bind_some, if_false]
      rfl
    · obtain ⟨dl, h1, h2, h3⟩ := hd4
      refine ⟨dl, h1, h2, ?_⟩
      intro x; rw [← h3]
      by_cases hx : x = p.ops.head b
      · subst hx; simp
      · rw [fupd_of_ne _ _ hx]
    · intro y hy hq
      rcases hi.done y hy hq with h | h
      · left
        intro ls' b' h1 h2 h3
        by_cases hyv : y = v ∧ b' = b
        · obtain ⟨rfl, rfl⟩ := hyv; omega
        · apply h ls' b' h1 h2
          rintro ⟨rfl, h4⟩
          rcases List.mem_cons.1 h4 with rfl | h4
          · exact hyv ⟨rfl, rfl⟩
          · exact h3 ⟨rfl, h4⟩
      · exact .inr h

theorem fold_inv {p : Prob α β} (hp : p.OK) {P : TDPot σ} {s τ t L : Nat} {I : σ → Prop} {cur : σ → Nat → Nat} (hP : Good p.n p.F P s τ t L I cur)
    {v : Nat} {ls : List α} (hls : p.links v = some ls) : ∀ (rest : List α), (∀ b ∈ rest, b ∈ ls) → ∀ (a : Abs β) (d : DData β) (c : σ), Refines p.n d a → I c →
    a.D v < INFINITY → Inv p s τ t L (cur c) (fun x e => x = v ∧ e ∈ rest) a →
    ∃ d' c' a', rest.foldlM (relax p.ops (cb P) v) (d, c) = some (d', c') ∧ Refines p.n d' a' ∧ I c' ∧ Inv p s τ t L (cur c') (fun _ _ => False) a' ∧ meas p.n a' ≤ meas p.n a := by
  intro rest
  induction rest with
  | nil =>
    intro _ a d c hr hc _ hi
    refine ⟨d, c, a, rfl, hr, hc, { hi with
      done := ?_ }, Nat.le_refl _⟩
    intro y hy hq
    rcases hi.done y hy hq with h | h
    · exact .inl (fun ls' b' h1 h2 _ => h ls' b' h1 h2 (by simp))
    · exact .inr h
  | cons b rest ih =>
    intro hrest a d c hr hc hv hi
    obtain ⟨d1, c1, a1, h1, h2, h3, h4, h5, h6⟩ := relax_inv hp hP hls (hrest b (by simp)) hr hc hv hi
    obtain ⟨d2, c2, a2, k1, k2, k3, k4, k5⟩ := ih (fun b' hb' => hrest b' (by simp [hb'])) a1 d1 c1 h2 h3 (by omega) h5
    exact ⟨d2, c2, a2, by simp only [List.foldlM_cons, h1, Option.bind_eq_bind, Option.bind_some]; exact k1, k2, k3, k4, by omega⟩

/-- One step of the search. -/
theorem settle_inv {p : Prob α β} (hp : p.OK) {G : Topo.TGraph α} (hG : G.links = p.links) (hdeg : ∀ v, v < p.n → ∃ d, G.deg v = some d)
    {P : TDPot σ} {s τ t L : Nat} {I : σ → Prop} {cur : σ → Nat → Nat} (hP : Good p.n p.F P s τ t L I cur) {a : Abs β} {d : DData β} {c : σ} (hr : Refines p.n d a) (hc : I c)
    (hi : Inv p s τ t L (cur c) (fun _ _ => False) a) :
    (Topo.settleNext p.n ⟨false, false⟩ G p.ops (closures P) d c = some (none, d, c) ∧ ∀ v, a.Q v = none) ∨
    ∃ v d' c' a', Topo.settleNext p.n ⟨false, false⟩ G p.ops (closures P) d c = some (some v, d', c') ∧ Refines p.n d' a' ∧ I c' ∧
      Inv p s τ t L (cur c') (fun _ _ => False) a' ∧ meas p.n a' < meas p.n a := by
  rcases IHeap.rep_pop hr.queue with ⟨h1, h2⟩ | ⟨x, q, h1, h2, h3, h4⟩
  · left
    refine ⟨by simp [Topo.settleNext, h1], ?_⟩
    intro v; have := h2 v; simpa using this
  · right
    simp only [idx_q, Option.map_eq_some_iff] at h2
    obtain ⟨k, hk, hx⟩ := h2
    obtain ⟨hvD, _, hky⟩ := hi.queue _ k hk
    have hvn := hi.dlt _ hvD
    obtain ⟨ls, hls⟩ := hp.total x.node hvn
    have hi1 : Inv p s τ t L (cur c) (fun y e => y = x.node ∧ e ∈ ls) { a with Q := fupd a.Q x.node none } := by
      refine ⟨hi.ub, hi.src, hi.walk, hi.dlt, ?_, ?_⟩
      · intro y k' hk'
        by_cases hy : y = x.node
        · subst hy; simp [fupd] at hk'
        · simp only [fupd_of_ne _ _ hy] at hk'; exact hi.queue y k' hk'
      · intro y hy hq
        by_cases hyx : y = x.node
        · subst hyx
          left
          intro ls' b' h5 h6 h7
          rw [hls] at h5; simp at h5; subst h5
          exact absurd ⟨rfl, h6⟩ h7
        · simp only [fupd_of_ne _ _ hyx] at hq
          rcases hi.done y hy hq with h | h
          · exact .inl (fun ls' b' h5 h6 _ => h ls' b' h5 h6 (by simp))
          · exact .inr h
    have hr1 : Refines p.n { d with queue := q } { a with Q := fupd a.Q x.node none } := by
      refine ⟨hr.dist, hr.default, ?_, hr.plen, hr.pred⟩
      convert h4 using 1
      funext u
      by_cases hu : u = x.node
      · subst hu; simp [idx_q]
      · simp only [idx_q]; rw [fupd_of_ne _ _ hu, fupd_of_ne _ _ hu]
    obtain ⟨d', c', a', e1, e2, e3, e4, e5⟩ := fold_inv hp hP hls ls (fun _ h => h) _ _ c hr1 hc hvD hi1
    refine ⟨x.node, d', c', a', ?_, e2, e3, e4, ?_⟩
    · have hcongr : ∀ (l : List α), (∀ b ∈ l, b ∈ ls) → ∀ st, l.foldlM (Topo.relaxEdge p.n ⟨false, false⟩ G p.ops (closures P) x.node) st = l.foldlM (relax p.ops (cb P) x.node) st := by
        intro l
        induction l with
        | nil => intro _ st; rfl
        | cons b l ih =>
          intro hl st
          simp only [List.foldlM_cons, relaxEdge_plain p.n G p.ops P x.node st b (hdeg _ (hp.heads _ _ _ hls (hl b (by simp))))]
          cases relax p.ops (cb P) x.node st b with
          | none => rfl
          | some st' => simp only [Option.bind_eq_bind, Option.bind_some]; exact ih (fun b' hb' => hl b' (by simp [hb'])) st'
      simp only [Topo.settleNext, h1, hG, hls, Option.bind_eq_bind, Option.bind_some, hcongr ls (fun _ h => h), e1, Option.pure_def]
    · refine Nat.lt_of_le_of_lt e5 ?_
      unfold meas
      refine Nat.lt_of_lt_of_le (Nat.lt_succ_self _) (sum_lt (u := x.node) (k := 1) ?_ (List.mem_range.2 hvn) ?_)
      · intro y
        by_cases hy : y = x.node
        · subst hy; simp [fupd]
        · simp only [fupd_of_ne _ _ hy]; exact Nat.le_refl _
      · simp [fupd, hk]

/-- Every arrival not after `L` is matched by the label of the target or by the key of a queued node. -/
theorem Inv.frontier {p : Prob α β} (hp : p.OK) {s τ t L : Nat} {cur : Nat → Nat} {a : Abs β} (hi : Inv p s τ t L cur (fun _ _ => False) a) {y : Nat} (hw : TWalk p.F s τ t y) (hy : y ≤ L)
    (hyi : y < INFINITY) : a.D t ≤ y ∨ ∃ v k, a.Q v = some k ∧ k ≤ y := by
  have main : ∀ v x, TWalk p.F s τ v x → TWalk p.F v x t y → a.D v ≤ x ∨ ∃ v k, a.Q v = some k ∧ k ≤ y := by
    intro v x h1
    induction h1 with
    | nil => intro _; left; rw [hi.src]; exact Nat.le_refl _
    | @snoc u v x f h1 ha ih =>
      intro h2
      have h3 := TWalk.cons ha h2
      rcases ih h3 with h | h
      · have hx : x < INFINITY := Nat.lt_of_le_of_lt (twalk_ge hp h3) hyi
        obtain ⟨y', e1, e2⟩ := twalk_mono hp h3 hyi h
        cases hq : a.Q u with
        | some k => exact .inr ⟨u, k, hq, Nat.le_trans ((hi.queue u k hq).2.2 y' e2 (by omega)) e1⟩
        | none =>
          rcases hi.done u (by omega) hq with hd | hd
          · left
            obtain ⟨ls, b, k1, k2, k3, rfl⟩ := ha
            have := hd ls b k1 k2 (by simp)
            rw [k3] at this
            exact Nat.le_trans this (hp.mono _ _ _ _ _ k1 k2 h hx)
          · have := hd y' e2; omega
      · exact .inr h
  exact main t y hw .nil

theorem mayStop_spec {n : Nat} {d : DData β} {a : Abs β} (hr : Refines n d a) {t tp cap : Nat} (ht : t < n) (hub : a.D t ≤ INFINITY) (htp : tp < INFINITY) :
    ∃ b, Topo.mayStop d t tp cap = some b ∧ (b = true → ∀ v k, a.Q v = some k → a.D t + tp ≤ k ∨ cap < k) := by
  unfold Topo.mayStop
  rcases IHeap.rep_peek hr.queue with ⟨h1, h2⟩ | ⟨x, h1, h2, h3⟩
  · refine ⟨false, ?_, by simp⟩
    simp only [DData.peekKey, h1, Option.map_none]
  · have hadd : add32 (a.D t) tp = some (a.D t + tp) := add32_of_lt (by unfold INFINITY at *; unfold U32; omega)
    refine ⟨_, by simp only [DData.peekKey, h1, Option.map_some, hr.get ht, hadd, Option.bind_eq_bind, Option.bind_some, Option.pure_def]; rfl, ?_⟩
    intro hb v k hk
    have := h3 v ⟨k, v⟩ (by simp [hk])
    simp only [IHeap.le, HeapElem.lt] at this
    simp at this
    simp at hb
    omega

/-- The search: afterwards the label of the target is not larger than any arrival up to `L`. -/
theorem loop_spec {p : Prob α β} (hp : p.OK) {G : Topo.TGraph α} (hG : G.links = p.links) (hdeg : ∀ v, v < p.n → ∃ d, G.deg v = some d)
    {P : TDPot σ} {s τ t L : Nat} {I : σ → Prop} {cur : σ → Nat → Nat} (hP : Good p.n p.F P s τ t L I cur) (ht : t < p.n) {tp : Nat} (htp : tp < INFINITY) :
    ∀ (fuel : Nat) (a : Abs β) (d : DData β) (c : σ), Refines p.n d a → I c → Inv p s τ t L (cur c) (fun _ _ => False) a → meas p.n a < fuel →
    ∃ d' c' a', searchLoop p.n ⟨false, false⟩ G p.ops P t tp INFINITY fuel d c = some (d', c') ∧ Refines p.n d' a' ∧ I c' ∧
      Inv p s τ t L (cur c') (fun _ _ => False) a' ∧ ∀ y, TWalk p.F s τ t y → y ≤ L → y < INFINITY → a'.D t ≤ y := by
  intro fuel
  induction fuel with
  | zero => intro a d c _ _ _ h; omega
  | succ fuel ih =>
    intro a d c hr hc hi hm
    rcases settle_inv hp hG hdeg hP hr hc hi with ⟨h1, h2⟩ | ⟨v, d1, c1, a1, h1, h2, h3, h4, h5⟩
    · refine ⟨d, c, a, by simp only [searchLoop, h1, Option.bind_eq_bind, Option.bind_some, Option.pure_def], hr, hc, hi, ?_⟩
      intro y hy hyL hyi
      rcases hi.frontier hp hy hyL hyi with h | ⟨u, k, h, _⟩
      · exact h
      · rw [h2 u] at h; simp at h
    · obtain ⟨b, hb, hb2⟩ := mayStop_spec (cap := INFINITY) h2 ht (h4.ub t) htp
      cases b with
      | true =>
        refine ⟨d1, c1, a1, by simp only [searchLoop, h1, hb, Option.bind_eq_bind, Option.bind_some, Option.pure_def, if_true], h2, h3, h4, ?_⟩
        intro y hy hyL hyi
        rcases h4.frontier hp hy hyL hyi with h | ⟨u, k, h, h'⟩
        · exact h
        · rcases hb2 rfl u k h with h6 | h6 <;> omega
      | false =>
        obtain ⟨d2, c2, a2, k1, k2⟩ := ih a1 d1 c1 h2 h3 h4 (by omega)
        exact ⟨d2, c2, a2, by simp only [searchLoop, h1, hb, Option.bind_eq_bind, Option.bind_some, Bool.false_eq_true, if_false]; exact k1, k2⟩

/-- enough rounds for every query -/
def rounds (n : Nat) : Nat := n * (2 * INFINITY + 1) + 1

theorem meas_le {n : Nat} {a : Abs β} (h : ∀ v, a.D v ≤ INFINITY) : meas n a < rounds n := by
  unfold meas rounds
  have : ∀ l : List Nat, (l.map (fun v => 2 * a.D v + if (a.Q v).isSome then 1 else 0)).sum ≤ l.length * (2 * INFINITY + 1) := by
    intro l
    induction l with
    | nil => simp
    | cons x l ih =>
      simp only [List.map_cons, List.sum_cons, List.length_cons, Nat.add_mul, Nat.one_mul]
      have := h x
      have h2 : (if (a.Q x).isSome then 1 else 0) ≤ (1 : Nat) := by split <;> omega
      generalize (if (a.Q x).isSome then 1 else 0) = z at *
      generalize l.length * (2 * INFINITY + 1) = m at *
      omega
  have := this (List.range n)
  rw [List.length_range] at this
  omega

theorem start_inv {p : Prob α β} (hp : p.OK) {s τ t L : Nat} {cur : Nat → Nat} (hs : s < p.n) (hτ : τ < INFINITY) {P' : Nat → Nat × β} :
    Inv p s τ t L cur (fun _ _ => False) ⟨fupd (fun _ => INFINITY) s τ, fupd (fun _ => none) s (some τ), P'⟩ := by
  have hinf : ∀ x, fupd (fun _ => INFINITY) s τ x < INFINITY → x = s := by
    intro x hx
    apply Classical.byContradiction
    intro hn
    rw [fupd_of_ne _ _ hn] at hx; exact Nat.lt_irrefl _ hx
  refine ⟨?_, by simp [fupd], ?_, ?_, ?_, ?_⟩
  · intro v; unfold fupd; simp only; split <;> omega
  · intro v hv; have := hinf v hv; subst this; simp only [fupd, if_true]; exact .nil
  · intro v hv; have := hinf v hv; subst this; exact hs
  · intro v k hk
    have hv : v = s := by
      apply Classical.byContradiction
      intro hn
      simp only [fupd_of_ne _ _ hn] at hk; simp at hk
    subst hv
    simp only [fupd, if_true, Option.some.injEq] at hk ⊢
    subst hk
    exact ⟨hτ, fun h => absurd rfl h, fun y hy _ => twalk_ge hp hy⟩
  · intro v hv hq
    have := hinf v hv; subst this
    simp [fupd] at hq

/-- A query with a good potential. `hnone`: the potential of the target is defined if there is an arrival up to `L`. -/
theorem distance_spec {p : Prob α β} (hp : p.OK) {G : Topo.TGraph α} (hG : G.links = p.links) (hdeg : ∀ v, v < p.n → ∃ d, G.deg v = some d)
    {P : TDPot σ} {s τ t L : Nat} {I : σ → Prop} {cur : σ → Nat → Nat} (hP : Good p.n p.F P s τ t L I cur) (hs : s < p.n) (ht : t < p.n) (hτ : τ < INFINITY)
    (hL : ∀ y, TWalk p.F s τ t y → y < INFINITY → ∃ y', y' ≤ y ∧ y' ≤ L ∧ TWalk p.F s τ t y') {c : σ} {c1 : σ} (hc : P.init c s t τ = some c1)
    {c2 : σ} {tp : Option Nat} (hget : P.get c1 t none = some (c2, tp)) (hc2 : I c2) (htp : ∀ x, tp = some x → x < INFINITY)
    (hnone : tp = none → ∀ y, TWalk p.F s τ t y → INFINITY ≤ y)
    {d : DData β} {a : Abs β} (hr : Refines p.n d a) {fuel : Nat} (hf : rounds p.n ≤ fuel) :
    ∃ r d' c' a', distance fuel p.n ⟨false, false⟩ G p.ops P d c s τ t INFINITY = some (r, d', c') ∧ Refines p.n d' a' ∧ I c' ∧
      ArrivalAnswer p.F s τ t (r.map (τ + ·)) := by
  obtain ⟨d1, h1, h2⟩ := init_refines hr hs τ
  have hi := start_inv (L := L) (t := t) (cur := cur c2) hp hs hτ (P' := fupd a.P s (s, (a.P s).2))
  have hdep := h2.get hs
  simp only [fupd, if_true] at hdep
  cases tp with
  | none =>
    refine ⟨none, d1, c2, _, ?_, h2, hc2, ?_⟩
    · simp only [distance, h1, hc, distanceManually, hdep, hget, Option.bind_eq_bind, Option.bind_some, Option.pure_def]
    · intro x
      simp only [Option.map_none, reduceCtorEq, false_iff, not_and]
      intro hx
      have := hnone rfl x hx.1; omega
  | some tp =>
    obtain ⟨d2, c3, a2, k1, k2, k3, k4, k5⟩ := loop_spec hp hG hdeg hP ht (htp tp rfl) fuel _ d1 c2 h2 hc2 hi (Nat.lt_of_lt_of_le (meas_le hi.ub) hf)
    refine ⟨if a2.D t < INFINITY then some (a2.D t - τ) else none, d2, c3, a2, ?_, k2, k3, ?_⟩
    · simp only [distance, h1, hc, distanceManually, hdep, hget, k1, k2.get ht, Option.bind_eq_bind, Option.bind_some, Option.pure_def]
    · have hall : ∀ y, TWalk p.F s τ t y → y < INFINITY → a2.D t ≤ y := by
        intro y hy hyi
        obtain ⟨y', e1, e2, e3⟩ := hL y hy hyi
        exact Nat.le_trans (k5 y' e3 e2 (by omega)) e1
      intro x
      by_cases hlt : a2.D t < INFINITY
      · have hw := k4.walk t hlt
        have hge := twalk_ge hp hw
        simp only [if_pos hlt, Option.map_some, Option.some.injEq, show τ + (a2.D t - τ) = a2.D t by omega]
        constructor
        · rintro rfl
          refine ⟨⟨hw, fun y hy => ?_⟩, hlt⟩
          by_cases hyi : y < INFINITY
          · exact hall y hy hyi
          · omega
        · rintro ⟨⟨e1, e2⟩, e3⟩
          have := e2 _ hw; have := hall x e1 e3; omega
      · simp only [if_neg hlt, Option.map_none, reduceCtorEq, false_iff, not_and]
        intro hx hxi
        have := hall x hx.1 hxi; omega

end TdAStar
end Verif
