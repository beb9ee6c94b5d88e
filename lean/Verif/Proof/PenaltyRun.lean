import Verif.Proof.PenaltyLoop
import Verif.Proof.HeuristicPath
/- Whole queries of the penalty method. -/
set_option linter.unusedSimpArgs false
set_option linter.unusedVariables false
namespace Verif
namespace Penalty
open GraphOps Spec Bits

/-- marks for `m` edges -/
def COK (m : Nat) (c : FastClear) : Prop := c.OK ∧ m ≤ 64 * c.data.length

theorem addEdges_spec {m : Nat} {c : FastClear} (hc : COK m c) (es : List Nat) (hes : ∀ e ∈ es, e < m) :
    ∃ c', addEdges c es = some c' ∧ COK m c' ∧ ∀ j, bit c'.data j = (es.contains j || bit c.data j) := by
  obtain ⟨c', h1, h2, h3⟩ := foldlM_inv FastClear.set (fun P c' => COK m c' ∧ ∀ j, bit c'.data j = (P.contains j || bit c.data j)) es (by
    rintro P x Q s hE ⟨⟨i1, i2⟩, i3⟩
    have hx := hes x (by rw [hE]; simp)
    obtain ⟨s', g1, g2, g3, g4⟩ := i1.set (i := x) (by omega)
    refine ⟨s', g1, ⟨g2, by omega⟩, fun j => ?_⟩
    rw [g4, i3]
    simp only [List.contains_eq_mem, List.mem_append, List.mem_singleton]
    by_cases hj : j = x <;> by_cases hp : j ∈ P <;> simp [hj, hp]) c ⟨hc, by simp⟩
  exact ⟨c', h1, h2, h3⟩

theorem newEdges_spec {m : Nat} {c : FastClear} (hc : COK m c) (es : List Nat) (hes : ∀ e ∈ es, e < m) :
    newEdges c es = some (es.filter (fun e => !bit c.data e)) := by
  unfold newEdges
  apply filterM_some
  intro x hx
  have := hes x hx
  rw [hc.1.get, if_pos (by have := hc.2; omega)]
  rfl

theorem lenOf_sublist {w : List Nat} {l l' : List Nat} (h : l.Sublist l') : lenOf w l ≤ lenOf w l' := by
  induction h with
  | slnil => exact Nat.le_refl _
  | cons a _ ih =>
    have h1 : ∀ es, lenOf w (a :: es) = wt w a + lenOf w es := by intro es; simp [lenOf, wt]
    rw [h1]; omega
  | cons_cons a _ ih =>
    have h1 : ∀ es, lenOf w (a :: es) = wt w a + lenOf w es := by intro es; simp [lenOf, wt]
    rw [h1, h1]; omega

/-- the server between queries -/
structure Idle (sv : Server) : Prop where
  static : Static sv
  eq : sv = sv.at sv.orig.weight (List.replicate sv.orig.numNodes 0) [] sv.cont sv.calls
  cont : COK sv.orig.numArcs sv.cont
  pos : ∀ e, e < sv.orig.numArcs → 0 < wt sv.orig.weight e
  bnd : ∀ e, e < sv.orig.numArcs → wt sv.orig.weight e ≤ INFINITY
  enter : ∀ v, v < sv.orig.numNodes → ∃ r, enter sv.topo v = some r ∧ r < sv.orig.numNodes

/-- what is known after the first search -/
structure First (dbg : Bool) (g : FOGraph) (L : Limits) (f : Found) : Prop where
  s : L.s < g.numNodes
  t : L.t < g.numNodes
  route : RouteOK g g.weight L.s L.t f
  base : L.base = f.dist
  maxOrig : L.maxOrig = f.dist * 5 / 4
  rejoin : L.rejoin ≤ maxRejoin
  exact : dbg = true → ∀ ns es, Route g.firstOut g.head ns es → ns.head? = some L.s → ns.getLast? = some L.t → f.dist ≤ lenOf g.weight es

theorem Idle.linv {sv : Server} (h : Idle sv) : LInv sv sv.orig.weight (List.replicate sv.orig.numNodes 0) [] := by
  have hz : ∀ v, tm (List.replicate sv.orig.numNodes 0) v = 0 := by
    intro v
    simp only [tm, List.getD_eq_getElem?_getD, List.getElem?_replicate]
    split <;> rfl
  refine ⟨h.static.wf.weights, by simp, by simp, fun _ _ => Nat.le_refl _, fun _ _ _ _ hne => absurd rfl hne, fun v hv => absurd (hz v) hv, fun v => by rw [hz]; omega, ?_⟩
  intro e a b he
  have := h.bnd e (ends_lt h.static.wf he).1
  omega

theorem Idle.upd {sv : Server} (h : Idle sv) {c : FastClear} (hc : COK sv.orig.numArcs c) (k : Nat) : Idle { sv with cont := c, calls := k } := by
  have heq : { sv with cont := c, calls := k } = sv.at sv.orig.weight (List.replicate sv.orig.numNodes 0) [] c k := by
    conv => lhs; rw [h.eq]
    rfl
  exact ⟨⟨h.static.wf, h.static.rev, h.static.tail, h.static.ends, h.static.f2bLen, h.static.f2b, h.static.back⟩, heq, hc, h.pos, h.bnd, h.enter⟩

/-- A query does not panic, and it leaves the server as it was. -/
theorem run_ok {α : Type} {sv : Server} (h : Idle sv) {dbg : Bool} {cap11 : Nat → Nat} (hcap : ∀ d, d ≤ maxDist → cap11 d + 2 * (d / 100) < U32)
    {ask : Search} (hask : SearchOK dbg maxDist sv.orig ask) {judge : Limits → α → FastClear → Found → Option (Bool × α × FastClear)} {init : α}
    (JInv JEnd : Limits → Found → α → FastClear → Prop)
    (hstart : ∀ L f c, First dbg sv.orig L f → COK sv.orig.numArcs c → (∀ j, bit c.data j = f.edges.contains j) → JInv L f init c)
    (hj : ∀ L f0, First dbg sv.orig L f0 → ∀ acc c f, JInv L f0 acc c → RouteOK sv.orig sv.orig.weight L.s L.t f →
      ∃ stop acc' c', judge L acc c f = some (stop, acc', c') ∧ (stop = true → JEnd L f0 acc' c') ∧ (stop = false → JInv L f0 acc' c'))
    (hend : ∀ L f acc c, JInv L f acc c → JEnd L f acc c) (hcok : ∀ L f acc c, JEnd L f acc c → COK sv.orig.numArcs c)
    {src tgt : Nat} (hs : src < sv.orig.numNodes) (ht : tgt < sv.orig.numNodes) :
    ∃ res c k a b, run dbg cap11 ask judge init sv src tgt = some (res, { sv with cont := c, calls := k }) ∧ COK sv.orig.numArcs c ∧
      enter sv.topo src = some a ∧ enter sv.topo tgt = some b ∧
      (∀ acc, res = some acc → ∃ L f, First dbg sv.orig L f ∧ L.s = a ∧ L.t = b ∧ JEnd L f acc c ∧
        ask sv.calls ⟨sv.forward, sv.backward, a, b, INFINITY, none⟩ = some f) ∧
      (res = none → ask sv.calls ⟨sv.forward, sv.backward, a, b, INFINITY, none⟩ = none) := by
  obtain ⟨a, ha1, ha2⟩ := h.enter src hs
  obtain ⟨b, hb1, hb2⟩ := h.enter tgt ht
  obtain ⟨c0, hc1, hc2, hc3, hc4⟩ := h.cont.1.clear
  have hc0 : COK sv.orig.numArcs c0 := ⟨hc2, by have := h.cont.2; omega⟩
  have hforw : sv.forward = sv.orig := by rw [h.eq]; rfl
  unfold run
  simp only [ha1, hb1, hc1, Option.bind_eq_bind, Option.bind_some]
  cases hq : ask sv.calls ⟨sv.forward, sv.backward, a, b, INFINITY, none⟩ with
  | none =>
    refine ⟨none, c0, sv.calls + 1, a, b, rfl, hc0, rfl, rfl, by simp, fun _ => hq⟩
  | some f =>
    have hval := valid_call (cont := sv.cont) (calls := sv.calls) h.static h.linv ha2 hb2 INFINITY none
    rw [← h.eq] at hval
    obtain ⟨hf1, hf2⟩ := hask _ _ _ hval hq
    have hfr : RouteOK sv.orig sv.orig.weight a b f := by
      have := hf1
      rw [hforw] at this
      exact ⟨this.route, this.source, this.target, this.simple, this.len, this.short⟩
    have hshort := hfr.short
    have hedges : ∀ e ∈ f.edges, e < sv.orig.numArcs := by
      intro e he
      obtain ⟨u, v, q, _⟩ := route_edge hfr.route e he
      exact (ends_lt h.static.wf q).1
    obtain ⟨c1, hd1, hd2, hd3⟩ := addEdges_spec hc0 f.edges hedges
    have hwl : sv.orig.weight.length = sv.orig.numArcs := h.static.wf.weights
    have hsum := sum32_spec (w := sv.orig.weight) f.edges (fun e he => by rw [hwl]; exact hedges e he) (by
      have := hfr.len; unfold maxDist at hshort; unfold U32; omega)
    have hex : dbg = true → ∀ ns es, Route sv.orig.firstOut sv.orig.head ns es → ns.head? = some a → ns.getLast? = some b → f.dist ≤ lenOf sv.orig.weight es :=
      fun hd => hf2 hd hforw rfl
    have hchk : UBS.check dbg (decide (f.dist = lenOf sv.orig.weight f.edges)) = some () := by
      unfold UBS.check
      cases dbg with
      | false => rfl
      | true =>
        have h1 := hex rfl _ _ hfr.route hfr.source hfr.target
        have h2 := hfr.len
        have : f.dist = lenOf sv.orig.weight f.edges := by omega
        simp [← this]
    obtain ⟨L, hL⟩ : ∃ L : Limits, L = ⟨a, b, f.dist, min (f.dist * 5 / 4) (U32 - 1), f.dist / 100, cap11 f.dist + 2 * (f.dist / 100)⟩ := ⟨_, rfl⟩
    have hfirst : First dbg sv.orig L f := by
      subst hL
      refine ⟨ha2, hb2, hfr, rfl, ?_, ?_, hex⟩
      · show min _ _ = _
        unfold maxDist at hshort; unfold U32; omega
      · show f.dist / 100 ≤ _
        unfold maxDist at hshort; unfold maxRejoin; omega
    have hbit : ∀ j, bit c1.data j = f.edges.contains j := by intro j; rw [hd3, hc4]; simp
    obtain ⟨acc', fw', times', reset', cont', calls', l1, l2, l3⟩ := loop_ok (α := α) h.static h.pos hask hfirst.s hfirst.t hfirst.rejoin (JInv L f) (JEnd L f) (hj L f hfirst)
      (hend L f) (5 * sv.orig.numNodes + 2) init sv.orig.weight (List.replicate sv.orig.numNodes 0) [] c1 (sv.calls + 1) f h.linv (hstart L f c1 hfirst hd2 hbit)
      (by subst hL; exact hfr) (by have := left_le sv.orig.numNodes (List.replicate sv.orig.numNodes 0); omega)
    have hreset := resetAll_spec (cont := cont') (calls := calls') h.static l2.tl l2.fl l2.rl l2.ch l2.tr
    refine ⟨some acc', cont', calls', a, b, ?_, hcok L f acc' cont' l3, rfl, rfl, ?_, by simp⟩
    · have hsv : ({ sv with cont := c1, calls := sv.calls + 1 } : Server) = sv.at sv.orig.weight (List.replicate sv.orig.numNodes 0) [] c1 (sv.calls + 1) := by
        conv => lhs; rw [h.eq]
        rfl
      have hsv' : ({ sv with cont := cont', calls := calls' } : Server) = sv.at sv.orig.weight (List.replicate sv.orig.numNodes 0) [] cont' calls' := by
        conv => lhs; rw [h.eq]
        rfl
      simp only [add32_of_lt (hcap _ hshort), Option.bind_some, hd1, hsum, hchk]
      rw [hsv', ← hL]
      have horig : (sv.at sv.orig.weight (List.replicate sv.orig.numNodes 0) [] c1 (sv.calls + 1)).orig.numNodes = sv.orig.numNodes := rfl
      rw [hsv, l1]
      simp only [Option.bind_some, hreset]
      rfl
    · intro acc hacc
      simp only [Option.some.injEq] at hacc
      subst hacc
      subst hL
      exact ⟨_, f, hfirst, rfl, rfl, l3, hq⟩

end Penalty
end Verif
