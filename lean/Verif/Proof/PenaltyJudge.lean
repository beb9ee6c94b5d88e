import Verif.Proof.PenaltyRun
/- What the three methods do with a path, and the constructor. -/
set_option linter.unusedSimpArgs false
set_option linter.unusedVariables false
namespace Verif
namespace Penalty
open GraphOps Spec Bits

/-- a simple path with an edge has two ends -/
theorem route_ends {fo hd : List Nat} {ns es : List Nat} (h : Route fo hd ns es) (hn : ns.Nodup) {s t : Nat} (hs : ns.head? = some s) (ht : ns.getLast? = some t) :
    es = [] ↔ s = t := by
  cases h with
  | single u => simp at hs ht; simp [← hs, ← ht]
  | @cons u v a b e ns es h1 h2 h3 h4 h5 hr =>
    simp only [List.head?_cons, Option.some.injEq] at hs
    subst hs
    constructor
    · intro h; simp at h
    · rintro rfl
      rw [List.getLast?_cons_cons] at ht
      exact absurd (List.mem_of_getLast? ht) (List.nodup_cons.1 hn).1

section
variable {dbg : Bool} {g : FOGraph} {L : Limits} {f0 : Found} (hg : g.WF) (hpos : ∀ e, e < g.numArcs → 0 < wt g.weight e) (hF : First dbg g L f0)
include hg

theorem RouteOK.edges {w : List Nat} {s t : Nat} {f : Found} (h : RouteOK g w s t f) : ∀ e ∈ f.edges, e < g.numArcs := by
  intro e he
  obtain ⟨u, v, q, _⟩ := route_edge h.route e he
  exact (ends_lt hg q).1

theorem RouteOK.sum {s t : Nat} {f : Found} (h : RouteOK g g.weight s t f) {es : List Nat} (hes : es.Sublist f.edges) :
    sum32 g.weight es = some (lenOf g.weight es) ∧ lenOf g.weight es ≤ maxDist := by
  have h1 := lenOf_sublist (w := g.weight) hes
  have h2 := h.len
  have h3 := h.short
  refine ⟨sum32_spec es (fun e he => by rw [hg.weights]; exact h.edges hg e (hes.mem he)) ?_, by omega⟩
  unfold maxDist at h3; unfold U32; omega

include hpos hF

theorem sharing_ok {f : Found} (h : RouteOK g g.weight L.s L.t f) {es : List Nat} (hes : es.Sublist f.edges) (hnew : 0 < lenOf g.weight es) :
    sharing (lenOf g.weight f.edges) (lenOf g.weight es) L.base = some () := by
  have h1 := lenOf_sublist (w := g.weight) hes
  have h2 := h.len
  have h3 := h.short
  have hne : f.edges ≠ [] := by
    intro he
    rw [he] at hes
    have := List.sublist_nil.1 hes
    subst this
    simp [lenOf] at hnew
  have hst := (route_ends h.route h.simple h.source h.target).not.1 hne
  have hne0 := (route_ends hF.route.route hF.route.simple hF.route.source hF.route.target).not.2 hst
  have hbase : L.base ≠ 0 := by
    rw [hF.base]
    obtain ⟨e, es', he⟩ := List.exists_cons_of_ne_nil hne0
    have hm : e ∈ f0.edges := by rw [he]; simp
    have a1 := hpos e (hF.route.edges hg e hm)
    have a2 := lenOf_mem (w := g.weight) hm
    have a3 := hF.route.len
    omega
  unfold maxDist at h3
  simp only [sharing, UBS.minus, if_pos h1, Option.bind_eq_bind, Option.bind_some, mul32,
    if_pos (show (lenOf g.weight f.edges - lenOf g.weight es) * 100 < U32 by unfold U32; omega), if_neg hbase]

omit hpos in
theorem check_ok {f : Found} (h : RouteOK g g.weight L.s L.t f) : UBS.check dbg (decide (L.base ≤ lenOf g.weight f.edges)) = some () := by
  unfold UBS.check
  cases dbg with
  | false => rfl
  | true =>
    have := hF.exact rfl _ _ h.route h.source h.target
    rw [← hF.base] at this
    simp [this]

theorem judgeOne_ok (acc : Option (List Nat)) (c : FastClear) (f : Found) (hc : COK g.numArcs c) (hb : ∀ j, bit c.data j = f0.edges.contains j)
    (h : RouteOK g g.weight L.s L.t f) :
    ∃ stop acc', judgeOne dbg g.weight L acc c f = some (stop, acc', c) ∧ (stop = false → acc' = none) ∧
      ∀ ns, acc' = some ns → ∃ es, AltRoute g L.s L.t f0.edges ns es ∧ 4 * lenOf g.weight es ≤ 5 * f0.dist := by
  have hs := h.sum hg (List.Sublist.refl f.edges)
  unfold judgeOne
  simp only [hs.1, Option.bind_eq_bind, Option.bind_some, check_ok hg hF h]
  by_cases hl : lenOf g.weight f.edges > L.maxOrig ∨ f.dist > L.cap
  · rw [if_pos hl]
    exact ⟨true, none, rfl, by simp, by simp⟩
  · rw [if_neg hl]
    have hnew := newEdges_spec hc f.edges (h.edges hg)
    have hfil : f.edges.filter (fun e => !bit c.data e) = f.edges.filter (fun e => !f0.edges.contains e) := by
      congr 1; funext e; rw [hb]
    have hsub : (f.edges.filter (fun e => !f0.edges.contains e)).Sublist f.edges := List.filter_sublist
    rw [hfil] at hnew
    simp only [hnew, Option.bind_some, (h.sum hg hsub).1]
    by_cases hx : lenOf g.weight (f.edges.filter (fun e => !f0.edges.contains e)) > lenOf g.weight f.edges / 5
    · rw [if_pos hx]
      rw [sharing_ok hg hpos hF h hsub (by omega)]
      refine ⟨true, some f.nodes, rfl, by simp, ?_⟩
      intro ns hns
      simp only [Option.some.injEq] at hns
      subst hns
      refine ⟨f.edges, ⟨h.route, h.source, h.target, h.simple, ?_⟩, ?_⟩
      · unfold newLen; omega
      · rw [hF.maxOrig] at hl; omega
    · rw [if_neg hx]
      exact ⟨false, none, rfl, by simp, by simp⟩

omit hg hpos hF in
theorem AltRoutes.snoc {a b : Nat} {used ns es : List Nat} {nss ess : List (List Nat)} (h : AltRoutes g a b used nss ess)
    (hn : AltRoute g a b (used ++ ess.flatten) ns es) : AltRoutes g a b used (nss ++ [ns]) (ess ++ [es]) := by
  induction h with
  | nil used =>
    simp only [List.flatten_nil, List.append_nil] at hn
    exact .cons hn (.nil _)
  | cons h1 _ ih =>
    refine .cons h1 (ih ?_)
    simpa [List.append_assoc] using hn

omit hg hpos hF in
theorem AltRoutes.len {a b : Nat} {used : List Nat} {nss ess : List (List Nat)} (h : AltRoutes g a b used nss ess) : ess.length = nss.length := by
  induction h with
  | nil => rfl
  | cons _ _ ih => simp [ih]

theorem judgeMany_ok (acc ess : List (List Nat)) (c : FastClear) (f : Found) (hc : COK g.numArcs c)
    (hb : ∀ j, bit c.data j = (f0.edges ++ ess.flatten).contains j) (hn : acc.length ≤ 4) (hr : AltRoutes g L.s L.t f0.edges acc ess)
    (hlen : ∀ es ∈ ess, 4 * lenOf g.weight es ≤ 5 * f0.dist) (h : RouteOK g g.weight L.s L.t f) :
    ∃ stop acc' ess' c', judgeMany g.weight L acc c f = some (stop, acc', c') ∧ COK g.numArcs c' ∧ AltRoutes g L.s L.t f0.edges acc' ess' ∧
      acc'.length ≤ 5 ∧ (∀ es ∈ ess'.dropLast, 4 * lenOf g.weight es ≤ 5 * f0.dist) ∧
      (stop = false → acc'.length ≤ 4 ∧ (∀ j, bit c'.data j = (f0.edges ++ ess'.flatten).contains j) ∧ ∀ es ∈ ess', 4 * lenOf g.weight es ≤ 5 * f0.dist) := by
  have hs := h.sum hg (List.Sublist.refl f.edges)
  have hnew := newEdges_spec hc f.edges (h.edges hg)
  have hfil : f.edges.filter (fun e => !bit c.data e) = f.edges.filter (fun e => !(f0.edges ++ ess.flatten).contains e) := by
    congr 1; funext e; rw [hb]
  have hsub : (f.edges.filter (fun e => !(f0.edges ++ ess.flatten).contains e)).Sublist f.edges := List.filter_sublist
  rw [hfil] at hnew
  unfold judgeMany
  simp only [hs.1, Option.bind_eq_bind, Option.bind_some, hnew, (h.sum hg hsub).1]
  by_cases hx : lenOf g.weight (f.edges.filter (fun e => !(f0.edges ++ ess.flatten).contains e)) > lenOf g.weight f.edges / 5
  · rw [if_pos hx]
    obtain ⟨c', a1, a2, a3⟩ := addEdges_spec hc f.edges (h.edges hg)
    simp only [a1, Option.bind_some, sharing_ok hg hpos hF h hsub (by omega)]
    refine ⟨_, _, ess ++ [f.edges], c', rfl, a2, hr.snoc ⟨h.route, h.source, h.target, h.simple, ?_⟩, by simp; omega, ?_, ?_⟩
    · unfold newLen; omega
    · rw [List.dropLast_concat]; exact hlen
    · intro hst
      simp only [Bool.or_eq_false_iff, decide_eq_false_iff_not] at hst
      obtain ⟨s1, s2⟩ := hst
      refine ⟨by omega, fun j => ?_, ?_⟩
      · rw [a3, hb]
        simp only [List.flatten_append, List.flatten_cons, List.flatten_nil, List.append_nil, List.contains_eq_mem, List.mem_append]
        by_cases x1 : j ∈ f.edges <;> by_cases x2 : j ∈ f0.edges <;> by_cases x3 : j ∈ ess.flatten <;> simp [x1, x2, x3]
      · intro es hes
        rcases List.mem_append.1 hes with hes | hes
        · exact hlen es hes
        · simp at hes; subst hes
          rw [hF.maxOrig] at s2; omega
  · rw [if_neg hx]
    exact ⟨_, acc, ess, c, rfl, hc, hr, by omega, fun es hes => hlen es ((List.dropLast_sublist _).mem hes), fun _ => ⟨hn, hb, hlen⟩⟩

omit hg hpos hF in
theorem parts_spec : ∀ (l : List (Nat × Bool)), ∀ p ∈ parts l, p ≠ [] ∧ p.Sublist (l.map Prod.fst)
  | [] => by simp [parts]
  | (e, true) :: rest => by
    intro p hp
    simp only [parts] at hp
    obtain ⟨h1, h2⟩ := parts_spec rest p hp
    exact ⟨h1, by simp only [List.map_cons]; exact List.Sublist.cons _ h2⟩
  | (e, false) :: rest => by
    intro p hp
    have ih := parts_spec rest
    have hsingle : ∀ ps, (∀ q ∈ ps, q ≠ [] ∧ q.Sublist (rest.map Prod.fst)) → p ∈ [e] :: ps → p ≠ [] ∧ p.Sublist (((e, false) :: rest).map Prod.fst) := by
      intro ps hps hp
      rcases List.mem_cons.1 hp with rfl | hp
      · exact ⟨by simp, by simp⟩
      · obtain ⟨h1, h2⟩ := hps p hp
        exact ⟨h1, by simp only [List.map_cons]; exact List.Sublist.cons _ h2⟩
    unfold parts at hp
    split at hp
    · rename_i p' ps heq
      rcases List.mem_cons.1 hp with rfl | hp
      · obtain ⟨h1, h2⟩ := ih p' (by rw [heq]; simp)
        exact ⟨by simp, by simp only [List.map_cons] at h2 ⊢; exact List.Sublist.cons_cons _ h2⟩
      · obtain ⟨h1, h2⟩ := ih p (by rw [heq]; simp [hp])
        exact ⟨h1, by simp only [List.map_cons] at h2 ⊢; exact List.Sublist.cons _ h2⟩
    · exact hsingle _ ih hp

omit hpos in
theorem judgeGraph_ok {sub : FastClear → Nat → Nat → Option Nat} (hsub : SubOK sub) {tail : List Nat} (htl : tail.length = g.numArcs) (acc : Nat) (c : FastClear) (f : Found)
    (hc : COK g.numArcs c) (h : RouteOK g g.weight L.s L.t f) :
    ∃ stop acc' c', judgeGraph dbg sub tail g.head g.weight L acc c f = some (stop, acc', c') ∧ COK g.numArcs c' := by
  have hs := h.sum hg (List.Sublist.refl f.edges)
  have hflags : f.edges.mapM (fun e => c.get e) = some (f.edges.map (fun e => bit c.data e)) := by
    apply mapM_some
    intro e he
    rw [hc.1.get, if_pos (by have := h.edges hg e he; have := hc.2; omega)]
  have hz : (f.edges.zip (f.edges.map (fun e => bit c.data e))).map Prod.fst = f.edges := List.map_fst_zip (by simp)
  have hparts := parts_spec (f.edges.zip (f.edges.map (fun e => bit c.data e)))
  rw [hz] at hparts
  obtain ⟨⟨s', c'⟩, f1, f2⟩ := foldlM_inv (judgePart sub tail g.head g.weight L.base) (fun _ st => COK g.numArcs st.2) (parts (f.edges.zip (f.edges.map (fun e => bit c.data e)))) (by
    rintro P x Q ⟨s, c⟩ hE hc
    obtain ⟨hx1, hx2⟩ := hparts x (by rw [hE]; simp)
    have hxe : ∀ e ∈ x, e < g.numArcs := fun e he => h.edges hg e (hx2.mem he)
    have hhead : x.head? = some (x.head hx1) := List.head?_eq_some_head hx1
    have hlast : x.getLast? = some (x.getLast hx1) := List.getLast?_eq_some_getLast hx1
    have k1 := hxe _ (List.head_mem hx1)
    have k2 := hxe _ (List.getLast_mem hx1)
    obtain ⟨m1, m2⟩ := h.sum hg hx2
    unfold maxDist at m2
    have hh : g.head.length = g.numArcs := rfl
    have g1 : tail[x.head hx1]? = some (tail[x.head hx1]'(by omega)) := List.getElem?_eq_getElem (by omega)
    have g2 : g.head[x.getLast hx1]? = some (g.head[x.getLast hx1]'(by omega)) := List.getElem?_eq_getElem (by omega)
    unfold judgePart
    simp only [hhead, hlast, g1, g2, m1, Option.bind_eq_bind, Option.bind_some, mul32,
      if_pos (show lenOf g.weight x * 20 < U32 by unfold U32; omega)]
    by_cases hb : lenOf g.weight x * 20 > L.base
    · rw [if_pos hb]
      obtain ⟨c2, e1, e2, _⟩ := addEdges_spec hc x hxe
      cases hq : sub c (tail[x.head hx1]'(by omega)) (g.head[x.getLast hx1]'(by omega)) with
      | none =>
        simp only [Option.bind_some]
        split
        · exact ⟨(s + 1, c2), by rw [e1]; rfl, e2⟩
        · exact ⟨(s, c), rfl, hc⟩
      | some d =>
        have := hsub _ _ _ _ hq
        simp only [if_pos (show d * 25 < U32 by unfold U32; omega), Option.bind_some]
        split
        · exact ⟨(s + 1, c2), by rw [e1]; rfl, e2⟩
        · exact ⟨(s, c), rfl, hc⟩
    · rw [if_neg hb]
      exact ⟨(s, c), rfl, hc⟩) (acc, c) hc
  unfold judgeGraph
  simp only [hs.1, Option.bind_eq_bind, Option.bind_some, check_ok hg hF h, hflags, f1]
  exact ⟨_, _, _, rfl, f2⟩

end

/-! ### the server -/

/-- a path of the core is a path of the graph -/
theorem path_of_route {g : FOGraph} {sv : Server} (hg : sv.orig.WF) (harc : ∀ r r' w, sv.orig.Arc r r' w → Topo.RankArc g sv.topo.order r r' w)
    {ns es : List Nat} (h : Route sv.orig.firstOut sv.orig.head ns es) : ∀ {p : List Nat}, ns.mapM sv.topo.order.node = some p → PathOf g.Arc p (lenOf sv.orig.weight es) := by
  induction h with
  | single u =>
    intro p hp
    rw [List.mapM_cons] at hp
    simp only [List.mapM_nil, Option.bind_eq_bind, Option.bind_eq_some_iff, Option.pure_def, Option.some.injEq] at hp
    obtain ⟨x, _, y, rfl, rfl⟩ := hp
    simpa [lenOf] using PathOf.single x
  | @cons u v a b e ns es h1 h2 h3 h4 h5 hr ih =>
    intro p hp
    rw [List.mapM_cons] at hp
    simp only [Option.bind_eq_bind, Option.bind_eq_some_iff, Option.pure_def, Option.some.injEq] at hp
    obtain ⟨x, hx, q, hq, rfl⟩ := hp
    have hih := ih hq
    rw [List.mapM_cons] at hq
    simp only [Option.bind_eq_bind, Option.bind_eq_some_iff, Option.pure_def, Option.some.injEq] at hq
    obtain ⟨y, hy, q', _, rfl⟩ := hq
    have helt : e < sv.orig.weight.length := by rw [hg.weights]; exact (List.getElem?_eq_some_iff.1 h5).1
    have ha : sv.orig.Arc u v (wt sv.orig.weight e) := hg.arc_iff.2 ⟨a, b, e, h1, h2, h3, h4, h5, wt_get helt⟩
    obtain ⟨u', v', q1, q2, q3⟩ := harc _ _ _ ha
    rw [hx] at q1; rw [hy] at q2
    simp only [Option.some.injEq] at q1 q2
    subst q1; subst q2
    have hl : lenOf sv.orig.weight (e :: es) = wt sv.orig.weight e + lenOf sv.orig.weight es := by simp [lenOf, wt]
    rw [hl]
    exact .cons q3 hih

/-- the server belongs to the graph -/
structure Of (g : FOGraph) (sv : Server) : Prop where
  nodes : sv.orig.numNodes = g.numNodes
  order : sv.topo.order.OK g.numNodes
  arcs : ∀ r r' w, sv.orig.Arc r r' w → Topo.RankArc g sv.topo.order r r' w

theorem answer_ok {g : FOGraph} {sv : Server} (h : Idle sv) (ho : Of g sv) {dbg : Bool} {cap11 : Nat → Nat} (hcap : ∀ d, d ≤ maxDist → cap11 d + 2 * (d / 100) < U32)
    {ask : Search} (hask : SearchOK dbg maxDist sv.orig ask) {sub : FastClear → Nat → Nat → Option Nat} (hsub : SubOK sub) (q : Query)
    (hs : q.ends.1 < g.numNodes) (ht : q.ends.2 < g.numNodes) :
    ∃ r c k, answer dbg cap11 ask sub sv q = some (r, { sv with cont := c, calls := k }) ∧ COK sv.orig.numArcs c ∧ ReplyOK g sv ask q r := by
  rw [← ho.nodes] at hs ht
  have hforw : sv.forward = sv.orig := by rw [h.eq]; rfl
  cases q with
  | one s t =>
    obtain ⟨res, c, k, a, b, r1, r2, r3, r4, r5, r6⟩ := run_ok h (src := s) (tgt := t) (dbg := dbg) hcap hask (judge := judgeOne dbg sv.orig.weight) (init := none)
      (fun L f acc c => acc = none ∧ COK sv.orig.numArcs c ∧ ∀ j, bit c.data j = f.edges.contains j)
      (fun L f acc c => COK sv.orig.numArcs c ∧ ∀ ns, acc = some ns → ∃ es, AltRoute sv.orig L.s L.t f.edges ns es ∧ 4 * lenOf sv.orig.weight es ≤ 5 * f.dist)
      (fun L f c _ hc hb => ⟨rfl, hc, hb⟩)
      (by
        rintro L f0 hF acc c f ⟨_, i1, i2⟩ hr
        obtain ⟨stop, acc', j1, j2, j3⟩ := judgeOne_ok h.static.wf h.pos hF acc c f i1 i2 hr
        exact ⟨stop, acc', c, j1, fun _ => ⟨i1, j3⟩, fun hst => ⟨j2 hst, i1, i2⟩⟩)
      (by rintro L f acc c ⟨rfl, i1, i2⟩; exact ⟨i1, by simp⟩) (fun _ _ _ _ hx => hx.1) hs ht
    cases hj : res.join with
    | none =>
      refine ⟨.one none, c, k, ?_, r2, a, b, r3, r4, by simp⟩
      simp only [answer, alternative, r1, Option.bind_eq_bind, Option.bind_some, hj]
      rfl
    | some ns =>
      have hres : res = some (some ns) := by
        cases res with
        | none => simp at hj
        | some x => simp at hj; rw [hj]
      obtain ⟨L, f, l1, l2, l3, l4, l5⟩ := r5 _ hres
      obtain ⟨es, e1, e2⟩ := l4.2 ns rfl
      have hn := route_nodes h.static.wf e1.route e1.source l1.s
      obtain ⟨p, hp⟩ := CCH.mapM_exists (f := sv.topo.order.node) (l := ns) (fun x hx => by
        obtain ⟨v, _, hv, _⟩ := ho.order.node_lt (r := x) (by rw [← ho.nodes]; exact hn x hx)
        exact ⟨v, hv⟩)
      refine ⟨.one (some p), c, k, ?_, r2, a, b, r3, r4, ?_⟩
      · simp only [answer, alternative, r1, Option.bind_eq_bind, Option.bind_some, hj]
        have : ns.mapM (fun v => ({ sv with cont := c, calls := k } : Server).topo.order.node v) = some p := hp
        simp only [this, Option.bind_some]
        rfl
      · intro p' hp'
        simp only [Option.some.injEq] at hp'
        subst hp'
        subst l2; subst l3
        rw [hforw] at l5
        exact ⟨_, f, ns, es, l5, hp, e1, e2, path_of_route h.static.wf ho.arcs e1.route hp⟩
  | many s t =>
    obtain ⟨res, c, k, a, b, r1, r2, r3, r4, r5, r6⟩ := run_ok h (src := s) (tgt := t) (dbg := dbg) hcap hask (judge := judgeMany sv.orig.weight) (init := [])
      (fun L f acc c => ∃ ess, COK sv.orig.numArcs c ∧ (∀ j, bit c.data j = (f.edges ++ ess.flatten).contains j) ∧ acc.length ≤ 4 ∧
        AltRoutes sv.orig L.s L.t f.edges acc ess ∧ ∀ es ∈ ess, 4 * lenOf sv.orig.weight es ≤ 5 * f.dist)
      (fun L f acc c => COK sv.orig.numArcs c ∧ acc.length ≤ 5 ∧ ∃ ess, AltRoutes sv.orig L.s L.t f.edges acc ess ∧
        ∀ es ∈ ess.dropLast, 4 * lenOf sv.orig.weight es ≤ 5 * f.dist)
      (fun L f c _ hc hb => ⟨[], hc, by simpa using hb, by simp, .nil _, by simp⟩)
      (by
        rintro L f0 hF acc c f ⟨ess, i1, i2, i3, i4, i5⟩ hr
        obtain ⟨stop, acc', ess', c', j1, j2, j3, j4, j5, j6⟩ := judgeMany_ok h.static.wf h.pos hF acc ess c f i1 i2 i3 i4 i5 hr
        exact ⟨stop, acc', c', j1, fun _ => ⟨j2, j4, ess', j3, j5⟩, fun hst => ⟨ess', j2, (j6 hst).2.1, (j6 hst).1, j3, (j6 hst).2.2⟩⟩)
      (by
        rintro L f acc c ⟨ess, i1, i2, i3, i4, i5⟩
        exact ⟨i1, by omega, ess, i4, fun es hes => i5 es ((List.dropLast_sublist _).mem hes)⟩) (fun _ _ _ _ hx => hx.1) hs ht
    rw [hforw] at r5 r6
    refine ⟨.many res, c, k, ?_, r2, a, b, sv.calls, r3, r4, ?_⟩
    · simp only [answer, alternatives, r1, Option.bind_eq_bind, Option.bind_some]
      rfl
    · cases res with
      | none => rw [r6 rfl]
      | some nss =>
        obtain ⟨L, f, l1, l2, l3, l4, l5⟩ := r5 _ rfl
        rw [l5]
        subst l2; subst l3
        exact ⟨l4.2.1, l4.2.2⟩
  | graph s t =>
    obtain ⟨res, c, k, a, b, r1, r2, r3, r4, r5, r6⟩ := run_ok h (src := s) (tgt := t) (dbg := dbg) hcap hask (judge := judgeGraph dbg sub sv.tail sv.orig.head sv.orig.weight) (init := 0)
      (fun L f acc c => COK sv.orig.numArcs c) (fun L f acc c => COK sv.orig.numArcs c)
      (fun L f c _ hc hb => hc)
      (by
        rintro L f0 hF acc c f i1 hr
        obtain ⟨stop, acc', c', j1, j2⟩ := judgeGraph_ok h.static.wf hF hsub h.static.tail acc c f i1 hr
        exact ⟨stop, acc', c', j1, fun _ => j2, fun _ => j2⟩)
      (fun _ _ _ _ hx => hx) (fun _ _ _ _ hx => hx) hs ht
    rw [hforw] at r5 r6
    refine ⟨.graph res, c, k, ?_, r2, a, b, sv.calls, r3, r4, ?_⟩
    · simp only [answer, alternativeGraph, r1, Option.bind_eq_bind, Option.bind_some]
      rfl
    · constructor
      · intro hr; exact r6 hr
      · intro hn
        cases res with
        | none => rfl
        | some x =>
          obtain ⟨L, f, l1, l2, l3, l4, l5⟩ := r5 _ rfl
          rw [hn] at l5
          exact (nomatch l5)

theorem replyOK_upd {g : FOGraph} {sv : Server} {ask : Search} {c : FastClear} {k : Nat} {q : Query} {r : Reply} (h : ReplyOK g { sv with cont := c, calls := k } ask q r) :
    ReplyOK g sv ask q r := by
  cases q <;> cases r <;> exact h

theorem answers_ok {g : FOGraph} {dbg : Bool} {cap11 : Nat → Nat} (hcap : ∀ d, d ≤ maxDist → cap11 d + 2 * (d / 100) < U32)
    {ask : Search} {sub : FastClear → Nat → Nat → Option Nat} (hsub : SubOK sub) : ∀ (qs : List Query) {sv : Server}, Idle sv → Of g sv → SearchOK dbg maxDist sv.orig ask →
    (∀ q ∈ qs, q.ends.1 < g.numNodes ∧ q.ends.2 < g.numNodes) →
    ∃ rs c k, answers dbg cap11 ask sub sv qs = some (rs, { sv with cont := c, calls := k }) ∧ List.Forall₂ (ReplyOK g sv ask) qs rs
  | [], sv, h, ho, hask, hq => ⟨[], sv.cont, sv.calls, rfl, .nil⟩
  | q :: qs, sv, h, ho, hask, hq => by
    have hq0 := hq q (by simp)
    obtain ⟨r, c, k, a1, a2, a3⟩ := answer_ok h ho hcap hask hsub q hq0.1 hq0.2
    obtain ⟨rs, c', k', b1, b2⟩ := answers_ok hcap hsub qs (sv := { sv with cont := c, calls := k }) (h.upd a2 k) ⟨ho.nodes, ho.order, ho.arcs⟩ hask
      (fun q hx => hq q (by simp [hx]))
    refine ⟨r :: rs, c', k', ?_, .cons a3 (b2.imp (fun _ _ => replyOK_upd))⟩
    simp only [answers, a1, Option.bind_eq_bind, Option.bind_some, b1]
    rfl

/-- the constructor -/
theorem new_ok {srtN : (Nat → Nat) → List Nat → List Nat} {srt : (Link → Nat) → List Link → List Link} (hsN : SortOK srtN) (hs : SortOK srt) {g : FOGraph} (hg : g.WF)
    (hn : 0 < g.numNodes) (hpos : ∀ u v w, g.Arc u v w → 0 < w) (hbnd : ∀ u v w, g.Arc u v w → w ≤ INFINITY) :
    ∃ sv, Server.new srtN srt g = some sv ∧ Idle sv ∧ Of g sv := by
  obtain ⟨t, r, h1, h2, h3⟩ := Topo.virtualTopocore_spec hsN hg hn
  obtain ⟨main, A, m1, m2, m3, _⟩ := permutatedFiltered_spec hs hg h3.order (fun a b => t.inCore a && t.inCore b)
  obtain ⟨comp, _, m4, _⟩ := permutatedFiltered_spec hs hg h3.order (fun a b => !t.inCore a || !t.inCore b)
  have htop : Topo.Server.new srtN srt true g = some ⟨main, comp, t⟩ := by
    simp only [Topo.Server.new, h1, Option.bind_eq_bind, Option.bind_some, if_true, m1, m4, Option.pure_def]
  have hok := Verif.Traffic.svOK hsN hs hg hn htop
  obtain ⟨rev, r1, r2⟩ := reversedWithEdgeIds_spec m2
  have hta := tails_spec m2
  obtain ⟨fo, hd, hrev⟩ := reversed_ids m2
  obtain ⟨f2b, f1, f2, f3⟩ := edgeIdMap_spec m2
  obtain ⟨al, ag⟩ := allArcs_get m2
  have hback := hrev main.weight m2.weights
  have hends : ∀ e, e < main.numArcs → ∃ u v, ((allArcs main).map Prod.fst)[e]? = some u ∧ main.head[e]? = some v ∧ u < main.numNodes ∧ v < main.numNodes ∧ Ends main e u v := by
    intro e he
    obtain ⟨u, v, x, y, q1, q2, q3, q4, q5, q6, q7⟩ := ag e he
    have hE : Ends main e u v := ⟨x, y, q3, q4, q5, q6, q7⟩
    exact ⟨u, v, by rw [List.getElem?_map, q1]; rfl, q7, q2, (ends_lt m2 hE).2.2, hE⟩
  have hedge : ∀ e, e < main.numArcs → ∃ u v, g.Arc u v (wt main.weight e) := by
    intro e he
    obtain ⟨u, v, _, _, _, _, a, b, q1, q2, q3, q4, q5⟩ := hends e he
    have ha : main.Arc u v (wt main.weight e) := m2.arc_iff.2 ⟨a, b, e, q1, q2, q3, q4, q5, wt_get (by rw [m2.weights]; exact he)⟩
    obtain ⟨u', v', _, _, q⟩ := hok.main.2 _ _ _ ha
    exact ⟨u', v', q⟩
  refine ⟨⟨t, main, main, ⟨fo, hd, (backIds main).map (fun e => main.weight.getD e 0)⟩, f2b, rev, (allArcs main).map Prod.fst, List.replicate main.numNodes 0, [],
    FastClear.new main.numArcs, 0⟩, ?_, ⟨⟨m2, ?_, ?_, hends, f2, f3, hrev⟩, rfl, ⟨FastClear.new_ok _, ?_⟩, ?_, ?_, ?_⟩, ⟨m3, h3.order, hok.main.2⟩⟩
  · have hb' : reversed main.numNodes main.numArcs main.linkIter = some ⟨fo, hd, (backIds main).map (fun e => main.weight.getD e 0)⟩ := hback
    simp only [Server.new, htop, Option.bind_eq_bind, Option.bind_some, r1, hta, hb', f1, Option.pure_def]
  · intro v hv
    obtain ⟨ls, l1, l2, _, l3⟩ := r2 v hv
    refine ⟨ls, l1, ?_, l3⟩
    rw [List.nodup_iff_pairwise_ne, List.pairwise_map]
    rw [List.nodup_iff_pairwise_ne] at l2
    refine l2.imp_of_mem ?_
    rintro ⟨u, e⟩ ⟨u', e'⟩ x1 x2 hne heq
    simp only at heq; subst heq
    have := (ends_unique m2 ((l3 u e).1 x1) ((l3 u' e).1 x2)).1
    exact hne (by rw [this])
  · rw [List.length_map]; exact al
  · show main.numArcs ≤ 64 * (FastClear.new main.numArcs).data.length
    simp [FastClear.new]; omega
  · intro e he
    obtain ⟨u, v, q⟩ := hedge e he
    exact hpos _ _ _ q
  · intro e he
    obtain ⟨u, v, q⟩ := hedge e he
    exact hbnd _ _ _ q
  · intro v hv
    have hv' : v < g.numNodes := by rw [← m3]; exact hv
    obtain ⟨rk, k1, k2, k3⟩ := h3.order.rank_lt hv'
    obtain ⟨b, b1, b2⟩ := h3.bridge rk k1
    refine ⟨b.getD rk, by simp only [enter, k2, b1, Option.bind_eq_bind, Option.bind_some, Option.pure_def], ?_⟩
    show b.getD rk < main.numNodes
    rw [m3]
    cases b with
    | none => exact k1
    | some x => exact b2 x rfl

end Penalty
end Verif
