import Verif.Proof.CCHPath
set_option linter.unusedSimpArgs false
set_option linter.unusedVariables false
/- Histories of CCH servers: a query depends on nothing that earlier queries have left behind. -/
namespace Verif
namespace CCH
open Spec
variable {n : Nat} {c : Cch}

/-! ### Parent pointers are determined by the graph -/

/-- Two shortest chains to the same node have the same pointers. -/
theorem Chain.same {tree : List (Option Nat)} {g : FOGraph} (hg : DirOK n tree g) (hE : ∀ {e e' y x w w'}, g.E e y x w → g.E e' y x w' → e = e')
    {R : Nat → Nat → Nat → List Nat → Prop} {s : Nat} {P1 P2 : Nat → Nat × Nat} {x : Nat} {J : List Nat}
    (h : ChainI R P1 s x J) : (∀ v ∈ J, v < x) → ∀ {d}, (∀ a, UpWalk g.Arc s x a → d ≤ a) → Chain Strict g s P1 x d → Chain Strict g s P2 x d → ChainI R P2 s x J := by
  induction h with
  | nil => intros; exact .nil
  | @snoc y x e J I h1 h2 h3 h4 ih =>
    intro hlt d hmin c1 c2
    have hsx : s ≠ x := by
      rintro rfl
      have : s ∈ J ++ y :: I := by
        rcases h1.src with ⟨rfl, _⟩ | h
        · simp
        · simp [h]
      have := hlt s this; omega
    cases c1 with
    | nil => exact absurd rfl hsx
    | @snoc y1 _ e1 w1 d1 c1 p1 q1 l1 =>
      rw [h3] at p1; simp at p1; obtain ⟨rfl, rfl⟩ := p1
      generalize hdd : d1 + w1 = dd at c2 hmin l1
      cases c2 with
      | nil => exact absurd rfl hsx
      | @snoc y2 _ e2 w2 d2 c2 p2 q2 l2 =>
        have hy : y = y2 := by
          rcases Nat.lt_trichotomy y y2 with h | h | h
          · have := l2 y w1 d1 h (hg.arc q1) (c1.upwalk hg)
            simp only [Strict] at this; omega
          · exact h
          · have := l1 y2 w2 d2 h (hg.arc q2) (c2.upwalk hg)
            simp only [Strict] at this; omega
        subst hy
        have he := hE q1 q2
        subst he
        have hw : w1 = w2 := by
          obtain ⟨_, _, _, _, _, _, _, a1⟩ := q1
          obtain ⟨_, _, _, _, _, _, _, a2⟩ := q2
          rw [a1] at a2; simpa using a2
        subst hw
        have hd : d1 = d2 := by omega
        subst hd
        refine .snoc (ih h2 ?_ c1 c2) h2 p2 h4
        intro a ha
        have := hmin _ (ha.snoc (hg.arc q1) (hg.up (hg.arc q1)))
        omega

theorem fw_unique (hg : Base n c) {w : Weights} (hw : WOK c w) {e e' y x l l' : Nat} (h : (fwGraph c w).E e y x l) (h' : (fwGraph c w).E e' y x l') : e = e' :=
  hg.unique ((fw_E hg hw).1 h).1 ((fw_E hg hw).1 h').1

theorem bw_unique (hg : Base n c) {w : Weights} (hw : WOK c w) {e e' y x l l' : Nat} (h : (bwGraph c w).E e y x l) (h' : (bwGraph c w).E e' y x l') : e = e' :=
  hg.unique ((bw_E hg hw).1 h).1 ((bw_E hg hw).1 h').1


/-- The meeting node and the pointers that belong to the answer are the same whatever was in the arrays before. -/
theorem Customized.same_path {O : Nat → Nat → Nat → Prop} {w0 w : Weights} (h : Customized n c O w0 w) {fps bps fps' bps' : List (Nat × Nat)}
    (hf : fps.length = n) (hb : bps.length = n) (hf' : fps'.length = n) (hb' : bps'.length = n) {s t m m' d : Nat} (hs : s < n) (ht : t < n) (hd : d < INFINITY)
    (hmin : ∀ d', UpDown (fwGraph c w).Arc (bwGraph c w).Arc s t d' → d ≤ d')
    (hm : Meeting (fwGraph c w) (bwGraph c w) s t (gp fps) (gp bps) m d) (hm' : Meeting (fwGraph c w) (bwGraph c w) s t (gp fps') (gp bps') m' d) :
    ∃ p, PState n c.tail w fps bps s t m p ∧ PState n c.tail w fps' bps' s t m' p ∧ PathOf O p d := by
  have hg := h.good
  have hF := fw_dirOK hg h.ok
  have hB := bw_dirOK hg h.ok
  obtain ⟨Jf, Jb, k1, k2, k3, k4, k5, k6⟩ := h.path hf hb hs ht hd hm
  refine ⟨_, k5, ?_, k6⟩
  obtain ⟨a, b, hab, c1, c2⟩ := hm.ex
  obtain ⟨a', b', hab', c1', c2'⟩ := hm'.ex
  have hmm : m = m' := by
    rcases Nat.lt_trichotomy m m' with hlt | heq | hlt
    · have := hm'.low m a b hlt (c1.upwalk hF) (c2.upwalk hB); omega
    · exact heq
    · have := hm.low m' a' b' hlt (c1'.upwalk hF) (c2'.upwalk hB); omega
  subst hmm
  have haa : a = a' := by
    have := hmin _ ⟨m, a, b', c1.upwalk hF, c2'.upwalk hB, rfl⟩
    have := hmin _ ⟨m, a', b, c1'.upwalk hF, c2.upwalk hB, rfl⟩
    omega
  subst haa
  have hbb : b = b' := by omega
  subst hbb
  have f1 := Chain.same hF (fw_unique hg.toBase h.ok) k1 k2 (fun x hx => by
    have := hmin _ ⟨m, x, b, hx, c2.upwalk hB, rfl⟩; omega) c1 c1'
  have b1 := Chain.same hB (bw_unique hg.toBase h.ok) k3 k4 (fun x hx => by
    have := hmin _ ⟨m, a, x, c1.upwalk hF, hx, rfl⟩; omega) c2 c2'
  obtain ⟨H, e1, e2⟩ := enc_bw b1
  exact ⟨hf', hb', ⟨Jf, _, H, f1, k2, e1, e2, rfl⟩, k5.nodup, k5.lt⟩

/-! ### From ranks to nodes -/

theorem pathOf_inRanks {A : Nat → Nat → Nat → Prop} {nodeAt : Nat → Option Nat} {p : List Nat} {d : Nat} (h : PathOf (InRanks A nodeAt) p d) :
    ∀ {q}, p.mapM nodeAt = some q → PathOf A q d := by
  induction h with
  | single u =>
    intro q hq
    cases h1 : nodeAt u with
    | none => simp [h1] at hq
    | some x => simp [h1] at hq; subst hq; exact .single x
  | @cons u v w d p ha _ ih =>
    intro q hq
    obtain ⟨x, y, hx, hy, h1⟩ := ha
    simp only [List.mapM_cons, hx, hy, Option.bind_eq_bind, Option.bind_some, Option.pure_def] at hq ih
    cases h2 : p.mapM nodeAt with
    | none => simp [h2] at hq
    | some p' =>
      simp only [h2, Option.bind_some, Option.some.injEq] at hq ih
      subst hq
      exact .cons h1 (ih rfl)

theorem answer_inRanks {A : Nat → Nat → Nat → Prop} {order : NodeOrder} (hord : order.OK n) (hA : ∀ u v w, A u v w → u < n ∧ v < n) {s t x y : Nat} {r : Option Nat}
    (hx : order.node x = some s) (hy : order.node y = some t) (h : Answer (InRanks A order.node) x y r) : Answer A s t r := by
  intro d
  rw [h d]
  constructor
  · rintro ⟨⟨h1, h2⟩, h3⟩
    exact ⟨⟨walk_inRanks h1 hx hy, fun d' hd' => h2 d' (inRanks_walk hord hA hd' hx hy)⟩, h3⟩
  · rintro ⟨⟨h1, h2⟩, h3⟩
    exact ⟨⟨inRanks_walk hord hA h1 hx hy, fun d' hd' => h2 d' (walk_inRanks hd' hx hy)⟩, h3⟩


theorem mapM_getLast {α β : Type} {f : α → Option β} {l : List α} {r : List β} (h : l.mapM f = some r) {x : α} (hx : l.getLast? = some x) :
    ∃ y, f x = some y ∧ r.getLast? = some y := by
  obtain ⟨h1, h2⟩ := mapM_index h
  rw [List.getLast?_eq_getElem?] at hx ⊢
  obtain ⟨y, hy, hf⟩ := h2 _ _ hx
  exact ⟨y, hf, by rw [h1]; exact hy⟩

theorem mapM_head {α β : Type} {f : α → Option β} {l : List α} {r : List β} (h : l.mapM f = some r) {x : α} (hx : l.head? = some x) :
    ∃ y, f x = some y ∧ r.head? = some y := by
  obtain ⟨h1, h2⟩ := mapM_index h
  rw [List.head?_eq_getElem?] at hx ⊢
  obtain ⟨y, hy, hf⟩ := h2 _ _ hx
  exact ⟨y, hf, hy⟩

theorem mapM_nodup {α β : Type} {f : α → Option β} (hinj : ∀ a b y, f a = some y → f b = some y → a = b) : ∀ {l : List α} {r : List β},
    l.mapM f = some r → l.Nodup → r.Nodup
  | [], r, h, _ => by simp at h; subst h; simp
  | a :: l, r, h, hn => by
    simp only [List.mapM_cons, Option.bind_eq_bind, Option.bind_eq_some_iff, Option.pure_def, Option.some.injEq] at h
    obtain ⟨b, hb, r', hr', rfl⟩ := h
    rw [List.nodup_cons] at hn ⊢
    refine ⟨?_, mapM_nodup hinj hr' hn.2⟩
    intro hm
    obtain ⟨x, hx, hf⟩ := (mem_of_mapM hr' b).1 hm
    have := hinj _ _ _ hb hf
    subst this
    exact hn.1 hx

/-! ### One query -/

/-- Queries on ranks are exact and the pointers they leave stand for a shortest path, which is the same for every state of the server. -/
def Serves (n : Nat) (O : Nat → Nat → Nat → Prop) (fwG bwG : FOGraph) (tree : List (Option Nat)) (tl : List Nat) (w : Weights) : Prop :=
  ∀ s t, s < n → t < n → ∃ r p, Answer O s t r ∧ (∀ d, r = some d → PathOf O p d) ∧ ∀ srv, Clean n srv →
    ∃ srv', queryRanks fwG bwG tree srv s t = some (r, srv') ∧ Clean n srv' ∧
      ∀ d, r = some d → PState n tl w srv'.fwParents srv'.bwParents s t srv'.meeting p

theorem PState.unique {tl : List Nat} {w : Weights} {f b : List (Nat × Nat)} {s t m : Nat} {p p' : List Nat} (h : PState n tl w f b s t m p)
    (h' : PState n tl w f b s t m p') : p = p' := by
  obtain ⟨_, _, a1, a2, a3, _⟩ := h.run
  obtain ⟨_, _, b1, b2, b3, _⟩ := h'.run
  rw [a1] at b1; simp at b1; subst b1
  rw [a2] at b2; simp at b2; subst b2
  rw [a3] at b3; simpa using b3

theorem Customized.serves {O : Nat → Nat → Nat → Prop} {w0 w : Weights} (hc : Customized n c O w0 w) :
    Serves n O (fwGraph c w) (bwGraph c w) c.elimTree c.tail w := by
  intro x y hxn hyn
  obtain ⟨r, srv0, h1, h2, h3, h4⟩ := hc.query (clean_new n 0) hxn hyn
  cases r with
  | none =>
    refine ⟨none, [], h3, by simp, ?_⟩
    intro srv hcl
    obtain ⟨r', srv', k1, k2, k3, k4⟩ := hc.query hcl hxn hyn
    have := h3.unique k3
    subst this
    exact ⟨srv', k1, k2, by simp⟩
  | some d =>
    obtain ⟨hd, hmin, hm⟩ := h4 d rfl
    obtain ⟨p, p1, _, p3⟩ := hc.same_path h2.fp h2.bp h2.fp h2.bp hxn hyn hd hmin hm hm
    refine ⟨some d, p, h3, by rintro d' hd'; simp at hd'; subst hd'; exact p3, ?_⟩
    intro srv hcl
    obtain ⟨r', srv', k1, k2, k3, k4⟩ := hc.query hcl hxn hyn
    have := h3.unique k3
    subst this
    refine ⟨srv', k1, k2, ?_⟩
    intro d' hd'
    simp at hd'; subst hd'
    obtain ⟨p', q1, q2, _⟩ := hc.same_path h2.fp h2.bp k2.fp k2.bp hxn hyn hd hmin hm (k4 d rfl).2.2
    rw [p1.unique q1]; exact q2

/-- A customized CCH for the metric `A`, and its order. -/
structure Ready (n : Nat) (c : Cch) (A : Nat → Nat → Nat → Prop) (w : Weights) : Prop where
  ord : c.order.OK n
  arc : ∀ u v l, A u v l → u < n ∧ v < n
  cust : ∃ w0, Customized n c (InRanks A c.order.node) w0 w

/-- The reply to one query. -/
structure ReplyOK (A : Nat → Nat → Nat → Prop) (s t k : Nat) (r : Option Nat × List (List Nat)) : Prop where
  ans : Answer A s t r.1
  none : r.1 = none → r.2 = []
  some : ∀ d, r.1 = some d → r.2.length = k ∧ ∀ p ∈ r.2, PathOf A p d ∧ p.head? = Option.some s ∧ p.getLast? = Option.some t ∧ p.Nodup

theorem paths_spec {A : Nat → Nat → Nat → Prop} {order : NodeOrder} (hord : order.OK n) {tl : List Nat} {w : Weights} {s t x y m d : Nat}
    (hx : order.rank s = some x) (hy : order.rank t = some y)
    {p : List Nat} (hp : PathOf (InRanks A order.node) p d) {f b : List (Nat × Nat)} (hps : PState n tl w f b x y m p) :
    ∃ q, (PathOf A q d ∧ q.head? = some s ∧ q.getLast? = some t ∧ q.Nodup) ∧
      ∀ (k : Nat) (srv : Server), Clean n srv → PState n tl w srv.fwParents srv.bwParents x y srv.meeting p →
        ∃ srv', paths order w tl s t k srv = some (List.replicate k q, srv') ∧ Clean n srv' := by
  obtain ⟨q, hq⟩ := mapM_exists (f := order.node) (l := p) (fun v hv => by
    obtain ⟨u, _, hu, _⟩ := hord.node_lt (hps.lt v hv)
    exact ⟨u, hu⟩)
  obtain ⟨_, _, _, _, _, _, hh, hl⟩ := hps.run
  refine ⟨q, ⟨pathOf_inRanks hp hq, ?_, ?_, ?_⟩, ?_⟩
  · obtain ⟨y', h1, h2⟩ := mapM_head hq hh
    have := (hord.inv.inv _ _).2 hx
    rw [show order.node x = some s from this] at h1; simp at h1; subst h1; exact h2
  · obtain ⟨y', h1, h2⟩ := mapM_getLast hq hl
    have := (hord.inv.inv _ _).2 hy
    rw [show order.node y = some t from this] at h1; simp at h1; subst h1; exact h2
  · refine mapM_nodup ?_ hq hps.nodup
    intro a b z h1 h2
    have h1' := (hord.inv.inv _ _).1 h1
    have h2' := (hord.inv.inv _ _).1 h2
    rw [h1'] at h2'; simpa using h2'
  · intro k
    induction k with
    | zero => intro srv hcl _; exact ⟨srv, rfl, hcl⟩
    | succ k ih =>
      intro srv hcl hst
      obtain ⟨B1, B2, h1, h2, h3, h4, _, _⟩ := hst.run
      obtain ⟨srv', h5, h6⟩ := ih { srv with bwParents := B2 } ⟨hcl.fd, hcl.bd, hcl.fp, h4.bl⟩ h4
      refine ⟨srv', ?_, h6⟩
      have hpath : path order w tl srv s t = some (q, { srv with bwParents := B2 }) := by
        simp only [path, hx, hy, hcl.bp, h1, h2, h3, hq, Option.bind_eq_bind, Option.bind_some, Option.pure_def]
      simp only [paths, hpath, h5, Option.bind_eq_bind, Option.bind_some, Option.pure_def, List.replicate_succ]

/-- Every query gets a correct reply, which does not depend on the state of the server. -/
theorem serveOn_spec {A : Nat → Nat → Nat → Prop} {order : NodeOrder} (hord : order.OK n) (harc : ∀ u v l, A u v l → u < n ∧ v < n)
    {fwG bwG : FOGraph} {tree : List (Option Nat)} {tl : List Nat} {w : Weights} (hS : Serves n (InRanks A order.node) fwG bwG tree tl w)
    {s t : Nat} (hs : s < n) (ht : t < n) (k : Nat) :
    ∃ r, ReplyOK A s t k r ∧ ∀ srv, Clean n srv → ∃ srv', serveOn order fwG bwG tree w tl srv s t k = some (r, srv') ∧ Clean n srv' := by
  obtain ⟨x, hxn, hx, hx'⟩ := hord.rank_lt hs
  obtain ⟨y, hyn, hy, hy'⟩ := hord.rank_lt ht
  obtain ⟨r, p, h3, hp, hrun⟩ := hS x y hxn hyn
  have hans := answer_inRanks hord harc hx' hy' h3
  cases r with
  | none =>
    refine ⟨(none, []), ⟨hans, fun _ => rfl, by simp⟩, ?_⟩
    intro srv hcl
    obtain ⟨srv', k1, k2, _⟩ := hrun srv hcl
    exact ⟨srv', by simp only [serveOn, distance, hx, hy, k1, Option.bind_eq_bind, Option.bind_some, Option.pure_def], k2⟩
  | some d =>
    obtain ⟨srv0, _, _, p1⟩ := hrun _ (clean_new n 0)
    obtain ⟨q, hq, hrun'⟩ := paths_spec hord hx hy (hp d rfl) (p1 d rfl)
    refine ⟨(some d, List.replicate k q), ⟨hans, by simp, ?_⟩, ?_⟩
    · intro d' hd'
      simp at hd'; subst hd'
      refine ⟨by simp, ?_⟩
      intro p' hp'
      rw [List.eq_of_mem_replicate hp']
      exact hq
    · intro srv hcl
      obtain ⟨srv', k1, k2, k3⟩ := hrun srv hcl
      obtain ⟨srv'', k4, k5⟩ := hrun' k srv' k2 (k3 d rfl)
      exact ⟨srv'', by simp only [serveOn, distance, hx, hy, k1, k4, Option.bind_eq_bind, Option.bind_some, Option.pure_def], k5⟩

theorem serve_spec {A : Nat → Nat → Nat → Prop} {w : Weights} (hr : Ready n c A w) {s t : Nat} (hs : s < n) (ht : t < n) (k : Nat) :
    ∃ r, ReplyOK A s t k r ∧ ∀ srv, Clean n srv → ∃ srv', serve c w srv s t k = some (r, srv') ∧ Clean n srv' := by
  obtain ⟨w0, hc⟩ := hr.cust
  exact serveOn_spec hr.ord hr.arc hc.serves hs ht k

/-- Customizing a built CCH. -/
theorem customize_ready {orig metric : FOGraph} {order : NodeOrder} (ho : orig.WF) (hord : order.OK orig.numNodes) (hg : Good orig.numNodes c)
    (hb : BuiltFrom orig order c) (hm : MetricOf orig metric) : ∃ w, customize c metric = some w ∧ Ready orig.numNodes c metric.Arc w := by
  obtain ⟨w0, h2, h3⟩ := initWeights_spec ho hm hord hg hb
  obtain ⟨w, h4, h5, h6⟩ := custNodes_spec hg.toBase h3.ok (topo_range hg.toBase)
  have ho' := hb.order_eq
  refine ⟨w, by simp only [customize, h2, Option.bind_eq_bind, Option.bind_some, show c.numNodes = orig.numNodes from hg.nn]; exact h4, ?_, ?_, ?_⟩
  · rw [ho']; exact hord
  · intro u v l ha
    have hn : metric.numNodes = orig.numNodes := by simp [FOGraph.numNodes, hm.fo]
    have := FOGraph.WF.arc_lt hm.wf ha
    omega
  · rw [ho']; exact ⟨w0, hg, h5, h3, h6, hb.hO hm ho⟩

end CCH
end Verif
