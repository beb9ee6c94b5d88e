import Verif.Proof.Schedule
import Verif.Proof.FixOrder
import Verif.Props.CCHCustomization
/- Properties of separator trees, parallel customization and the orders made for it (C33, C37, C53). -/
namespace Verif
open Spec CCH

/-- **C33.** Let `t` be the separator tree of a CCH and let it pass the validation. Whatever the threshold `thr` (which depends
on the number of threads), the division into tasks succeeds, the tasks can be run, and every execution, that is every order
`S` of the steps permitted by the nesting of the parallel scopes, with any assignment of steps to threads, returns what the
sequential customization returns. -/
theorem C33_schedule_independent (orig : FOGraph) (ho : orig.WF) (l : List Nat) (hl : l.length = orig.numNodes) (order : NodeOrder)
    (hord : NodeOrder.fromNodeOrder l = some order) (c : Cch) (hc : build orig order = some c)
    (metric : FOGraph) (hm : metric.WF) (hfo : metric.firstOut = orig.firstOut) (hhd : metric.head = orig.head)
    (t : SepTree) (ht : SepTree.new c.elimTree = some t) (hv : validate t = some ()) (thr : Nat) :
    ∃ task w, plan c thr t 0 0 c.head.length = some task ∧ customize c metric = some w ∧ (∃ L, task.Runs L) ∧
      ∀ S : List (Nat × Step), task.Runs (S.map Prod.snd) → customizePar c metric S = some w := by
  have hok : order.OK orig.numNodes := by rw [← hl]; exact NodeOrder.ok_of_fromNodeOrder hord
  rcases build_spec ho hok with h | ⟨c', h1, hg, hb⟩
  · rw [hc] at h; simp at h
  · rw [hc] at h1; simp at h1; subst h1
    obtain ⟨w0, h2, h3⟩ := initWeights_spec ho ⟨hm, hfo, hhd⟩ hok hg hb
    obtain ⟨task, h4, h5, h6⟩ := plan_spec hg hg.treeOK thr ht hv
    obtain ⟨w, h7, h8, h9⟩ := custNodes_spec hg.toBase h3.ok (topo_range hg.toBase)
    refine ⟨task, w, h4, ?_, h5, ?_⟩
    · simp only [customize, h2, Option.bind_eq_bind, Option.bind_some, show c.numNodes = orig.numNodes from hg.nn]; exact h7
    · intro S hS
      obtain ⟨w', h10, h11⟩ := runSteps_spec hg h3.ok (h6 _ hS) (ws := fun _ => freshWS c.numNodes) (fun t => by
        rw [show c.numNodes = orig.numNodes from hg.nn]; simp [freshWS])
      rw [h7] at h11; simp at h11; subst h11
      simp only [customizePar, h2, Option.bind_eq_bind, Option.bind_some]; exact h10

/-- **C37.** For every elimination tree (parents are above their children) a separator tree is built. It contains every node
exactly once, and its count of nodes is right. -/
theorem C37_separator_tree_partitions (n : Nat) (tree : List (Option Nat)) (hlen : tree.length = n)
    (hpar : ∀ x p, tree[x]? = some (some p) → x < p ∧ p < n) :
    ∃ t, SepTree.new tree = some t ∧ t.toList.Perm (List.range n) ∧ t.num = n := by
  have ht : TreeOK n tree := ⟨hlen, fun {x p} h => hpar x p (by
    simp only [par] at h
    cases hx : tree[x]? with
    | none => simp [hx] at h
    | some q => simp [hx] at h; rw [h])⟩
  obtain ⟨cs, h1, _⟩ := SepTree.new_spec ht
  exact ⟨_, h1, SepTree.new_perm ht h1⟩

/-- **C37**, orders: both reorderings of a valid order, by depth first search with sorted cells and by breadth first search,
give a valid order of the same nodes, for every behaviour of the unstable sort. -/
theorem C37_orders_valid (n : Nat) (hn : n < U32 - 1) (tree : List (Option Nat)) (hlen : tree.length = n)
    (hpar : ∀ x p, tree[x]? = some (some p) → x < p ∧ p < n) (l : List Nat) (hl : l.length = n) (order : NodeOrder)
    (hord : NodeOrder.fromNodeOrder l = some order) (srt : List SepTree → List SepTree) (hs : SortsBySize srt)
    (t : SepTree) (h : SepTree.new tree = some t) :
    (∃ o l', reorderForCustomization srt order t = some o ∧ NodeOrder.fromNodeOrder l' = some o ∧ l'.length = n) ∧
    (∃ o l', reorderBfs order t = some o ∧ NodeOrder.fromNodeOrder l' = some o ∧ l'.length = n) := by
  have ht : TreeOK n tree := ⟨hlen, fun {x p} h => hpar x p (by
    simp only [par] at h
    cases hx : tree[x]? with
    | none => simp [hx] at h
    | some q => simp [hx] at h; rw [h])⟩
  have hok : order.OK n := by rw [← hl]; exact NodeOrder.ok_of_fromNodeOrder hord
  obtain ⟨o, h1, ⟨_, l1, h2, h3⟩, _⟩ := reorderForCustomization_spec ht h hok hn hs
  obtain ⟨o', h4, l2, h5, h6⟩ := reorderBfs_spec ht h hok hn
  exact ⟨⟨o, l1, h1, h3, h2⟩, o', l2, h4, h6, h5⟩

/-- **C53.** `fix_order_and_build` builds a CCH for some order of the nodes. It succeeds exactly if `build` with the given
order does. The resulting graph connects the same pairs of nodes, so no shortcuts are added, and (unless the graph is empty) its
separator tree passes the validation for parallel customization. -/
theorem C53_fixed_order (orig : FOGraph) (ho : orig.WF) (l : List Nat) (hl : l.length = orig.numNodes) (order : NodeOrder)
    (hord : NodeOrder.fromNodeOrder l = some order) (srt : List SepTree → List SepTree) (hs : SortsBySize srt) :
    ((∃ c', fixOrderAndBuild srt orig order = some c') ↔ ∃ c, build orig order = some c) ∧
    ∀ c c', build orig order = some c → fixOrderAndBuild srt orig order = some c' →
      (∃ l' order', l'.length = orig.numNodes ∧ NodeOrder.fromNodeOrder l' = some order' ∧ build orig order' = some c') ∧
      (∀ u v x y x' y', order.rank u = some x → order.rank v = some y → c'.order.rank u = some x' → c'.order.rank v = some y' →
        ((∃ up, heads c.topo x = some up ∧ y ∈ up) ↔ ∃ up, heads c'.topo x' = some up ∧ y' ∈ up)) ∧
      (0 < orig.numNodes → ∃ t, SepTree.new c'.elimTree = some t ∧ validate t = some ()) := by
  have hok : order.OK orig.numNodes := by rw [← hl]; exact NodeOrder.ok_of_fromNodeOrder hord
  obtain ⟨order', nodes, R, hF⟩ := fixed_spec ho hok hs
  rw [hF.eq]
  constructor
  · constructor
    · rintro ⟨c', hc'⟩
      rcases build_spec ho hF.ok with h | ⟨c1, h1, hg, hb⟩
      · rw [hc'] at h; simp at h
      · rcases build_spec ho hok with h | ⟨c2, h2, _⟩
        · exact absurd ((hF.tooLarge hok).2 h.2) (hb.not_tooLarge hg)
        · exact ⟨c2, h2⟩
    · rintro ⟨c, hc⟩
      rcases build_spec ho hok with h | ⟨c1, h1, hg, hb⟩
      · rw [hc] at h; simp at h
      · rcases build_spec ho hF.ok with h | ⟨c2, h2, _⟩
        · exact absurd ((hF.tooLarge hok).1 h.2) (hb.not_tooLarge hg)
        · exact ⟨c2, h2⟩
  · intro c c' hc hc'
    obtain ⟨l', hl', hord'⟩ := hF.list
    refine ⟨⟨l', order', hl', hord', hc'⟩, ?_, ?_⟩
    · rcases build_spec ho hF.ok with h | ⟨c1, h1, hg, hb⟩
      · rw [hc'] at h; simp at h
      · rw [hc'] at h1; simp at h1; subst h1
        intro u v x y x' y' hx hy hx' hy'
        rw [hb.order_eq] at hx' hy'
        have hR : ∀ u x x', order.rank u = some x → order'.rank u = some x' → R[x']? = some x := by
          intro u x x' h1 h2
          have h3 := (hok.inv.inv _ _).2 h1
          have h4 := (hF.ok.inv.inv _ _).2 h2
          have h5 := hF.node x'
          rw [show order'.node x' = some u from h4] at h5
          cases hr : R[x']? with
          | none => simp [hr] at h5
          | some z =>
            simp [hr] at h5
            have h6 := (hok.inv.inv _ _).1 h5.symm
            rw [show order.ranks[u]? = some x from h1] at h6; simpa using h6.symm
        have hedges := hF.edges hok (hR _ _ _ hx hx') (hR _ _ _ hy hy')
        have up : ∀ (o : NodeOrder) (lo : List Nat) (co : Cch), lo.length = orig.numNodes → NodeOrder.fromNodeOrder lo = some o →
            build orig o = some co → ∀ a b, (∃ up, heads co.topo a = some up ∧ b ∈ up) ↔ a < b ∧ LowPath (RankAdj orig.Arc o.node) a a b := by
          intro o lo co h1 h2 h3 a b
          have hoo : o.OK orig.numNodes := by rw [← h1]; exact NodeOrder.ok_of_fromNodeOrder h2
          rcases build_spec ho hoo with h | ⟨c2, h4, hg2, hb2⟩
          · rw [h3] at h; simp at h
          · rw [h3] at h4; simp at h4; subst h4
            constructor
            · rintro ⟨up, h5, h6⟩
              have ha : a < orig.numNodes := by
                rw [← hg2.nn]
                obtain ⟨w, ls, h, _⟩ := (heads_mem hg2.wf h5 b).1 h6
                exact hg2.wf.tail_lt h
              obtain ⟨ls, h7, _, h8⟩ := hg2.heads ha
              rw [h5] at h7; simp at h7; subst h7
              obtain ⟨e, he⟩ := (h8 b).1 h6
              have hab := (hg2.up he).1
              exact ⟨hab, (C28_no_superfluous_edges orig ho lo h1 o h2 co h3 a b hab).1 ⟨up, h5, h6⟩⟩
            · rintro ⟨h5, h6⟩
              exact (C28_no_superfluous_edges orig ho lo h1 o h2 co h3 a b h5).2 h6
        rw [up order l c hl hord hc, up order' l' c' hl' hord' hc']
        exact hedges.symm
    · intro hn
      rcases build_spec ho hF.ok with h | ⟨c1, h1, hg, hb⟩
      · rw [hc'] at h; simp at h
      · rw [hc'] at h1; simp at h1; subst h1
        obtain ⟨cs, h2, _⟩ := SepTree.new_spec hg.treeOK
        exact ⟨_, h2, (hF.parallel hok hg hb).validates hg.treeOK hn h2⟩

/-! The hypotheses are met: a graph with the edges 0 - 1 - 4 - 3 - 2 and 4 - 5 and two cells {0, 1} and {2, 3}. -/
namespace SepExample

def orig : FOGraph := ⟨[0, 1, 3, 4, 6, 9, 10], [1, 0, 4, 3, 2, 4, 1, 3, 5, 4], [3, 2, 2, 1, 7, 3, 1, 5, 1, 6]⟩
def metric : FOGraph := ⟨orig.firstOut, orig.head, [5, 1, 2, 9, 4, 3, 8, 6, 1, 8]⟩
def order : NodeOrder := ⟨[0, 1, 2, 3, 4, 5], [0, 1, 2, 3, 4, 5]⟩

theorem orig_wf : orig.WF := by
  refine ⟨by decide, by decide, by decide, by decide, ?_, by decide⟩
  intro i a b h1 h2
  have hi : i < 6 := by
    have := (List.getElem?_eq_some_iff.1 h2).1
    simp [orig] at this; omega
  match i, hi with
  | 0, _ | 1, _ | 2, _ | 3, _ | 4, _ | 5, _ => simp [orig] at h1 h2; omega

theorem metric_wf : metric.WF := by
  refine ⟨by decide, by decide, by decide, by decide, ?_, by decide⟩
  intro i a b h1 h2
  exact orig_wf.mono i a b h1 h2

theorem order_ok : NodeOrder.fromNodeOrder [0, 1, 2, 3, 4, 5] = some order := by decide +kernel

theorem validated : ((build orig order).bind (fun c => SepTree.new c.elimTree)).bind validate = some () := by decide +kernel

/-- the tasks: the two cells, then the nodes 4 and 5 -/
def task : CCH.Task := .mk [.mk [.mk [] 0 2 0 2, .mk [] 2 4 2 4] 4 6 0 5] 6 6 0 5

/-- equality test, to let the kernel compare tasks -/
def same : CCH.Task → CCH.Task → Bool
  | .mk s a b lo hi, .mk s' a' b' lo' hi' => all s s' && (a, b, lo, hi) == (a', b', lo', hi')
where all : List CCH.Task → List CCH.Task → Bool
  | [], [] => true
  | t :: ts, u :: us => same t u && all ts us
  | _, _ => false

mutual
theorem same_eq : ∀ t u : CCH.Task, same t u = true → t = u
  | .mk s a b lo hi, .mk s' a' b' lo' hi', h => by
    simp only [same, Bool.and_eq_true, beq_iff_eq, Prod.mk.injEq] at h
    obtain ⟨h1, rfl, rfl, rfl, rfl⟩ := h
    rw [same_all_eq s s' h1]
theorem same_all_eq : ∀ ts us : List CCH.Task, same.all ts us = true → ts = us
  | [], [], _ => rfl
  | t :: ts, u :: us, h => by
    simp only [same.all, Bool.and_eq_true] at h
    rw [same_eq t u h.1, same_all_eq ts us h.2]
  | [], _ :: _, h => by simp [same.all] at h
  | _ :: _, [], h => by simp [same.all] at h
end

theorem planned : (build orig order).bind (fun c => (SepTree.new c.elimTree).bind fun t => plan c 0 t 0 0 c.head.length) = some task := by
  have h : (((build orig order).bind (fun c => (SepTree.new c.elimTree).bind fun t => plan c 0 t 0 0 c.head.length)).map (same task)) = some true := by
    decide +kernel
  rw [Option.map_eq_some_iff] at h
  obtain ⟨t, h1, h2⟩ := h
  rw [h1, same_eq _ _ h2]

/-- Two threads take turns. -/
def schedule : List (Nat × Step) := [(1, ⟨2, 2, 4⟩), (0, ⟨0, 0, 2⟩), (0, ⟨1, 0, 2⟩), (1, ⟨3, 2, 4⟩), (1, ⟨4, 0, 5⟩), (1, ⟨5, 0, 5⟩)]

theorem runs : task.Runs (schedule.map Prod.snd) :=
  .mk (L := schedule.map Prod.snd)
    (.cons (.mk (L := [⟨2, 2, 4⟩, ⟨0, 0, 2⟩, ⟨1, 0, 2⟩, ⟨3, 2, 4⟩])
      (.cons (.mk .nil) (.cons (.mk .nil) .nil (.left (.left .nil))) (.right (.left (.left (.right .nil))))))
      .nil (.left (.left (.left (.left (.left (.left .nil)))))))

/-- The hypotheses of `C33_schedule_independent` hold for this graph, and the schedule above is among those it covers. -/
theorem covered : ∃ c t, build orig order = some c ∧ SepTree.new c.elimTree = some t ∧ validate t = some () ∧
    customizePar c metric schedule = customize c metric ∧ customize c metric ≠ none := by
  have h := validated
  have hp := planned
  simp only [Option.bind_eq_some_iff] at h
  obtain ⟨t, ⟨c, h1, h2⟩, h3⟩ := h
  simp only [h1, h2, Option.bind_some] at hp
  obtain ⟨task', w, h4, h5, _, h6⟩ := C33_schedule_independent orig orig_wf _ rfl order order_ok c h1 metric metric_wf rfl rfl t h2 h3 0
  rw [hp] at h4; simp at h4; subst h4
  exact ⟨c, t, h1, h2, h3, by rw [h6 _ runs, h5], by simp [h5]⟩

/-- A bad order of the same graph is rejected by the validation … -/
def order2 : NodeOrder := ⟨[4, 0, 5, 1, 2, 3], [1, 3, 4, 5, 0, 2]⟩
theorem order2_ok : NodeOrder.fromNodeOrder [4, 0, 5, 1, 2, 3] = some order2 := by decide +kernel
theorem rejected : ((build orig order2).bind (fun c => SepTree.new c.elimTree)).bind validate = none := by decide +kernel

/-- … and fixed. -/
theorem fixed : ((fixOrderAndBuild (isort SepTree.num) orig order2).map (fun c => (c.order.nodeOrder, c.elimTree)) =
    some ([4, 5, 0, 1, 2, 3], [some 1, some 3, some 3, some 5, some 5, none])) ∧
    ((fixOrderAndBuild (isort SepTree.num) orig order2).bind (fun c => SepTree.new c.elimTree)).bind validate = some () := by
  decide +kernel

/-- The graph without nodes is the exception: `num_nodes as u32 - 1` underflows (`separator_decomposition.rs:97`). -/
theorem empty_rejected : (SepTree.new []).bind validate = none := by decide +kernel

example : SortsBySize (isort SepTree.num) := fun l => isort_ok SepTree.num l

end SepExample
end Verif
