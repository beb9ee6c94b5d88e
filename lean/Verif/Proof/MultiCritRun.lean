import Verif.Proof.MultiCritMerge
import Verif.Proof.ForbiddenStep
import Verif.Proof.CCHPotential
import Verif.Proof.DijkstraStatic
/- The search with several labels per node on the actual data: one step refines a round on sets of labels. -/
set_option linter.unusedSimpArgs false
set_option linter.unusedVariables false
namespace Verif.Traffic
namespace MC
open Active Spec CCH

/-- the search on `g` with the forbidden paths of `b` -/
def env (g : FOGraph) (b : Blocked) (s : Nat) (pot : Nat → Option Nat) : Env := ⟨s, g.Arc, stepF g b, Shape b, pot⟩

structure Ctx {σ : Type} (g : FOGraph) (b : Blocked) (loc : Nat → Nat → Nat) (P : Potential σ) (R : σ → Prop) (s : Nat) (pot : Nat → Option Nat) : Prop where
  hg : g.WF
  hb : BOK g b loc
  pos : ∀ u v w, g.Arc u v w → 0 < w
  cons : ∀ u v w pv, g.Arc u v w → pot v = some pv → ∃ pu, pot u = some pu ∧ pu ≤ w + pv
  lt : ∀ v p, pot v = some p → p < INFINITY
  src : Shape b s (Active.new 0)
  get : ∀ c v, R c → v < g.numNodes → ∃ c', P.get c v = some (c', pot v) ∧ R c'

variable {σ : Type} {g : FOGraph} {b : Blocked} {loc : Nat → Nat → Nat} {P : Potential σ} {R : σ → Prop} {s : Nat} {pot : Nat → Option Nat}

theorem Ctx.ok (hC : Ctx g b loc P R s pot) : (env g b s pot).OK where
  pos := hC.pos
  mono := by
    intro u v w a a' x hA h1 h2 h3 h4
    obtain ⟨e, he⟩ := (edgeAt_arc hC.hg).1 hA
    exact stepF_mono hC.hg hC.hb ⟨w, he⟩ h1 h2 h3 h4
  shape := by
    intro u v w a x hA h1 h2
    obtain ⟨e, he⟩ := (edgeAt_arc hC.hg).1 hA
    obtain ⟨_, _, _, _, _, _, h3⟩ := stepF_spec hC.hg hC.hb ⟨w, he⟩ h1
    exact (h3 x h2).1
  cons := hC.cons
  src := hC.src

theorem Shape.good {v : Nat} {a : Active} (h : Shape b v a) : Active.Good a := by
  obtain ⟨c, _, h⟩ := h
  unfold Active.Good
  rw [h.cap]
  exact (new_cap c).2

/-- the entry of a node in the queue -/
structure QOK (p : Option Nat) (W : Lab → Prop) (o : Option QState) (v : Nat) : Prop where
  ent : ∀ st, o = some st → st.node = v ∧ ∃ q l, p = some q ∧ W l ∧ (∀ l', W l' → l.dist ≤ l'.dist) ∧ st.key = q + l.dist
  emp : o = none → ∀ l q, W l → p ≠ some q

structure CRep (n : Nat) (pot : Nat → Option Nat) (d : MData) (S : St) (f : Nat → Heap Lab) : Prop where
  dist : TRep n Heap.new d.dist f
  heap : ∀ v, v < n → HRep (f v) (S.W v) (S.T v)
  pred : d.pred.length = n
  queue : ∃ m, IHeap.Rep n d.queue m ∧ ∀ v, v < n → QOK (pot v) (S.W v) (m v) v
  node : ∀ v l, S.cur v l → v < n
  fin : ∀ v l, S.cur v l → l.dist < INFINITY

/-- the labels popped so far -/
structure HistOK (S : St) (H : List (Nat × Nat × Active)) : Prop where
  cov : ∀ v d a, (v, d, a) ∈ H → S.cov v d a
  out : ∀ v d a, (v, d, a) ∈ H → ∀ l, S.W v l → ¬ (l.dist = d ∧ l.act = a)

theorem lt_mk {k k' v : Nat} {st : QState} (h : st.node = v) (hk : st.key = k') : HeapElem.lt (⟨k, v⟩ : QState) st = true ↔ k < k' := by
  cases st
  simp only at h hk
  subst h hk
  simp [HeapElem.lt]

theorem enqueue_spec {n : Nat} {q : IHeap QState} {m : Nat → Option QState} (hr : IHeap.Rep n q m) {v p : Nat} (hv : v < n) {W W' : Lab → Prop} {R : Lab}
    (hq : QOK (some p) W (m v) v) (hW : ∀ l, W' l ↔ (W l ∧ ¬ dom R l) ∨ l = R) :
    ∃ q' m', MData.enqueue q (p + R.dist) v = some q' ∧ IHeap.Rep n q' m' ∧ (∀ u, u ≠ v → m' u = m u) ∧ QOK (some p) W' (m' v) v := by
  have hget := IHeap.rep_get hr hv
  cases hm : m v with
  | none =>
    obtain ⟨q', h1, h2⟩ := IHeap.rep_push hr (x := (⟨p + R.dist, v⟩ : QState)) hv hm
    refine ⟨q', _, ?_, h2, fun u hu => fupd_of_ne _ _ hu, ?_, ?_⟩
    · simp only [MData.enqueue, hget, hm, Option.bind_eq_bind, Option.bind_some, h1]
    · intro st hst
      have : (⟨p + R.dist, v⟩ : QState) = st := by simpa [fupd, HeapElem.idx] using hst
      subst this
      refine ⟨rfl, p, R, rfl, (hW R).2 (.inr rfl), ?_, rfl⟩
      intro l' hl'
      rcases (hW l').1 hl' with ⟨h3, _⟩ | rfl
      · exact absurd rfl (hq.emp hm l' p h3)
      · exact Nat.le_refl _
    · intro h; simp [fupd, HeapElem.idx] at h
  | some st =>
    obtain ⟨k1, q0, l, k2, k3, k4, k5⟩ := hq.ent st hm
    injection k2 with k2
    subst k2
    by_cases hlt : p + R.dist < p + l.dist
    · obtain ⟨q', h1, h2⟩ := IHeap.rep_decreaseKey hr (x := (⟨p + R.dist, v⟩ : QState)) (y := st) hm (by
        unfold IHeap.le
        exact IHeap.le_of_lt ((lt_mk k1 k5).2 hlt))
      refine ⟨q', _, ?_, h2, fun u hu => fupd_of_ne _ _ hu, ?_, ?_⟩
      · simp only [MData.enqueue, hget, hm, Option.bind_eq_bind, Option.bind_some, h1, (lt_mk k1 k5).2 hlt, if_true]
      · intro st' hst
        have : (⟨p + R.dist, v⟩ : QState) = st' := by simpa [fupd, HeapElem.idx] using hst
        subst this
        refine ⟨rfl, p, R, rfl, (hW R).2 (.inr rfl), ?_, rfl⟩
        intro l' hl'
        rcases (hW l').1 hl' with ⟨h3, _⟩ | rfl
        · have := k4 l' h3; omega
        · exact Nat.le_refl _
      · intro h; simp [fupd, HeapElem.idx] at h
    · refine ⟨q, m, ?_, hr, fun _ _ => rfl, ?_, ?_⟩
      · have : ¬ HeapElem.lt (⟨p + R.dist, v⟩ : QState) st = true := fun h => hlt ((lt_mk k1 k5).1 h)
        simp only [MData.enqueue, hget, hm, Option.bind_eq_bind, Option.bind_some, if_neg this]
      · intro st' hst
        rw [hm] at hst
        injection hst with hst
        subst hst
        refine ⟨k1, p, ?_⟩
        by_cases hd : dom R l
        · refine ⟨R, rfl, (hW R).2 (.inr rfl), ?_, by have := hd.1; omega⟩
          intro l' hl'
          rcases (hW l').1 hl' with ⟨h3, _⟩ | rfl
          · have := k4 l' h3; have := hd.1; omega
          · exact Nat.le_refl _
        · refine ⟨l, rfl, (hW l).2 (.inl ⟨k3, hd⟩), ?_, k5⟩
          intro l' hl'
          rcases (hW l').1 hl' with ⟨h3, _⟩ | rfl
          · exact k4 l' h3
          · omega
      · intro h; rw [hm] at h; simp at h

theorem add_W_ne {S : St} {h v x : Nat} {R : Lab} (hv : v ≠ h) : (S.add h R x).W v = S.W v := by
  funext l
  simp [St.add, hv]

theorem add_T_ne {S : St} {h v x : Nat} {R : Lab} (hv : v ≠ h) : (S.add h R x).T v = S.T v := by
  funext l
  simp [St.add, hv]

theorem HistOK.add {S : St} {H : List (Nat × Nat × Active)} (hh : HistOK S H) {h x : Nat} {R : Lab} (hb : ∀ o, S.cur h o → ¬ dom o R) :
    HistOK (S.add h R x) H := by
  refine ⟨fun v d a hm => add_cov _ _ _ _ (hh.cov v d a hm), fun v d a hm l hl => ?_⟩
  rcases hl with ⟨hl, _⟩ | ⟨rfl, rfl⟩
  · exact hh.out v d a hm l hl
  · rintro ⟨rfl, rfl⟩
    obtain ⟨X, h1, h2, h3⟩ := hh.cov _ _ _ hm
    exact hb X h1 ⟨h2, h3⟩

theorem relax_spec (hC : Ctx g b loc P R s pot) {S : St} {u : Nat} {e : Lab} {arcs : List (Nat × Nat)} (hr : Round (env g b s pot) S u e arcs) {d : MData}
    {f : Nat → Heap Lab} (hd : CRep g.numNodes pot d S f) (htop : (f u).popped[0]? = some e) {c : σ} (hc : R c) {l : Link} {eid : Nat}
    (hl : EdgeAt g.firstOut g.head g.weight eid u l.node l.weight) (hlt : e.dist + l.weight < INFINITY) {pu : Nat} (hpu : pot u = some pu) :
    ∃ d' c' S' f' arcs', MData.relax P g b u (pu + e.dist) (d, c) (l, eid) = some (d', c') ∧ R c' ∧ CRep g.numNodes pot d' S' f' ∧ f' u = f u ∧
      Round (env g b s pot) S' u e arcs' ∧ (∀ x ∈ arcs, x ∈ arcs') ∧ (l.node ≠ u → (l.node, l.weight) ∈ arcs') ∧ (∀ v l, S'.T v l → S.T v l) ∧
      ∀ H, HistOK S H → HistOK S' H := by
  by_cases hne : l.node = u
  · refine ⟨d, c, S, f, arcs, ?_, hc, hd, rfl, hr, fun _ h => h, fun h => absurd hne h, fun _ _ h => h, fun _ h => h⟩
    simp only [MData.relax, hne, if_true, Option.pure_def]
  have hA : g.Arc u l.node l.weight := (edgeAt_arc hC.hg).2 ⟨eid, hl⟩
  have hu : u < g.numNodes := hd.node u e (.inr hr.top)
  have hh : l.node < g.numNodes := (CCH.FOGraph.WF.arc_lt hC.hg hA).2
  have hINF : INFINITY + INFINITY < U32 := by decide
  obtain ⟨c1, hc1, hRc1⟩ := hC.get c u hc hu
  have hdg := hd.dist.get hu
  have hdh := hd.dist.get hh
  obtain ⟨fs, cc, k1, k2, k3, k4, k5⟩ := stepF_spec hC.hg hC.hb ⟨_, hl⟩ (hr.shp u e (.inr hr.top))
  have hlk : g.link eid = some l := by
    obtain ⟨_, _, _, _, _, _, h5, h6⟩ := hl
    simp only [FOGraph.link, h5, h6, Option.bind_eq_bind, Option.bind_some, Option.pure_def]
  have hkey : UBS.minus (pu + e.dist) pu = some e.dist := by simp [UBS.minus]
  cases hst : stepF g b u l.node e.act with
  | none =>
    have hlink : b.link g u e l.node eid = some none := by
      simp only [Blocked.link, k1, k2, k3, hst, Option.bind_eq_bind, Option.bind_some, Option.pure_def]
    obtain ⟨dist', h1, h2⟩ := hd.dist.modify hh (f l.node)
    have hf : fupd f l.node (f l.node) = f := by
      funext x
      by_cases hx : x = l.node
      · subst hx; simp [fupd]
      · rw [fupd_of_ne _ _ hx]
    rw [hf] at h2
    refine ⟨⟨dist', d.pred, d.queue⟩, c1, S, f, (l.node, l.weight) :: arcs, ?_, hRc1, { hd with
      dist := h2 }, rfl, skip_round hr ?_, fun x hx => by simp [hx], fun _ => by simp, fun _ _ h => h, fun _ h => h⟩
    · simp only [MData.relax, if_neg hne, hc1, hpu, hkey, hdg, htop, hlink, hdh, Blocked.merge, h1, Option.bind_eq_bind, Option.bind_some, Option.pure_def]
    · intro a ha
      exact absurd (hst.symm.trans ha) (by simp)
  | some a =>
    have hadd : add32 e.dist l.weight = some (e.dist + l.weight) := add32_of_lt (by omega)
    obtain ⟨X, hX⟩ : ∃ X : Lab, X = ⟨e.dist + l.weight, a, u, e.act⟩ := ⟨_, rfl⟩
    have hlink : b.link g u e l.node eid = some (some X) := by
      simp only [Blocked.link, k1, k2, k3, hst, hlk, hadd, Option.bind_eq_bind, Option.bind_some, Option.pure_def, hX]
    have hXd : X.dist = e.dist + l.weight := by rw [hX]
    have hXa : X.act = a := by rw [hX]
    rcases merge_spec (hd.heap _ hh) (x := X) (by rw [hXa]; exact Shape.good (k5 a hst).1) (fun o ho => Shape.good (hr.shp _ o ho)) (fun x y hx hy hxy => hr.inc _ x y hx hy hxy) with
      ⟨⟨o, ho1, ho2⟩, hp', m1, m2⟩ | ⟨hno, hp', m1, m2⟩
    · obtain ⟨dist', h1, h2⟩ := hd.dist.modify hh hp'
      refine ⟨⟨dist', d.pred, d.queue⟩, c1, S, fupd f l.node hp', (l.node, l.weight) :: arcs, ?_, hRc1, { hd with
        dist := h2
        heap := ?_ }, fupd_of_ne _ _ (fun h => hne h.symm), skip_round hr ?_, fun x hx => by simp [hx], fun _ => by simp, fun _ _ h => h, fun _ h => h⟩
      · simp only [MData.relax, if_neg hne, hc1, hpu, hkey, hdg, htop, hlink, hdh, m1, h1, Option.bind_eq_bind, Option.bind_some, Option.pure_def]
      · intro v hv
        by_cases hx : v = l.node
        · subst hx; simpa [fupd] using m2
        · rw [fupd_of_ne _ _ hx]; exact hd.heap v hv
      · intro a' ha'
        have : a' = a := by
          have := hst.symm.trans ha'
          injection this with this
          exact this.symm
        subst this
        exact ⟨o, ho1, by have := ho2.1; omega, by rw [← hXa]; exact ho2.2⟩
    · obtain ⟨dist', h1, h2⟩ := hd.dist.modify hh hp'
      have hnew : New (env g b s pot) S u e l.node l.weight X := ⟨hA, hne, by rw [hXa]; exact hst, hXd, by rw [hX], by rw [hX], fun o ho => hno o ho⟩
      have hround := add_round hC.ok hr hnew
      have hpl : l.node < d.pred.length := by rw [hd.pred]; exact hh
      have hheap : ∀ v, v < g.numNodes → HRep (fupd f l.node hp' v) ((S.add l.node X e.dist).W v) ((S.add l.node X e.dist).T v) := by
        intro v hv
        by_cases hx : v = l.node
        · subst hx
          simp only [fupd, if_true]
          refine ⟨m2.inv, m2.nodup, fun x => (m2.wait x).trans ?_, fun x => (m2.pop x).trans ?_⟩
          · simp [St.add]
          · simp [St.add]
        · rw [fupd_of_ne _ _ hx, add_W_ne hx, add_T_ne hx]; exact hd.heap v hv
      have hcur : ∀ v x, (S.add l.node X e.dist).cur v x → S.cur v x ∨ (v = l.node ∧ x = X) := by
        intro v x hx
        rcases (add_cur _ _ _).1 hx with h | h
        · exact .inl h.1
        · exact .inr h
      have hnode : ∀ v x, (S.add l.node X e.dist).cur v x → v < g.numNodes := by
        intro v x hx
        rcases hcur v x hx with h | ⟨rfl, _⟩
        · exact hd.node v x h
        · exact hh
      have hfin : ∀ v x, (S.add l.node X e.dist).cur v x → x.dist < INFINITY := by
        intro v x hx
        rcases hcur v x hx with h | ⟨_, rfl⟩
        · exact hd.fin v x h
        · omega
      have hT : ∀ v x, (S.add l.node X e.dist).T v x → S.T v x := fun v x h => h.1
      obtain ⟨c2, hc2, hRc2⟩ := hC.get c1 l.node hRc1 hh
      obtain ⟨m, hm1, hm2⟩ := hd.queue
      cases hp : pot l.node with
      | none =>
        refine ⟨⟨dist', d.pred.set l.node u, d.queue⟩, c2, S.add l.node X e.dist, fupd f l.node hp', (l.node, l.weight) :: arcs, ?_, hRc2,
          ⟨h2, hheap, by simpa using hd.pred, ⟨m, hm1, ?_⟩, hnode, hfin⟩, fupd_of_ne _ _ (fun h => hne h.symm), hround, fun x hx => by simp [hx], fun _ => by simp, hT,
          fun H hH => hH.add hno⟩
        · rw [hp] at hc2
          simp only [MData.relax, if_neg hne, hc1, hpu, hkey, hdg, htop, hlink, hdh, m1, h1, upd_of_lt _ hpl, hc2, Option.bind_eq_bind, Option.bind_some, Option.pure_def]
        · intro v hv
          by_cases hx : v = l.node
          · subst hx
            refine ⟨fun st hst' => ?_, fun _ l' q' _ => by rw [hp]; simp⟩
            obtain ⟨_, q, _, k, _⟩ := (hm2 _ hv).ent st hst'
            rw [hp] at k; simp at k
          · rw [add_W_ne hx]; exact hm2 v hv
      | some p =>
        have hpl2 := hC.lt _ _ hp
        have hqok := hm2 _ hh
        rw [hp] at hqok
        obtain ⟨q', m', e1, e2, e3, e4⟩ := enqueue_spec hm1 hh (R := X) hqok (W' := (S.add l.node X e.dist).W l.node) (fun x => by simp [St.add])
        have hadd2 : add32 p X.dist = some (p + X.dist) := add32_of_lt (by omega)
        refine ⟨⟨dist', d.pred.set l.node u, q'⟩, c2, S.add l.node X e.dist, fupd f l.node hp', (l.node, l.weight) :: arcs, ?_, hRc2,
          ⟨h2, hheap, by simpa using hd.pred, ⟨m', e2, ?_⟩, hnode, hfin⟩, fupd_of_ne _ _ (fun h => hne h.symm), hround, fun x hx => by simp [hx], fun _ => by simp, hT,
          fun H hH => hH.add hno⟩
        · rw [hp] at hc2
          simp only [MData.relax, if_neg hne, hc1, hpu, hkey, hdg, htop, hlink, hdh, m1, h1, upd_of_lt _ hpl, hc2, hadd2, e1, Option.bind_eq_bind, Option.bind_some, Option.pure_def]
        · intro v hv
          by_cases hx : v = l.node
          · subst hx; rw [hp]; exact e4
          · rw [add_W_ne hx, e3 v hx]; exact hm2 v hv

theorem relaxAll_spec (hC : Ctx g b loc P R s pot) {u : Nat} {e : Lab} {pu : Nat} (hpu : pot u = some pu) (ls : List (Link × Nat))
    (hls : ∀ l ∈ ls, EdgeAt g.firstOut g.head g.weight l.2 u l.1.node l.1.weight ∧ e.dist + l.1.weight < INFINITY) {S : St} {arcs : List (Nat × Nat)}
    (hr : Round (env g b s pot) S u e arcs) {d : MData} {f : Nat → Heap Lab} (hd : CRep g.numNodes pot d S f) (htop : (f u).popped[0]? = some e) {c : σ} (hc : R c) :
    ∃ d' c' S' f' arcs', ls.foldlM (MData.relax P g b u (pu + e.dist)) (d, c) = some (d', c') ∧ R c' ∧ CRep g.numNodes pot d' S' f' ∧
      Round (env g b s pot) S' u e arcs' ∧ (∀ x ∈ arcs, x ∈ arcs') ∧ (∀ l ∈ ls, l.1.node ≠ u → (l.1.node, l.1.weight) ∈ arcs') ∧ (∀ v l, S'.T v l → S.T v l) ∧
      ∀ H, HistOK S H → HistOK S' H := by
  induction ls generalizing S arcs d f c with
  | nil => exact ⟨d, c, S, f, arcs, rfl, hc, hd, hr, fun _ h => h, by simp, fun _ _ h => h, fun _ h => h⟩
  | cons l ls ih =>
    obtain ⟨h1, h2⟩ := hls l (by simp)
    obtain ⟨d1, c1, S1, f1, arcs1, e1, e2, e3, e4, e5, e6, e7, e8, e9⟩ := relax_spec hC hr hd htop hc h1 h2 hpu
    obtain ⟨d2, c2, S2, f2, arcs2, k1, k2, k3, k5, k6, k7, k8, k9⟩ := ih (fun l hl => hls l (by simp [hl])) e5 e3 (by rw [e4]; exact htop) e2
    refine ⟨d2, c2, S2, f2, arcs2, ?_, k2, k3, k5, fun x hx => k6 x (e6 x hx), ?_, fun v l h => e8 v l (k8 v l h), fun H hH => k9 H (e9 H hH)⟩
    · simp only [List.foldlM_cons, e1, Option.bind_eq_bind, Option.bind_some]; exact k1
    · intro l' hl' hne
      rcases List.mem_cons.1 hl' with rfl | hl'
      · exact k6 _ (e7 hne)
      · exact k7 l' hl' hne

theorem requeue_spec {n : Nat} {q : IHeap QState} {m : Nat → Option QState} (hq : IHeap.Rep n q m) (hg : ∀ c v, R c → v < n → ∃ c', P.get c v = some (c', pot v) ∧ R c')
    (hplt : ∀ v p, pot v = some p → p < INFINITY) {c : σ} (hc : R c) {u pu : Nat} (hu : u < n) (hm : m u = none) (hpu : pot u = some pu) {h : Heap Lab} {W T : Lab → Prop} (hh : HRep h W T)
    (hfin : ∀ l, W l → l.dist < INFINITY) :
    ∃ q' c' m', MData.requeue P q c u h = some (q', c') ∧ R c' ∧ IHeap.Rep n q' m' ∧ (∀ v, v ≠ u → m' v = m v) ∧ QOK (pot u) W (m' u) u := by
  have hINF : INFINITY + INFINITY < U32 := by decide
  obtain ⟨p1, p2, _⟩ := Heap.Rep.peek le_preorder ⟨hh.inv, List.Perm.refl _, List.Perm.refl _⟩
  by_cases hw : h.data.take h.split = []
  · have hp := p1 hw
    refine ⟨q, c, m, by simp only [MData.requeue, hp], hc, hq, fun _ _ => rfl, ?_, ?_⟩
    · intro st hst; rw [hm] at hst; simp at hst
    · intro _ l _ hl
      have := (hh.wait l).2 hl
      rw [hw] at this; simp at this
  · obtain ⟨x, hx1, hx2, hx3⟩ := p2 hw
    obtain ⟨c', h1, h2⟩ := hg c u hc hu
    have hxw := (hh.wait x).1 hx2
    have := hfin x hxw
    have := hplt _ _ hpu
    have hadd : add32 pu x.dist = some (pu + x.dist) := add32_of_lt (by omega)
    obtain ⟨q', h3, h4⟩ := IHeap.rep_push hq (x := (⟨pu + x.dist, u⟩ : QState)) hu hm
    refine ⟨q', c', _, ?_, h2, h4, fun v hv => fupd_of_ne _ _ hv, ?_, ?_⟩
    · rw [hpu] at h1
      simp only [MData.requeue, hx1, h1, hadd, h3, Option.bind_eq_bind, Option.bind_some, Option.pure_def]
    · intro st hst
      have : (⟨pu + x.dist, u⟩ : QState) = st := by simpa [fupd, HeapElem.idx] using hst
      subst this
      refine ⟨rfl, pu, x, hpu, hxw, fun l' hl' => ?_, rfl⟩
      have := hx3 l' ((hh.wait l').2 hl')
      simpa [Lab.le] using this
    · intro h; simp [fupd, HeapElem.idx] at h

theorem linkIds {g : FOGraph} (hg : g.WF) {u : Nat} (hu : u < g.numNodes) : ∃ ls, g.linkIterIds u = some ls ∧
    (∀ l ∈ ls, EdgeAt g.firstOut g.head g.weight l.2 u l.1.node l.1.weight) ∧ ∀ v w, g.Arc u v w → ∃ l ∈ ls, l.1 = ⟨v, w⟩ := by
  obtain ⟨ls, hls⟩ := idProb_total hg hu
  refine ⟨ls, hls, fun l hl => ?_, ?_⟩
  · obtain ⟨_, a, b, h1, h2, h3, h4, h5, h6⟩ := hg.mem_linkIterIds (l := l.1) (e := l.2) hls hl
    exact ⟨a, b, h1, h2, h3, h4, h5, h6⟩
  · rintro v w ⟨lks, h1, h2⟩
    obtain ⟨hv, rfl⟩ := hg.linkIterIds hls
    rw [hg.linkIter, List.getElem?_eq_getElem hv] at h1
    injection h1 with h1
    have h3 : (⟨v, w⟩ : Link) ∈ (g.adj[u].zip ((List.range g.adj[u].length).map (· + (g.adj.take u).flatten.length))).map Prod.fst := by
      rw [List.map_fst_zip (by simp), h1]; exact h2
    obtain ⟨l, h4, h5⟩ := List.mem_map.1 h3
    exact ⟨l, h4, h5⟩

/-- nothing is left in the queue -/
theorem settle_none {n : Nat} {d : MData} {S : St} {f : Nat → Heap Lab} (hd : CRep n pot d S f) (hno : ∀ v l p, S.W v l → pot v ≠ some p) (c : σ) :
    ∃ d', MData.settle P g b d c = some (none, d', c) ∧ CRep n pot d' S f := by
  obtain ⟨m, h1, h2⟩ := hd.queue
  rcases IHeap.rep_pop h1 with ⟨h3, h4⟩ | ⟨x, q', h3, h4, h5, h6⟩
  · refine ⟨{ d with queue := d.queue }, ?_, hd⟩
    simp only [MData.settle, h3, Option.bind_eq_bind, Option.bind_some, Option.pure_def]
  · exfalso
    have hx : x.node < n := h1.lt h4
    obtain ⟨_, q, l, k1, k2, _⟩ := (h2 _ hx).ent x h4
    exact hno _ l q k2 k1

theorem settle_spec (hC : Ctx g b loc P R s pot) {S : St} (hi : Inv (env g b s pot) S) {d : MData} {f : Nat → Heap Lab} (hd : CRep g.numNodes pot d S f) {c : σ} (hc : R c)
    {H : List (Nat × Nat × Active)} (hH : HistOK S H) {C B : Nat} (hf : ∃ x l, Qd (env g b s pot) S x l ∧ (env g b s pot).key x l.dist ≤ C)
    (hB : ∀ u v w, g.Arc u v w → w ≤ B) (hCB : C + B < INFINITY) :
    ∃ u e d' c' S' f' arcs, MData.settle P g b d c = some (some u, d', c') ∧ R c' ∧ Inv (env g b s pot) S' ∧ Round (env g b s pot) S' u e arcs ∧ CRep g.numNodes pot d' S' f' ∧
      (∀ v l, S'.T v l → S.T v l ∨ (v = u ∧ l = e)) ∧ Qd (env g b s pot) S u e ∧
      (∀ v l, Qd (env g b s pot) S v l → (env g b s pot).key u e.dist ≤ (env g b s pot).key v l.dist) ∧
      HistOK S' ((u, e.dist, e.act) :: H) ∧ (u, e.dist, e.act) ∉ H := by
  obtain ⟨m, hm1, hm2⟩ := hd.queue
  rcases IHeap.rep_pop hm1 with ⟨h3, h4⟩ | ⟨x, q', h3, h4, h5, h6⟩
  · exfalso
    obtain ⟨v, l, ⟨k1, p, k2⟩, _⟩ := hf
    exact (hm2 v (hd.node v l (.inl k1))).emp (h4 v) l p k1 k2
  have hu : x.node < g.numNodes := hm1.lt h4
  obtain ⟨u, hu'⟩ : ∃ u, u = x.node := ⟨_, rfl⟩
  have h4' : m u = some x := by rw [hu']; exact h4
  rw [← hu'] at hu
  obtain ⟨_, pu, l0, k1, k2, k3, k4⟩ := (hm2 u hu).ent x h4'
  have hh := hd.heap u hu
  rcases Heap.pop_spec le_preorder hh.inv with ⟨e0, _⟩ | ⟨e, hp', e1, e2, e3, e4, e5, e6⟩
  · have := (hh.wait l0).2 k2
    rw [e0] at this; simp at this
  have heW : S.W u e := (hh.wait e).1 (e3.mem_iff.2 (by simp))
  have hemin : ∀ l, S.W u l → e.dist ≤ l.dist := by
    intro l hl
    rcases List.mem_cons.1 (e3.mem_iff.1 ((hh.wait l).2 hl)) with rfl | h
    · exact Nat.le_refl _
    · have := e4 l h; simpa [Lab.le] using this
  have hdist : l0.dist = e.dist := Nat.le_antisymm (k3 e heW) (hemin l0 k2)
  have hqe : Qd (env g b s pot) S u e := ⟨heW, pu, k1⟩
  have hmin : ∀ v l, Qd (env g b s pot) S v l → ¬ (env g b s pot).klt v l.dist u e.dist := by
    rintro v l ⟨hl, p, hp⟩ hk
    have hv := hd.node v l (.inl hl)
    cases hmv : m v with
    | none => exact (hm2 v hv).emp hmv l p hl hp
    | some st =>
      obtain ⟨q1, p', l', q2, q3, q4, q5⟩ := (hm2 v hv).ent st hmv
      have hp' : pot v = some p := hp
      rw [hp'] at q2
      injection q2 with q2
      subst q2
      have hle := h5 v st hmv
      have hpu' : (env g b s pot).pot u = some pu := k1
      have hpv' : (env g b s pot).pot v = some p := hp
      unfold Env.klt Env.key at hk
      rw [hpu', hpv'] at hk
      simp only [Option.getD_some] at hk
      have := q4 l hl
      unfold IHeap.le at hle
      simp only [HeapElem.lt, Bool.or_eq_false_iff, Bool.and_eq_false_iff, decide_eq_false_iff_not, beq_eq_false_iff_ne] at hle
      omega
  have hkmin : ∀ v l, Qd (env g b s pot) S v l → (env g b s pot).key u e.dist ≤ (env g b s pot).key v l.dist := fun v l hq =>
    Nat.le_of_not_lt fun hlt => hmin v l hq (.inl hlt)
  have hround := pop_round hC.ok hi hqe hmin
  have heC : e.dist ≤ C := by
    obtain ⟨y, l, q1, q2⟩ := hf
    have := hkmin y l q1
    unfold Env.key at this q2
    omega
  have hnd' : hp'.data.Nodup := by
    have : hp'.data.Perm (f u).data := by
      rw [← List.take_append_drop hp'.split hp'.data, ← List.take_append_drop (f u).split (f u).data]
      have h7 : (hp'.data.take hp'.split ++ hp'.data.drop hp'.split).Perm (hp'.data.take hp'.split ++ (e :: (f u).data.drop (f u).split)) := e5.append_left _
      refine h7.trans (List.perm_middle.trans ?_)
      exact (e3.append_right _).symm
    exact this.nodup_iff.2 hh.nodup
  have hnotin : e ∉ hp'.data.take hp'.split := by
    have h8 : ((f u).data.take (f u).split).Nodup := hh.nodup.sublist (List.take_sublist _ _)
    have := e3.nodup_iff.1 h8
    exact (List.nodup_cons.1 this).1
  have hrep' : HRep hp' ((S.pop u e).W u) ((S.pop u e).T u) := by
    refine ⟨e2, hnd', fun l => ?_, fun l => ?_⟩
    · simp only [St.pop, true_and]
      rw [← hh.wait l, e3.mem_iff, List.mem_cons]
      constructor
      · intro h; exact ⟨.inr h, fun hx => hnotin (hx ▸ h)⟩
      · rintro ⟨h | h, hx⟩
        · exact absurd h hx
        · exact h
    · simp only [St.pop, true_and]
      rw [e5.mem_iff, List.mem_cons, ← hh.pop l, or_comm]
  obtain ⟨dist', g1, g2⟩ := hd.dist.modify hu hp'
  have hq' : fupd m (HeapElem.idx x) none u = none := by
    show (fupd m x.node none) u = none
    rw [← hu']; simp [fupd]
  obtain ⟨q2, c2, m2, r1, r2, r3, r4, r5⟩ := requeue_spec (P := P) (R := R) (pot := pot) h6 hC.get hC.lt hc hu hq' k1 hrep' (fun l hl => hd.fin u l (.inl hl.1))
  have hd1 : CRep g.numNodes pot ⟨dist', d.pred, q2⟩ (S.pop u e) (fupd f u hp') := by
    refine ⟨g2, ?_, hd.pred, ⟨m2, r3, ?_⟩, fun v l h => hd.node v l ((pop_cur heW _ _).1 h), fun v l h => hd.fin v l ((pop_cur heW _ _).1 h)⟩
    · intro v hv
      by_cases hx : v = u
      · subst hx; simpa [fupd] using hrep'
      · rw [fupd_of_ne _ _ hx]
        have h9 := hd.heap v hv
        refine ⟨h9.inv, h9.nodup, fun l => (h9.wait l).trans ?_, fun l => (h9.pop l).trans ?_⟩
        · simp [St.pop, hx]
        · simp [St.pop, hx]
    · intro v hv
      by_cases hx : v = u
      · subst hx; exact r5
      · have hW : (S.pop u e).W v = S.W v := by funext l; simp [St.pop, hx]
        rw [r4 v hx, hW]
        have : fupd m (HeapElem.idx x) none v = m v := fupd_of_ne _ _ (by show v ≠ x.node; rw [← hu']; exact hx)
        rw [this]
        exact hm2 v hv
  have hpop0 : (fupd f u hp' u).popped[0]? = some e := by
    simp only [fupd, if_true]
    exact Heap.pop_head e1
  obtain ⟨ls, l1, l2, l3⟩ := linkIds hC.hg hu
  obtain ⟨d3, c3, S3, f3, arcs, t1, t2, t3, t4, t5, t6, t7, t8⟩ := relaxAll_spec hC k1 ls (fun l hl => ⟨l2 l hl, by
    have := hB _ _ _ ((edgeAt_arc hC.hg).2 ⟨_, l2 l hl⟩)
    omega⟩) hround hd1 hpop0 r2
  have hH1 : HistOK (S.pop u e) ((u, e.dist, e.act) :: H) := by
    refine ⟨fun v dd a hm => ?_, fun v dd a hm l hl => ?_⟩
    · rw [pop_cov heW]
      rcases List.mem_cons.1 hm with hm | hm
      · injection hm with q1 q2
        injection q2 with q2 q3
        subst q1 q2 q3
        exact ⟨e, .inl heW, Nat.le_refl _, Sub.refl _⟩
      · exact hH.cov v dd a hm
    · rcases List.mem_cons.1 hm with hm | hm
      · injection hm with q1 q2
        injection q2 with q2 q3
        subst q1 q2 q3
        rintro ⟨q4, q5⟩
        have : l = e := hi.inc v l e (.inl hl.1) (.inl heW) ⟨by omega, by rw [q5]; exact Sub.refl _⟩
        exact hl.2 ⟨rfl, this⟩
      · exact hH.out v dd a hm l hl.1
  refine ⟨u, e, d3, c3, S3, f3, arcs, ?_, t2, end_round t4 ?_, t4, t3, ?_, hqe, hkmin, t8 _ hH1, fun hm => hH.out _ _ _ hm e heW ⟨rfl, rfl⟩⟩
  · have hk : x.key = pu + e.dist := by rw [k4, hdist]
    have hdg := hd.dist.get hu
    simp only [MData.settle, h3, ← hu', hdg, e1, g1, r1, l1, hk, t1, Option.bind_eq_bind, Option.bind_some, Option.pure_def]
  · intro v w hA hvu
    obtain ⟨l, hl, hlv⟩ := l3 v w hA
    have := t6 l hl (by rw [hlv]; exact hvu)
    rwa [hlv] at this
  · intro v l hT
    exact t7 v l hT

end MC
end Verif.Traffic
