import Verif.Proof.CatchupSearch
import Mathlib.Data.List.Perm.Subperm
set_option linter.unusedSimpArgs false
set_option linter.unusedVariables false
/- The A* search of the CATCHUp query ends, its distances belong to trips, and it finds the earliest arrival. -/
namespace Verif.Catchup
open Fl Spec

/-- what can be reached by one arc -/
def nexts (G : Graph) (depth : Nat) (p : Nat × Rat) : List (Nat × Rat) :=
  G.outgoing.zipIdx.map (fun q => (q.1.head, p.2 + (evalArc G depth true q.2 p.2).getD 0)) ++
    G.incoming.zipIdx.map (fun q => (q.1.tail, p.2 + (evalArc G depth false q.2 p.2).getD 0))

/-- what can be reached by `k` arcs -/
def vals (G : Graph) (depth s : Nat) (dep : Rat) : Nat → List (Nat × Rat)
  | 0 => [(s, dep)]
  | k + 1 => vals G depth s dep k ++ (vals G depth s dep k).flatMap (nexts G depth)

theorem vals_mono {G : Graph} {depth s : Nat} {dep : Rat} {p : Nat × Rat} {k : Nat} (h : p ∈ vals G depth s dep k) : ∀ j, k ≤ j → p ∈ vals G depth s dep j := by
  intro j hj
  induction j with
  | zero => have : k = 0 := by omega
            subst this; exact h
  | succ j ih =>
    by_cases e : k = j + 1
    · subst e; exact h
    · rw [vals]; exact List.mem_append.2 (.inl (ih (by omega)))

theorem vals_length (G : Graph) (depth s : Nat) (dep : Rat) (k : Nat) : (vals G depth s dep k).length = (1 + (G.outgoing.length + G.incoming.length)) ^ k := by
  induction k with
  | zero => simp [vals]
  | succ k ih =>
    have h : ∀ l : List (Nat × Rat), (l.flatMap (nexts G depth)).length = l.length * (G.outgoing.length + G.incoming.length) := by
      intro l
      induction l with
      | nil => simp
      | cons a l ih => rw [List.flatMap_cons, List.length_append, ih]; simp only [nexts, List.length_append, List.length_map, List.length_zipIdx, List.length_cons]; ring
    rw [vals, List.length_append, h, ih, pow_succ]; ring

theorem countP_lt {α : Type} {p q : α → Bool} : ∀ (l : List α), (∀ x ∈ l, q x = true → p x = true) → (∃ x ∈ l, p x = true ∧ q x = false) →
    l.countP q < l.countP p := by
  intro l
  induction l with
  | nil => intro _ h; obtain ⟨x, h, _⟩ := h; simp at h
  | cons a l ih =>
    intro h1 h2
    have hmono : l.countP q ≤ l.countP p := List.countP_mono_left (fun x hx => h1 x (by simp [hx]))
    rw [List.countP_cons, List.countP_cons]
    obtain ⟨x, hx, hp, hq⟩ := h2
    rw [List.mem_cons] at hx
    rcases hx with rfl | hx
    · simp only [hp, hq, if_true, Bool.false_eq_true, if_false]; omega
    · have := ih (fun y hy => h1 y (by simp [hy])) ⟨x, hx, hp, hq⟩
      have h3 := h1 a (by simp)
      by_cases hqa : q a = true
      · simp only [hqa, h3 hqa, if_true]; omega
      · simp only [hqa, Bool.false_eq_true, if_false]; omega

section
variable {G : Graph} {R : Network} {depth s t : Nat} {dep eps latest : Rat} {bw : Nodes} {bmask rel : Nat → Bool}

def Chain (G : Graph) (depth s : Nat) (dep : Rat) (dist : Nat → Rat) (x : Nat) : Prop :=
  ∃ ns : List Nat, ns.Nodup ∧ x ∈ ns ∧ (∀ z ∈ ns, z < G.n ∧ dist z ≤ dist x) ∧ (x, dist x) ∈ vals G depth s dep (ns.length - 1)

structure TInv (G : Graph) (R : Network) (depth s : Nat) (dep : Rat) (st : Search) : Prop where
  sound : ∀ x, st.dist x < INF → ∃ a, a ≤ st.dist x ∧ Trip R s dep x a
  uniq : Uniq st.queue
  key : ∀ x k, (x, k) ∈ st.queue → x ≠ s → st.dist x ≤ k
  pos : ∀ x, 0 ≤ st.lbt x
  chain : ∀ x k, (x, k) ∈ st.queue → Chain G depth s dep st.dist x

/-- the rest of the work -/
def work (G : Graph) (depth s : Nat) (dep : Rat) (st : Search) : Nat :=
  2 * (vals G depth s dep G.n).countP (fun p => decide (p.2 < st.dist p.1)) + st.queue.length

structure ItemFacts (G : Graph) (R : Network) (depth x : Nat) (d : Rat) (i : Item) : Prop where
  ne : i.y ≠ x
  lt : i.y < G.n
  lo : 0 ≤ i.lo
  le : i.lo ≤ i.val
  trip : Trip R x d i.y (d + i.val)
  next : (i.y, d + i.val) ∈ nexts G depth (x, d)

theorem BoundsOK.arc_n (hG : BoundsOK G R) {dir : Bool} {a : Arc} (ha : a ∈ G.arcs dir) : a.tail < G.n ∧ a.head < G.n := by
  obtain ⟨h1, h2, _⟩ := hG.arc dir a ha
  have : a.head < G.n := by
    have : ∀ {x y : Nat}, AncS G.parent x y → x < y → y < G.n := by
      intro x y hxy hlt
      cases hxy with
      | refl => omega
      | up _ hp => exact (hG.par_lt _ _ hp).2
    exact this h2 h1
  omega

theorem item_facts (hG : BoundsOK G R) (hE : EvalOK G R depth) (hbw : LabelArcs G bw) {x : Nat} {d : Rat} {i : Item}
    (h : ItemOK G eps depth bw bmask rel x d i) : ItemFacts G R depth x d i := by
  obtain ⟨y, lo, val, pr⟩ := i
  obtain ⟨dir, id, hr, hv, _⟩ := h.rel
  simp only at hr hv
  cases hr with
  | @up _ a h1 h2 h3 =>
    have ha := List.mem_of_getElem? h1
    obtain ⟨h4, _, h5, _⟩ := hG.arc true a ha
    obtain ⟨v, h6, h7, h8⟩ := hE true id a h1 d
    rw [hv] at h6; injection h6 with h6; subst h6
    refine ⟨by simp only; omega, (hG.arc_n (dir := true) ha).2, h5, h7, ?_, ?_⟩
    · rw [← h2]; exact h8
    · refine List.mem_append.2 (.inl (List.mem_map.2 ⟨(a, id), List.mem_zipIdx_iff_getElem?.2 h1, ?_⟩))
      simp only [hv, Option.getD_some]
  | @down l a h1 h2 h3 =>
    obtain ⟨a', h9, h10, h11⟩ := hbw x l (mem_kept.1 h2).1
    rw [h3] at h9; injection h9 with h9; subst h9
    have ha := List.mem_of_getElem? h3
    obtain ⟨h4, _, h5, _⟩ := hG.arc false a ha
    obtain ⟨v, h6, h7, h8⟩ := hE false _ a h3 d
    rw [hv] at h6; injection h6 with h6; subst h6
    refine ⟨by simp only; omega, ?_, h5, h7, ?_, ?_⟩
    · have := (hG.arc_n (dir := false) ha).1; simp only; omega
    · have h8' : Trip R a.head d a.tail (d + val) := h8
      rw [h10, h11] at h8'; exact h8'
    · refine List.mem_append.2 (.inr (List.mem_map.2 ⟨(a, l.id), List.mem_zipIdx_iff_getElem?.2 h3, ?_⟩))
      simp only [hv, Option.getD_some, h10]

theorem chain_mono {dist dist' : Nat → Rat} {x : Nat} (h : Chain G depth s dep dist x) (hle : ∀ z, dist' z ≤ dist z) (he : dist' x = dist x) :
    Chain G depth s dep dist' x := by
  obtain ⟨ns, h1, h2, h3, h4⟩ := h
  exact ⟨ns, h1, h2, fun z hz => ⟨(h3 z hz).1, by rw [he]; exact le_trans (hle z) (h3 z hz).2⟩, by rw [he]; exact h4⟩

theorem fupd_le {f : Nat → Rat} {y : Nat} {e : Rat} (h : e ≤ f y) : ∀ z, fupd f y e z ≤ f z := by
  intro z; unfold fupd; split
  · next e => subst e; exact h
  · exact le_refl _

/-- `improve` keeps the invariant. -/
theorem improve_inv (hR : NoOvertaking R) {st : Search} (h : TInv G R depth s dep st) {v : Nat} (hv : Chain G depth s dep st.dist v) {i : Item}
    (hi : ItemFacts G R depth v (st.dist v) i) :
    TInv G R depth s dep (improve (st.dist v + i.val) i.y i.par st) ∧ Chain G depth s dep (improve (st.dist v + i.val) i.y i.par st).dist v ∧
      (improve (st.dist v + i.val) i.y i.par st).dist v = st.dist v ∧ work G depth s dep (improve (st.dist v + i.val) i.y i.par st) ≤ work G depth s dep st := by
  have hval : 0 ≤ i.val := le_trans hi.lo hi.le
  rcases improve_cases (st.dist v + i.val) i.y i.par st with ⟨h1, h2⟩ | ⟨h1, h2⟩ | ⟨h1, h2, k, h3, h4⟩
  · rw [h2]
    have hle := fupd_le (f := st.dist) (y := i.y) (e := st.dist v + i.val) (le_of_lt h1)
    have hvv : fupd st.dist i.y (st.dist v + i.val) v = st.dist v := fupd_of_ne _ _ (Ne.symm hi.ne)
    obtain ⟨ns, c1, c2, c3, c4⟩ := hv
    have hny : i.y ∉ ns := fun hm => by have := (c3 _ hm).2; linarith
    have hnl : ns.length ≤ G.n := by
      have := List.subperm_of_subset c1 (l₂ := List.range G.n) (fun z hz => List.mem_range.2 (c3 z hz).1)
      simpa using this.length_le
    have hpos : 0 < ns.length := List.length_pos_of_mem c2
    have hin : (i.y, st.dist v + i.val) ∈ vals G depth s dep ns.length := by
      have : ns.length = (ns.length - 1) + 1 := by omega
      rw [this, vals]
      exact List.mem_append.2 (.inr (List.mem_flatMap.2 ⟨_, c4, hi.next⟩))
    refine ⟨⟨?_, h.uniq.set _ _, ?_, h.pos, ?_⟩, ?_, hvv, ?_⟩
    · intro x hx
      simp only [fupd] at hx ⊢
      split at hx
      · next e =>
        subst e
        obtain ⟨a, h5, h6⟩ := h.sound v (by linarith)
        obtain ⟨y', h7, h8⟩ := hi.trip.earlier hR a h5
        exact ⟨y', by simpa using h7, h6.append h8⟩
      · next e => simp only [e, if_false]; exact h.sound x hx
    · intro x k hk hne
      simp only
      rcases mem_qset.1 hk with ⟨e1, e2⟩ | ⟨e1, e2⟩
      · rw [e1, fupd_same, e2]
        have := h.pos i.y; linarith
      · rw [fupd_of_ne _ _ e2]; exact h.key x k e1 hne
    · intro x k hk
      rcases mem_qset.1 hk with ⟨e1, e2⟩ | ⟨e1, e2⟩
      · subst e1
        refine ⟨i.y :: ns, List.nodup_cons.2 ⟨hny, c1⟩, by simp, ?_, ?_⟩
        · intro z hz
          simp only [fupd_same]
          rw [List.mem_cons] at hz
          rcases hz with rfl | hz
          · exact ⟨hi.lt, by simp⟩
          · have hzy : z ≠ i.y := fun e => hny (e ▸ hz)
            refine ⟨(c3 z hz).1, ?_⟩
            rw [fupd_of_ne _ _ hzy]
            have := (c3 z hz).2; linarith
        · simp only [fupd_same, List.length_cons, Nat.add_sub_cancel]; exact hin
      · exact chain_mono (h.chain x k e1) hle (fupd_of_ne _ _ e2)
    · exact chain_mono ⟨ns, c1, c2, c3, c4⟩ hle hvv
    · unfold work
      simp only
      have hc := countP_lt (p := fun p : Nat × Rat => decide (p.2 < st.dist p.1)) (q := fun p => decide (p.2 < fupd st.dist i.y (st.dist v + i.val) p.1))
        (vals G depth s dep G.n) (by
          intro p _ hp
          simp only [decide_eq_true_eq] at hp ⊢
          exact lt_of_lt_of_le hp (hle p.1)) ⟨_, vals_mono hin G.n hnl, by simp only [decide_eq_true_eq]; exact h1, by simp⟩
      have := qset_length st.queue i.y (st.dist v + i.val + st.lbt i.y)
      omega
  · rw [h2]; exact ⟨h, hv, rfl, Nat.le_refl _⟩
  · rw [h2]
    refine ⟨⟨h.sound, h.uniq.set _ _, ?_, h.pos, ?_⟩, hv, rfl, ?_⟩
    · intro x k' hk hne
      rcases mem_qset.1 hk with ⟨e1, e2⟩ | ⟨e1, e2⟩
      · simp only [e1, e2]; have := h.pos i.y; linarith
      · exact h.key x k' e1 hne
    · intro x k' hk
      rcases mem_qset.1 hk with ⟨e1, e2⟩ | ⟨e1, e2⟩
      · subst e1; exact h.chain _ _ h3
      · exact h.chain x k' e1
    · unfold work
      simp only
      have := qset_mem_length h3 (st.dist v + i.val + st.lbt i.y)
      simp only at this
      omega

theorem fold_inv (hR : NoOvertaking R) (he : 0 ≤ eps) {v : Nat} {d : Rat} : ∀ (L : List Item) (st : Search), TInv G R depth s dep st → Chain G depth s dep st.dist v →
    st.dist v = d → (∀ i ∈ L, ItemFacts G R depth v d i) →
    TInv G R depth s dep (L.foldl (relaxStep eps latest d) st) ∧ work G depth s dep (L.foldl (relaxStep eps latest d) st) ≤ work G depth s dep st := by
  intro L
  induction L with
  | nil => intro st h _ _ _; exact ⟨h, Nat.le_refl _⟩
  | cons i L ih =>
    intro st h hc hd hL
    rw [List.foldl_cons]
    have hi := hL i (by simp)
    have hstep : TInv G R depth s dep (relaxStep eps latest d st i) ∧ Chain G depth s dep (relaxStep eps latest d st i).dist v ∧
        (relaxStep eps latest d st i).dist v = d ∧ work G depth s dep (relaxStep eps latest d st i) ≤ work G depth s dep st := by
      rcases relaxStep_cases eps latest d he st i with ⟨_, e⟩ | e
      · rw [e]; exact ⟨h, hc, hd, Nat.le_refl _⟩
      · rw [e]
        subst hd
        exact improve_inv hR h hc hi
    obtain ⟨h1, h2, h3, h4⟩ := hstep
    obtain ⟨h5, h6⟩ := ih _ h1 h2 h3 (fun j hj => hL j (by simp [hj]))
    exact ⟨h5, Nat.le_trans h6 h4⟩

/-! ## Completeness -/

def Closed (G : Graph) (eps : Rat) (depth : Nat) (bw : Nodes) (bmask rel : Nat → Bool) (latest : Rat) (dist : Nat → Rat) (x : Nat) : Prop :=
  ∀ dir id y lo v, Relevant G eps bw bmask rel x dir id y lo → evalArc G depth dir id (dist x) = some v → dist y ≤ dist x + v ∨ latest < dist x + lo

def Waiting (Y : Rat) (st : Search) (x : Nat) : Prop := ∃ k, (x, k) ∈ st.queue ∧ (k ≤ st.dist x + st.lbt x ∨ k ≤ Y)

structure KInv (G : Graph) (eps : Rat) (depth : Nat) (bw : Nodes) (bmask rel : Nat → Bool) (latest : Rat) (s : Nat) (dep Y : Rat) (st : Search) : Prop where
  here : st.dist s ≤ dep
  todo : ∀ x, st.dist x ≤ Y → Waiting Y st x ∨ Closed G eps depth bw bmask rel latest st.dist x

theorem closed_mono {dist dist' : Nat → Rat} {x : Nat} (h : Closed G eps depth bw bmask rel latest dist x) (hle : ∀ z, dist' z ≤ dist z) (he : dist' x = dist x) :
    Closed G eps depth bw bmask rel latest dist' x := by
  intro dir id y lo v h1 h2
  rw [he] at h2 ⊢
  rcases h dir id y lo v h1 h2 with h3 | h3
  · exact .inl (le_trans (hle y) h3)
  · exact .inr h3

/-- `improve` for another node -/
theorem improve_todo {Y : Rat} {st : Search} (hu : Uniq st.queue) {v y : Nat} {ea : Rat} {p : Nat × Nat} (hy : y ≠ v)
    (h : ∀ x, x ≠ v → st.dist x ≤ Y → Waiting Y st x ∨ Closed G eps depth bw bmask rel latest st.dist x) :
    (∀ x, x ≠ v → (improve ea y p st).dist x ≤ Y → Waiting Y (improve ea y p st) x ∨ Closed G eps depth bw bmask rel latest (improve ea y p st).dist x) ∧
      (∀ z, (improve ea y p st).dist z ≤ st.dist z) ∧ (improve ea y p st).dist v = st.dist v ∧ (improve ea y p st).dist y ≤ ea ∧ Uniq (improve ea y p st).queue := by
  rcases improve_cases ea y p st with ⟨h1, h2⟩ | ⟨h1, h2⟩ | ⟨h1, h2, k, h3, h4⟩
  · rw [h2]
    have hle := fupd_le (f := st.dist) (y := y) (e := ea) (le_of_lt h1)
    refine ⟨?_, hle, fupd_of_ne _ _ (Ne.symm hy), by simp, hu.set _ _⟩
    intro x hx hxY
    by_cases e : x = y
    · subst e
      left
      exact ⟨ea + st.lbt x, mem_qset.2 (.inl ⟨rfl, rfl⟩), .inl (by simp)⟩
    · simp only [fupd_of_ne _ _ e] at hxY
      rcases h x hx hxY with ⟨k, h3, h4⟩ | h3
      · left
        refine ⟨k, mem_qset.2 (.inr ⟨h3, e⟩), ?_⟩
        simp only [fupd_of_ne _ _ e]; exact h4
      · exact .inr (closed_mono h3 hle (fupd_of_ne _ _ e))
  · rw [h2]; exact ⟨h, fun z => le_refl _, rfl, h1, hu⟩
  · rw [h2]
    refine ⟨?_, fun z => le_refl _, rfl, h1, hu.set _ _⟩
    intro x hx hxY
    rcases h x hx hxY with ⟨k', h5, h6⟩ | h5
    · left
      by_cases e : x = y
      · subst e
        have := hu _ _ _ h3 h5
        subst this
        refine ⟨ea + st.lbt x, mem_qset.2 (.inl ⟨rfl, rfl⟩), ?_⟩
        simp only
        rcases h6 with h6 | h6
        · left; linarith
        · right; linarith
      · exact ⟨k', mem_qset.2 (.inr ⟨h5, e⟩), h6⟩
    · exact .inr h5

theorem fold_todo {Y : Rat} (he : 0 ≤ eps) {v : Nat} {d : Rat} : ∀ (L : List Item) (st : Search), Uniq st.queue → st.dist v = d → (∀ i ∈ L, i.y ≠ v ∧ i.lo ≤ i.val) →
    (∀ x, x ≠ v → st.dist x ≤ Y → Waiting Y st x ∨ Closed G eps depth bw bmask rel latest st.dist x) →
    (∀ x, x ≠ v → (L.foldl (relaxStep eps latest d) st).dist x ≤ Y → Waiting Y (L.foldl (relaxStep eps latest d) st) x ∨
        Closed G eps depth bw bmask rel latest (L.foldl (relaxStep eps latest d) st).dist x) ∧
      (∀ z, (L.foldl (relaxStep eps latest d) st).dist z ≤ st.dist z) ∧ (L.foldl (relaxStep eps latest d) st).dist v = d ∧
      ∀ i ∈ L, (L.foldl (relaxStep eps latest d) st).dist i.y ≤ d + i.val ∨ latest < d + i.lo := by
  intro L
  induction L with
  | nil => intro st _ hd _ h; exact ⟨h, fun z => le_refl _, hd, by simp⟩
  | cons i L ih =>
    intro st hu hd hL h
    obtain ⟨hi, hlo⟩ := hL i (by simp)
    rw [List.foldl_cons]
    have hstep : (∀ x, x ≠ v → (relaxStep eps latest d st i).dist x ≤ Y → Waiting Y (relaxStep eps latest d st i) x ∨
        Closed G eps depth bw bmask rel latest (relaxStep eps latest d st i).dist x) ∧ (∀ z, (relaxStep eps latest d st i).dist z ≤ st.dist z) ∧
        (relaxStep eps latest d st i).dist v = d ∧ ((relaxStep eps latest d st i).dist i.y ≤ d + i.val ∨ latest < d + i.lo) ∧ Uniq (relaxStep eps latest d st i).queue := by
      rcases relaxStep_cases eps latest d he st i with ⟨hp, e⟩ | e
      · rw [e]
        refine ⟨h, fun z => le_refl _, hd, ?_, hu⟩
        rcases hp with hp | hp
        · exact .inr hp
        · exact .inl (by linarith)
      · rw [e]
        obtain ⟨h1, h2, h3, h4, h5⟩ := improve_todo (ea := d + i.val) (p := i.par) hu hi h
        exact ⟨h1, h2, h3.trans hd, .inl h4, h5⟩
    obtain ⟨h1, h2, h3, h4, h5⟩ := hstep
    obtain ⟨i1, i2, i3, i4⟩ := ih _ h5 h3 (fun j hj => hL j (by simp [hj])) h1
    refine ⟨i1, fun z => le_trans (i2 z) (h2 z), i3, ?_⟩
    intro j hj
    rw [List.mem_cons] at hj
    rcases hj with rfl | hj
    · rcases h4 with h4 | h4
      · exact .inl (le_trans (i2 _) h4)
      · exact .inr h4
    · exact i4 j hj

/-- all nodes of the rest of an optimal path are reached in time if nothing early waits in the queue -/
theorem reach_down (hG : BoundsOK G R) (hE : EvalOK G R depth) (hbw : LabelArcs G bw) {Y : Rat} (hI : Y < INF) (hl : Y ≤ latest) {c : Corr} {f : FMasks} (hc : c.bw = bw) (hf : f.rel = rel)
    (hP : PathOK G R s t depth dep Y eps c bmask f) {st : Search} (hlb : st.lbt = f.lbt) (hT : ∀ x, st.dist x < INF → ∃ a, a ≤ st.dist x ∧ Trip R s dep x a)
    (hK : KInv G eps depth bw bmask rel latest s dep Y st) (hq : ∀ x k, (x, k) ∈ st.queue → Y < k) :
    ∀ n x b, x ≤ n → DnRest (G.net depth false) R s dep t Y x b → bmask x = true → st.dist x ≤ b → st.dist t ≤ Y := by
  intro n
  induction n with
  | zero =>
    intro x b hx hD hm hb
    have hbY := hD.le hG hE
    have he : st.dist x = b := by
      obtain ⟨a, h1, h2⟩ := hT x (by linarith)
      have := hD.earliest.2 a h2
      linarith
    obtain ⟨h1, h2⟩ := hP.down x b hD hm
    rcases h2 with rfl | ⟨l, h2, v, h3, h4, h5⟩
    · linarith
    · exfalso
      rw [hc] at h2
      obtain ⟨a, g1, g2, g3⟩ := hbw x l (mem_kept.1 h2).1
      have := (hG.arc false a (List.mem_of_getElem? g1)).1
      omega
  | succ n ih =>
    intro x b hx hD hm hb
    have hbY := hD.le hG hE
    have he : st.dist x = b := by
      obtain ⟨a, h1, h2⟩ := hT x (by linarith)
      have := hD.earliest.2 a h2
      linarith
    obtain ⟨h1, h2⟩ := hP.down x b hD hm
    rcases h2 with rfl | ⟨l, h2, v, h3, h4, h5⟩
    · linarith
    · rw [hc] at h2
      obtain ⟨a, g1, g2, g3⟩ := hbw x l (mem_kept.1 h2).1
      have ha := hG.arc false a (List.mem_of_getElem? g1)
      have hlt := ha.1
      rcases hK.todo x (by linarith) with ⟨k, k1, k2⟩ | hcl
      · exfalso
        have := hq x k k1
        rw [hlb] at k2
        rcases k2 with k2 | k2 <;> linarith
      · have hr : Relevant G eps bw bmask rel x false l.id l.parent a.lo := .down hm h2 g1
        have hle := h5.le hG hE
        obtain ⟨v', e1, e2, _⟩ := hE false l.id a g1 b
        rw [h3] at e1; injection e1 with e1; subst e1
        rcases hcl _ _ _ _ v hr (by rw [he]; exact h3) with h6 | h6
        · exact ih l.parent (b + v) (by omega) h5 h4 (by rw [← he]; exact h6)
        · linarith

theorem UpRest.le (hG : BoundsOK G R) (hE : EvalOK G R depth) {Y : Rat} {x : Nat} {b : Rat} (h : UpRest (G.net depth true) (G.net depth false) R s dep t Y x b) : b ≤ Y := by
  induction h with
  | top _ h => exact h.le hG hE
  | step h1 h2 h3 h4 ih =>
    obtain ⟨id, a, h5, h6⟩ := net_lo hE h2
    have := (hG.arc true a (List.mem_of_getElem? h5)).2.2.1
    linarith [h6.2.2.2]

theorem reach_up (hR : NoOvertaking R) (hG : BoundsOK G R) (hE : EvalOK G R depth) (hbw : LabelArcs G bw) {Y : Rat} (hI : Y < INF) (hl : Y ≤ latest) {c : Corr} {f : FMasks} (hc : c.bw = bw) (hf : f.rel = rel)
    (hP : PathOK G R s t depth dep Y eps c bmask f) {st : Search} (hlb : st.lbt = f.lbt) (hT : ∀ x, st.dist x < INF → ∃ a, a ≤ st.dist x ∧ Trip R s dep x a)
    (hK : KInv G eps depth bw bmask rel latest s dep Y st) (hq : ∀ x k, (x, k) ∈ st.queue → Y < k) :
    ∀ n x b, G.n ≤ x + n → UpRest (G.net depth true) (G.net depth false) R s dep t Y x b → st.dist x ≤ b → st.dist t ≤ Y := by
  intro n
  induction n with
  | zero =>
    intro x b hx hU hb
    obtain ⟨h1, h2⟩ := hP.up x b hU
    rcases h2 with ⟨h2, h3⟩ | ⟨id, a, v, h2, h3, h4, h5, h6⟩
    · exact reach_down hG hE hbw hI hl hc hf hP hlb hT hK hq x x b (Nat.le_refl _) h3 h2 hb
    · have := (hG.arc_n (dir := true) (List.mem_of_getElem? h2)).1
      omega
  | succ n ih =>
    intro x b hx hU hb
    have hbY := hU.le hG hE
    have he : st.dist x = b := by
      obtain ⟨a, h1, h2⟩ := hT x (by linarith)
      have := (hU.earliest hR).2 a h2
      linarith
    obtain ⟨h1, h2⟩ := hP.up x b hU
    rcases h2 with ⟨h2, h3⟩ | ⟨id, a, v, h2, h3, h4, h5, h6⟩
    · exact reach_down hG hE hbw hI hl hc hf hP hlb hT hK hq x x b (Nat.le_refl _) h3 h2 hb
    · have ha := hG.arc true a (List.mem_of_getElem? h2)
      have hlt := ha.1
      rcases hK.todo x (by linarith) with ⟨k, k1, k2⟩ | hcl
      · exfalso
        have := hq x k k1
        rw [hlb] at k2
        rcases k2 with k2 | k2 <;> linarith
      · have hr : Relevant G eps bw bmask rel x true id a.head a.lo := .up h2 h3 (by rw [← hf]; exact h4)
        have hle := h6.le hG hE
        obtain ⟨v', e1, e2, _⟩ := hE true id a h2 b
        rw [h5] at e1; injection e1 with e1; subst e1
        rcases hcl _ _ _ _ v hr (by rw [he]; exact h5) with h7 | h7
        · exact ih a.head (b + v) (by omega) h6 (by rw [← he]; exact h7)
        · linarith

/-- The search ends; its distances belong to trips; it finds the earliest arrival. -/
theorem search_spec (hR : NoOvertaking R) (hG : BoundsOK G R) (hE : EvalOK G R depth) (hbw : LabelArcs G bw) (he : 0 ≤ eps) (lbt : Nat → Rat) :
    ∀ (fuel : Nat) (st : Search), TInv G R depth s dep st → st.rel = rel → st.lbt = lbt → work G depth s dep st < fuel →
      ∃ r, search false eps latest G depth bw bmask t fuel st = some r ∧ (∀ x, r.dist x < INF → ∃ a, a ≤ r.dist x ∧ Trip R s dep x a) ∧
        ∀ (Y : Rat) (c : Corr) (f : FMasks), Y < INF → Y ≤ latest → c.bw = bw → f.rel = rel → f.lbt = lbt → PathOK G R s t depth dep Y eps c bmask f →
          UpRest (G.net depth true) (G.net depth false) R s dep t Y s dep → KInv G eps depth bw bmask rel latest s dep Y st → r.dist t ≤ Y := by
  intro fuel
  induction fuel with
  | zero => intro st _ _ _ h; omega
  | succ fuel ih =>
    intro st hT hrel hlb hw
    rw [search]
    obtain ⟨l1, l2⟩ := least_spec st.queue
    cases hl : least st.queue with
    | none =>
      refine ⟨st, rfl, hT.sound, ?_⟩
      intro Y c f hI hlat hc hf hlf hP hU hK
      have hq := l1 hl
      exact reach_up hR hG hE hbw hI hlat hc hf hP (hlb.trans hlf.symm) hT.sound hK (fun x k h => by rw [hq] at h; simp at h) G.n s dep (by omega) hU hK.here
    | some p =>
      obtain ⟨v, k⟩ := p
      obtain ⟨l3, l4⟩ := l2 _ hl
      simp only
      by_cases htv : v = t
      · simp only [htv, if_true]
        refine ⟨_, rfl, hT.sound, ?_⟩
        intro Y c f hI hlat hc hf hlf hP hU hK
        simp only
        by_cases hst : t = s
        · rw [hst]; exact le_trans hK.here (hU.le hG hE)
        by_contra hn
        have hkey := hT.key v k l3 (by rw [htv]; exact hst)
        have hn' : Y < st.dist t := not_le.1 hn
        refine hn (reach_up hR hG hE hbw hI hlat hc hf hP (hlb.trans hlf.symm) hT.sound hK (fun x k' h => ?_) G.n s dep (by omega) hU hK.here)
        have := l4 _ h
        rw [htv] at hkey
        simp only at this
        linarith
      · simp only [htv, if_false]
        have hT0 : TInv G R depth s dep { st with queue := qdel st.queue v } :=
          ⟨hT.sound, hT.uniq.del v, fun x k' h hne => hT.key x k' (mem_qdel.1 h).1 hne, hT.pos, fun x k' h => hT.chain x k' (mem_qdel.1 h).1⟩
        have hc0 : Chain G depth s dep ({ st with queue := qdel st.queue v } : Search).dist v := hT.chain v k l3
        obtain ⟨items, p1, p2, p3⟩ := popped_items (eps := eps) (latest := latest) (bmask := bmask) hE hbw v { st with queue := qdel st.queue v } (rel := rel) hrel
        have hit := fun i hi => item_facts hG hE hbw (p2 i hi)
        obtain ⟨q1, q2⟩ := fold_inv (eps := eps) (latest := latest) hR he items _ hT0 hc0 rfl hit
        obtain ⟨s1, s2⟩ := fold_same eps latest (({ st with queue := qdel st.queue v } : Search).dist v) items { st with queue := qdel st.queue v }
        have hw' : work G depth s dep { st with queue := qdel st.queue v } < work G depth s dep st := by
          unfold work
          have := qdel_mem_length l3
          simp only at this ⊢
          omega
        obtain ⟨r, r1, r2, r3⟩ := ih _ q1 (s2.trans hrel) (s1.trans hlb) (by omega)
        refine ⟨r, ?_, r2, ?_⟩
        · rw [p1]; exact r1
        · intro Y c f hI hlat hc hf hlf hP hU hK
          refine r3 Y c f hI hlat hc hf hlf hP hU ?_
          obtain ⟨t1, t2, t3, t4⟩ := fold_todo (Y := Y) (G := G) (depth := depth) (bw := bw) (bmask := bmask) (rel := rel) (eps := eps) (latest := latest) he items
            { st with queue := qdel st.queue v } (hT.uniq.del v) (v := v) rfl (fun i hi => ⟨(hit i hi).ne, (hit i hi).le⟩) (by
              intro x hx hxY
              rcases hK.todo x hxY with ⟨k', k1, k2⟩ | h1
              · exact .inl ⟨k', mem_qdel.2 ⟨k1, hx⟩, k2⟩
              · exact .inr h1)
          refine ⟨le_trans (t2 s) hK.here, ?_⟩
          intro x hxY
          by_cases hx : x = v
          · subst hx
            right
            intro dir id y lo w h1 h2
            rw [t3] at h2 ⊢
            obtain ⟨w', h3, h4⟩ := p3 dir id y lo h1
            rw [h2] at h3; injection h3 with h3; subst h3
            exact t4 _ h4
          · exact t1 x hx hxY

end
end Verif.Catchup
