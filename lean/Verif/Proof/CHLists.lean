import Verif.Model.CH
import Verif.Proof.Merging
import Verif.Proof.Reversed
import Mathlib.Data.List.Nodup
set_option linter.unusedSimpArgs false
set_option linter.unusedVariables false
/- The dynamic graph of the CH contraction as a matrix of weights. -/
namespace Verif
open Spec
namespace CH

/-- The weight of the first entry for a node. -/
def look : List Entry → Nat → Option Nat
  | [], _ => none
  | e :: l, v => if v = e.1.node then some e.1.weight else look l v

/-- No node occurs twice. -/
def ND (l : List Entry) : Prop := (l.map (fun e => e.1.node)).Nodup

theorem look_none {l : List Entry} {v : Nat} : look l v = none ↔ v ∉ l.map (fun e => e.1.node) := by
  induction l with
  | nil => simp [look]
  | cons e l ih =>
    simp only [look, List.map_cons, List.mem_cons, not_or]
    by_cases h : v = e.1.node
    · simp [h]
    · simp [h, ih]

theorem mem_look {l : List Entry} (h : ND l) {v w : Nat} : (∃ m, ((⟨v, w⟩, m) : Entry) ∈ l) ↔ look l v = some w := by
  induction l with
  | nil => simp [look]
  | cons e l ih =>
    have h' : ND l := (List.nodup_cons.1 h).2
    have hn : e.1.node ∉ l.map (fun e => e.1.node) := (List.nodup_cons.1 h).1
    simp only [look, List.mem_cons]
    by_cases hv : v = e.1.node
    · rw [if_pos hv]
      constructor
      · rintro ⟨m, hm | hm⟩
        · rw [← hm]
        · exfalso; apply hn; rw [← hv]; exact List.mem_map.2 ⟨_, hm, rfl⟩
      · intro hw
        simp at hw
        refine ⟨e.2, .inl ?_⟩
        subst hv hw
        obtain ⟨⟨a, b⟩, c⟩ := e
        rfl
    · rw [if_neg hv, ← ih h']
      constructor
      · rintro ⟨m, hm | hm⟩
        · exfalso; apply hv; rw [← hm]
        · exact ⟨m, hm⟩
      · rintro ⟨m, hm⟩; exact ⟨m, .inr hm⟩

theorem look_mem {l : List Entry} (h : ND l) {e : Entry} (he : e ∈ l) : look l e.1.node = some e.1.weight := by
  apply (mem_look h).1
  exact ⟨e.2, he⟩

/-! ### `insert_or_decrease` -/

/-- The weight after `insert_or_decrease`. -/
def better (old : Option Nat) (w : Nat) : Nat :=
  match old with
  | none => w
  | some x => if w < x then w else x

def sres (old : Option Nat) (w : Nat) : SRes :=
  match old with
  | none => .new
  | some x => if w < x then .shortened else .shorter

theorem insert_look (l : List Entry) (v w o : Nat) :
    (∀ u, look (insertOrDecrease l v w o).1 u = if u = v then some (better (look l v) w) else look l u) ∧
    (insertOrDecrease l v w o).2 = sres (look l v) w ∧ (ND l → ND (insertOrDecrease l v w o).1) ∧
    (∀ x, x ∈ (insertOrDecrease l v w o).1.map (fun e => e.1.node) → x = v ∨ x ∈ l.map (fun e => e.1.node)) := by
  induction l with
  | nil =>
    refine ⟨?_, rfl, ?_, ?_⟩
    · intro u; simp only [insertOrDecrease, look, better]
    · intro _; simp [insertOrDecrease, ND]
    · intro x hx; simp [insertOrDecrease] at hx; exact .inl hx
  | cons e l ih =>
    obtain ⟨i1, i2, i3, i4⟩ := ih
    by_cases hv : v = e.1.node
    · simp only [insertOrDecrease, if_pos hv]
      have hl : look (e :: l) v = some e.1.weight := by simp [look, hv]
      rw [hl]
      by_cases hw : w < e.1.weight
      · simp only [if_pos hw, better, sres]
        refine ⟨?_, trivial, fun h => h, ?_⟩
        · intro u
          simp only [look]
          by_cases hu : u = v
          · simp [hu, hv]
          · have : u ≠ e.1.node := by rw [← hv]; exact hu
            simp [hu, this]
        · intro x hx
          simp only [List.map_cons, List.mem_cons] at hx ⊢
          exact .inr hx
      · simp only [if_neg hw, better, sres]
        refine ⟨?_, trivial, fun h => h, fun x hx => .inr hx⟩
        intro u
        simp only [look]
        by_cases hu : u = v
        · simp [hu, hv]
        · have : u ≠ e.1.node := by rw [← hv]; exact hu
          simp [hu, this]
    · simp only [insertOrDecrease, if_neg hv]
      have hl : look (e :: l) v = look l v := by simp [look, hv]
      rw [hl]
      refine ⟨?_, i2, ?_, ?_⟩
      · intro u
        simp only [look]
        by_cases hu : u = e.1.node
        · have : u ≠ v := by rw [hu]; exact Ne.symm hv
          simp [hu, Ne.symm hv]
        · simp [hu, i1]
      · intro h
        have h1 := List.nodup_cons.1 h
        refine List.nodup_cons.2 ⟨?_, i3 h1.2⟩
        intro hx
        rcases i4 _ hx with hx | hx
        · exact hv hx.symm
        · exact h1.1 hx
      · intro x hx
        simp only [List.map_cons, List.mem_cons] at hx ⊢
        rcases hx with hx | hx
        · exact .inr (.inl hx)
        · rcases i4 x hx with h | h
          · exact .inl h
          · exact .inr (.inr h)

/-! ### removing entries -/

theorem swapRemove_perm {α : Type} {l : List α} {i : Nat} {x : α} (h : l[i]? = some x) :
    ∃ l', swapRemove l i = some l' ∧ l.Perm (x :: l') := by
  have hi := (List.getElem?_eq_some_iff.1 h).1
  have hne : l ≠ [] := by intro h0; simp [h0] at hi
  obtain ⟨y, hy⟩ : ∃ y, l.getLast? = some y := by
    rw [List.getLast?_eq_some_getLast hne]; exact ⟨_, rfl⟩
  obtain ⟨a, rfl⟩ : ∃ a, l = a ++ [y] := by
    rw [List.getLast?_eq_some_iff] at hy; exact hy
  refine ⟨((a ++ [y]).set i y).dropLast, by simp only [swapRemove, hy, Option.bind_eq_bind, Option.bind_some, if_pos hi]; rfl, ?_⟩
  by_cases hia : i < a.length
  · rw [List.set_append_left _ _ hia, List.dropLast_concat]
    rw [List.getElem?_append_left hia] at h
    have h1 := Merging.perm_erase_set a i x h
    have h2 := Merging.perm_set a i x y h
    calc (a ++ [y]).Perm ((x :: a.eraseIdx i) ++ [y]) := h1.append_right _
      _ = x :: (a.eraseIdx i ++ [y]) := rfl
      _ |>.Perm (x :: (y :: a.eraseIdx i)) := List.Perm.cons _ (List.perm_append_singleton _ _)
      _ |>.Perm (x :: a.set i y) := List.Perm.cons _ h2.symm
  · have he : i = a.length := by simp at hi; omega
    subst he
    simp at h
    subst h
    simp only [List.set_append_right _ _ (Nat.le_refl _), Nat.sub_self, List.set_cons_zero, List.dropLast_concat]
    exact List.perm_append_singleton _ _

theorem removeEntry_spec {l : List Entry} (h : ND l) {v w : Nat} (hv : look l v = some w) :
    ∃ l', removeEntry l v = some l' ∧ ND l' ∧ ∀ u, look l' u = if u = v then none else look l u := by
  obtain ⟨m, hm⟩ := (mem_look h).2 hv
  have hsome : (l.findIdx? (fun e => decide (v = e.1.node))).isSome := by
    rw [List.findIdx?_isSome]
    exact List.any_eq_true.2 ⟨_, hm, by simp⟩
  obtain ⟨i, hi⟩ := Option.isSome_iff_exists.1 hsome
  obtain ⟨h1, h2, _⟩ := List.findIdx?_eq_some_iff_getElem.1 hi
  simp only [decide_eq_true_eq] at h2
  obtain ⟨l', h3, h4⟩ := swapRemove_perm (List.getElem?_eq_getElem h1)
  have hnd : ND (l[i] :: l') := by
    unfold ND
    rw [← (h4.map (fun e : Entry => e.1.node)).nodup_iff]; exact h
  refine ⟨l', by simp only [removeEntry, hi, Option.bind_eq_bind, Option.bind_some]; exact h3, (List.nodup_cons.1 hnd).2, ?_⟩
  intro u
  have hnd' : ND l' := (List.nodup_cons.1 hnd).2
  by_cases hu : u = v
  · rw [if_pos hu, look_none, hu, h2]
    exact (List.nodup_cons.1 hnd).1
  · rw [if_neg hu]
    apply Option.ext
    intro x
    rw [← mem_look h, ← mem_look hnd']
    constructor
    · rintro ⟨m, hm⟩
      exact ⟨m, h4.mem_iff.2 (List.mem_cons_of_mem _ hm)⟩
    · rintro ⟨m, hm⟩
      rcases List.mem_cons.1 (h4.mem_iff.1 hm) with he | he
      · exfalso; apply hu; rw [h2, ← he]
      · exact ⟨m, he⟩

/-! ### all nodes -/

/-- The lists of the nodes from `k` on, as matrices of weights. -/
structure St (n k : Nat) (nodes : List CNode) (O I : Nat → Nat → Option Nat) : Prop where
  len : nodes.length = n
  at_ : ∀ u, k ≤ u → u < n → ∃ nd, nodes[u]? = some nd ∧ ND nd.out ∧ ND nd.inc ∧ (∀ v, look nd.out v = O u v) ∧ (∀ v, look nd.inc v = I u v)

theorem St.congr {n k : Nat} {nodes : List CNode} {O I O' I' : Nat → Nat → Option Nat} (h : St n k nodes O I)
    (hO : ∀ u v, k ≤ u → u < n → O u v = O' u v) (hI : ∀ u v, k ≤ u → u < n → I u v = I' u v) : St n k nodes O' I' := by
  refine ⟨h.len, ?_⟩
  intro u hu hun
  obtain ⟨nd, h1, h2, h3, h4, h5⟩ := h.at_ u hu hun
  exact ⟨nd, h1, h2, h3, fun v => by rw [h4, hO u v hu hun], fun v => by rw [h5, hI u v hu hun]⟩

theorem St.mono {n k k' : Nat} {nodes : List CNode} {O I : Nat → Nat → Option Nat} (h : St n k nodes O I) (hk : k ≤ k') : St n k' nodes O I :=
  ⟨h.len, fun u hu hun => h.at_ u (by omega) hun⟩

theorem onNode_out {n k : Nat} {nodes : List CNode} {O I : Nat → Nat → Option Nat} (h : St n k nodes O I) {x : Nat} (hx : k ≤ x) (hxn : x < n)
    {f : CNode → Option CNode} {g : Nat → Option Nat}
    (hf : ∀ nd, ND nd.out → (∀ v, look nd.out v = O x v) → ∃ o, f nd = some { nd with out := o } ∧ ND o ∧ ∀ v, look o v = g v) :
    ∃ nodes', onNode k nodes x f = some nodes' ∧ St n k nodes' (fun u v => if u = x then g v else O u v) I ∧
      ∀ u : Nat, u ≠ x → nodes'[u]? = nodes[u]? := by
  obtain ⟨nd, h1, h2, h3, h4, h5⟩ := h.at_ x hx hxn
  obtain ⟨o, g1, g2, g3⟩ := hf nd h2 h4
  have e : k + (x - k) = x := by omega
  have hlt : x < nodes.length := by rw [h.len]; exact hxn
  refine ⟨nodes.set x { nd with out := o }, ?_, ⟨by simp [h.len], ?_⟩, fun u hu => List.getElem?_set_ne (Ne.symm hu)⟩
  · simp only [onNode, idSub, if_pos hx, Option.bind_eq_bind, Option.bind_some, e, h1, g1]
    exact upd_of_lt _ hlt
  · intro u hu hun
    by_cases hux : u = x
    · subst hux
      refine ⟨{ nd with out := o }, by simp [hlt], g2, h3, by simpa using g3, h5⟩
    · rw [List.getElem?_set_ne (Ne.symm hux)]
      obtain ⟨nd', k1, k2, k3, k4, k5⟩ := h.at_ u hu hun
      exact ⟨nd', k1, k2, k3, fun v => by rw [k4, if_neg hux], k5⟩

theorem onNode_inc {n k : Nat} {nodes : List CNode} {O I : Nat → Nat → Option Nat} (h : St n k nodes O I) {x : Nat} (hx : k ≤ x) (hxn : x < n)
    {f : CNode → Option CNode} {g : Nat → Option Nat}
    (hf : ∀ nd, ND nd.inc → (∀ v, look nd.inc v = I x v) → ∃ o, f nd = some { nd with inc := o } ∧ ND o ∧ ∀ v, look o v = g v) :
    ∃ nodes', onNode k nodes x f = some nodes' ∧ St n k nodes' O (fun u v => if u = x then g v else I u v) ∧
      ∀ u : Nat, u ≠ x → nodes'[u]? = nodes[u]? := by
  obtain ⟨nd, h1, h2, h3, h4, h5⟩ := h.at_ x hx hxn
  obtain ⟨o, g1, g2, g3⟩ := hf nd h3 h5
  have e : k + (x - k) = x := by omega
  have hlt : x < nodes.length := by rw [h.len]; exact hxn
  refine ⟨nodes.set x { nd with inc := o }, ?_, ⟨by simp [h.len], ?_⟩, fun u hu => List.getElem?_set_ne (Ne.symm hu)⟩
  · simp only [onNode, idSub, if_pos hx, Option.bind_eq_bind, Option.bind_some, e, h1, g1]
    exact upd_of_lt _ hlt
  · intro u hu hun
    by_cases hux : u = x
    · subst hux
      refine ⟨{ nd with inc := o }, by simp [hlt], h2, g2, h4, by simpa using g3⟩
    · rw [List.getElem?_set_ne (Ne.symm hux)]
      obtain ⟨nd', k1, k2, k3, k4, k5⟩ := h.at_ u hu hun
      exact ⟨nd', k1, k2, k3, k4, fun v => by rw [k5, if_neg hux]⟩

/-- The two lists of all nodes describe the same arcs `W`. -/
structure Mir (n k : Nat) (nodes : List CNode) (W : Nat → Nat → Option Nat) : Prop where
  st : St n k nodes W (fun u v => W v u)
  dom : ∀ u v w, W u v = some w → k ≤ u ∧ k ≤ v ∧ u < n ∧ v < n ∧ u ≠ v

/-- `W` without the node `k`. -/
def drop (k : Nat) (W : Nat → Nat → Option Nat) (u v : Nat) : Option Nat := if u = k ∨ v = k then none else W u v

theorem nodes_split {E P Q : List Entry} {x : Entry} (h : ND E) (he : E = P ++ x :: Q) : x.1.node ∉ P.map (fun e => e.1.node) := by
  unfold ND at h
  rw [he, List.map_append, List.map_cons] at h
  have := List.nodup_append.1 h
  intro hx
  exact this.2.2 _ hx _ (by simp) rfl

/-- `remove_lowest` -/
theorem removeLowest_spec {n k : Nat} {nodes : List CNode} {W : Nat → Nat → Option Nat} (h : Mir n k nodes W) (hk : k < n) :
    ∃ nd nodes', nodes[k]? = some nd ∧ removeLowest k nodes = some (some (nd, nodes')) ∧ Mir n (k + 1) nodes' (drop k W) ∧
      ND nd.out ∧ ND nd.inc ∧ (∀ v, look nd.out v = W k v) ∧ (∀ v, look nd.inc v = W v k) ∧ ∀ u : Nat, u ≤ k → nodes'[u]? = nodes[u]? := by
  obtain ⟨nd, h1, h2, h3, h4, h5⟩ := h.st.at_ k (Nat.le_refl k) hk
  have hst := h.st.mono (Nat.le_succ k)
  -- the first loop
  obtain ⟨n1, g1, g2, g3⟩ := GraphOps.foldlM_inv (fun nodes (e : Entry) => onNode (k + 1) nodes e.1.node (fun nd => do
      let out ← removeEntry nd.out ((k + 1) - 1)
      return { nd with out := out }))
    (fun P s => St n (k + 1) s (fun u v => if v = k ∧ u ∈ P.map (fun e => e.1.node) then none else W u v) (fun u v => W v u) ∧
      ∀ u : Nat, u ≤ k → s[u]? = nodes[u]?) nd.inc (by
    rintro P x Q s he ⟨hs, hu⟩
    have hx : W x.1.node k = some x.1.weight := by rw [← h5]; exact look_mem h3 (by rw [he]; simp)
    obtain ⟨d1, _, d3, _, d5⟩ := h.dom _ _ _ hx
    have hnp := nodes_split h3 he
    obtain ⟨s', k1, k2, k3⟩ := onNode_out hs (x := x.1.node) (by omega) d3 (f := fun nd => do
        let out ← removeEntry nd.out ((k + 1) - 1)
        return { nd with out := out }) (g := fun v => if v = k then none else W x.1.node v) (by
      intro nd' m1 m2
      have hl : look nd'.out k = some x.1.weight := by rw [m2, if_neg (fun hc => hnp hc.2), hx]
      obtain ⟨o, p1, p2, p3⟩ := removeEntry_spec m1 hl
      refine ⟨o, by simp only [Nat.add_sub_cancel, p1, Option.bind_eq_bind, Option.bind_some, Option.pure_def], p2, ?_⟩
      intro v
      rw [p3]
      by_cases hv : v = k
      · rw [if_pos hv, if_pos hv]
      · rw [if_neg hv, if_neg hv, m2, if_neg (fun hc => hv hc.1)])
    refine ⟨s', k1, k2.congr ?_ (fun _ _ _ _ => rfl), ?_⟩
    · intro u v _ _
      by_cases hux : u = x.1.node
      · by_cases hv : v = k
        · rw [if_pos hux, if_pos hv, if_pos ⟨hv, by rw [hux]; simp⟩]
        · rw [if_pos hux, if_neg hv, if_neg (fun hc => hv hc.1), hux]
      · rw [if_neg hux]
        have : u ∈ (P ++ [x]).map (fun e => e.1.node) ↔ u ∈ P.map (fun e => e.1.node) := by
          rw [List.map_append, List.mem_append]; simp [hux]
        simp only [this]
    · intro u hu'
      rw [k3 u (by omega), hu u hu']) nodes ⟨hst.congr (by intro u v _ _; simp) (fun _ _ _ _ => rfl), fun _ _ => rfl⟩
  have g2' : St n (k + 1) n1 (fun u v => if v = k then none else W u v) (fun u v => W v u) := by
    refine g2.congr ?_ (fun _ _ _ _ => rfl)
    intro u v _ _
    by_cases hv : v = k
    · subst hv
      simp only [true_and, if_true]
      by_cases hm : u ∈ nd.inc.map (fun e => e.1.node)
      · rw [if_pos hm]
      · rw [if_neg hm, ← h5, look_none]; exact hm
    · simp [hv]
  -- the second loop
  obtain ⟨n2, e1, e2, e3⟩ := GraphOps.foldlM_inv (fun nodes (e : Entry) => onNode (k + 1) nodes e.1.node (fun nd => do
      let inc ← removeEntry nd.inc ((k + 1) - 1)
      return { nd with inc := inc }))
    (fun P s => St n (k + 1) s (fun u v => if v = k then none else W u v) (fun u v => if v = k ∧ u ∈ P.map (fun e => e.1.node) then none else W v u) ∧
      ∀ u : Nat, u ≤ k → s[u]? = nodes[u]?) nd.out (by
    rintro P x Q s he ⟨hs, hu⟩
    have hx : W k x.1.node = some x.1.weight := by rw [← h4]; exact look_mem h2 (by rw [he]; simp)
    obtain ⟨_, d1, _, d3, d5⟩ := h.dom _ _ _ hx
    have hnp := nodes_split h2 he
    obtain ⟨s', k1, k2, k3⟩ := onNode_inc hs (x := x.1.node) (by omega) d3 (f := fun nd => do
        let inc ← removeEntry nd.inc ((k + 1) - 1)
        return { nd with inc := inc }) (g := fun v => if v = k then none else W v x.1.node) (by
      intro nd' m1 m2
      have hl : look nd'.inc k = some x.1.weight := by rw [m2, if_neg (fun hc => hnp hc.2), hx]
      obtain ⟨o, p1, p2, p3⟩ := removeEntry_spec m1 hl
      refine ⟨o, by simp only [Nat.add_sub_cancel, p1, Option.bind_eq_bind, Option.bind_some, Option.pure_def], p2, ?_⟩
      intro v
      rw [p3]
      by_cases hv : v = k
      · rw [if_pos hv, if_pos hv]
      · rw [if_neg hv, if_neg hv, m2, if_neg (fun hc => hv hc.1)])
    refine ⟨s', k1, k2.congr (fun _ _ _ _ => rfl) ?_, ?_⟩
    · intro u v _ _
      by_cases hux : u = x.1.node
      · by_cases hv : v = k
        · rw [if_pos hux, if_pos hv, if_pos ⟨hv, by rw [hux]; simp⟩]
        · rw [if_pos hux, if_neg hv, if_neg (fun hc => hv hc.1), hux]
      · rw [if_neg hux]
        have : u ∈ (P ++ [x]).map (fun e => e.1.node) ↔ u ∈ P.map (fun e => e.1.node) := by
          rw [List.map_append, List.mem_append]; simp [hux]
        simp only [this]
    · intro u hu'
      rw [k3 u (by omega), hu u hu']) n1 ⟨g2'.congr (fun _ _ _ _ => rfl) (by intro u v _ _; simp), g3⟩
  refine ⟨nd, n2, h1, ?_, ⟨e2.congr ?_ ?_, ?_⟩, h2, h3, h4, h5, e3⟩
  · have e : removeEdges (k + 1) nd nodes = some n2 := by
      unfold removeEdges
      rw [g1]
      exact e1
    simp only [removeLowest, h1, e]
    rfl
  · intro u v hu _
    have : u ≠ k := by omega
    simp [drop, this]
  · intro u v hu _
    have : u ≠ k := by omega
    simp only [drop, this, or_false]
    by_cases hv : v = k
    · subst hv
      simp only [true_and, if_true]
      by_cases hm : u ∈ nd.out.map (fun e => e.1.node)
      · rw [if_pos hm]
      · rw [if_neg hm, ← h4, look_none]; exact hm
    · simp [hv]
  · intro u v w hw
    unfold drop at hw
    split at hw
    · simp at hw
    · obtain ⟨a, b, c, d, e⟩ := h.dom u v w hw
      exact ⟨by omega, by omega, c, d, e⟩

/-- `W` after a shortcut was inserted. -/
def ins (W : Nat → Nat → Option Nat) (a b w : Nat) (u v : Nat) : Option Nat :=
  if u = a ∧ v = b then some (better (W a b) w) else W u v

theorem insertShortcut_spec {n k : Nat} {nodes : List CNode} {W : Nat → Nat → Option Nat} (h : Mir n k nodes W) {a b w o : Nat}
    (ha : k ≤ a) (han : a < n) (hb : k ≤ b) (hbn : b < n) (hab : a ≠ b) :
    ∃ nodes', insertShortcut k nodes a b w o = some nodes' ∧ Mir n k nodes' (ins W a b w) ∧ ∀ u : Nat, u < k → nodes'[u]? = nodes[u]? := by
  obtain ⟨nd, h1, h2, h3, h4, h5⟩ := h.st.at_ a ha han
  obtain ⟨nd', g1, g2, g3, g4, g5⟩ := h.st.at_ b hb hbn
  have ea : k + (a - k) = a := by omega
  have eb : k + (b - k) = b := by omega
  have hla : a < nodes.length := by rw [h.st.len]; exact han
  have hlb : b < nodes.length := by rw [h.st.len]; exact hbn
  obtain ⟨i1, i2, i3, i4⟩ := insert_look nd.out b w o
  obtain ⟨j1, j2, j3, j4⟩ := insert_look nd'.inc a w o
  have hs : (insertOrDecrease nd.out b w o).2 = (insertOrDecrease nd'.inc a w o).2 := by rw [i2, j2, h4, g5]
  refine ⟨(nodes.set a { nd with out := (insertOrDecrease nd.out b w o).1 }).set b { nd' with inc := (insertOrDecrease nd'.inc a w o).1 }, ?_, ?_, ?_⟩
  · have hb2 : (nodes.set a { nd with out := (insertOrDecrease nd.out b w o).1 })[b]? = some nd' := by
      rw [List.getElem?_set_ne hab]; exact g1
    simp only [insertShortcut, idSub, if_pos ha, if_pos hb, Option.bind_eq_bind, Option.bind_some, ea, eb, h1, upd_of_lt _ hla, hb2,
      upd_of_lt _ (show b < (nodes.set a { nd with out := (insertOrDecrease nd.out b w o).1 }).length by simp; exact hlb), hs, if_true]
    rfl
  · refine ⟨⟨by simp [h.st.len], ?_⟩, ?_⟩
    · intro u hu hun
      by_cases hub : u = b
      · subst hub
        refine ⟨{ nd' with inc := (insertOrDecrease nd'.inc a w o).1 }, by simp [hlb], g2, j3 g3, ?_, ?_⟩
        · intro v
          simp only [g4, ins]
          rw [if_neg (fun hc => hab hc.1.symm)]
        · intro v
          simp only [j1, ins, g5]
          by_cases hva : v = a
          · simp [hva]
          · simp [hva]
      · rw [List.getElem?_set_ne (Ne.symm hub)]
        by_cases hua : u = a
        · subst hua
          refine ⟨{ nd with out := (insertOrDecrease nd.out b w o).1 }, by simp [hla], i3 h2, h3, ?_, ?_⟩
          · intro v
            simp only [i1, ins, h4]
            by_cases hvb : v = b
            · simp [hvb]
            · simp [hvb]
          · intro v
            simp only [h5, ins]
            rw [if_neg (fun hc => hub hc.2)]
        · rw [List.getElem?_set_ne (Ne.symm hua)]
          obtain ⟨m, k1, k2, k3, k4, k5⟩ := h.st.at_ u hu hun
          refine ⟨m, k1, k2, k3, ?_, ?_⟩
          · intro v; rw [k4]; simp only [ins]; rw [if_neg (fun hc => hua hc.1)]
          · intro v; rw [k5]; simp only [ins]; rw [if_neg (fun hc => hub hc.2)]
    · intro u v x hx
      unfold ins at hx
      split at hx
      · rename_i hc
        obtain ⟨rfl, rfl⟩ := hc
        exact ⟨ha, hb, han, hbn, hab⟩
      · exact h.dom u v x hx
  · intro u hu
    rw [List.getElem?_set_ne (by omega), List.getElem?_set_ne (by omega)]

end CH
end Verif
