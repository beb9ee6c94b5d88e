import Verif.Proof.Topocore
import Mathlib.Data.List.Nodup
import Mathlib.Data.List.Perm.Subperm
set_option linter.unusedSimpArgs false
set_option linter.unusedVariables false
/- Proofs about `virtual_topocore` (C58). -/
namespace Verif.Topo

theorem sum_change {h h' : Nat → Nat} {v : Nat} : ∀ {l : List Nat}, l.Nodup → v ∈ l → (∀ x ∈ l, x ≠ v → h x = h' x) →
    (l.map h).sum + h' v = (l.map h').sum + h v
  | [], _, hv, _ => absurd hv (by simp)
  | x :: l, hn, hv, he => by
    simp only [List.nodup_cons] at hn
    simp only [List.map_cons, List.sum_cons]
    by_cases hx : x = v
    · subst hx
      have : l.map h = l.map h' := List.map_congr_left (fun y hy => he y (by simp [hy]) (fun h => hn.1 (h ▸ hy)))
      rw [this]; omega
    · have := sum_change hn.2 (by simpa [show v ≠ x from fun h => hx h.symm] using hv) (fun y hy => he y (by simp [hy]))
      rw [he x (by simp) hx]; omega

theorem sum_le {h h' : Nat → Nat} : ∀ {l : List Nat}, (∀ x ∈ l, h x ≤ h' x) → (l.map h).sum ≤ (l.map h').sum
  | [], _ => Nat.le_refl _
  | x :: l, he => by
    simp only [List.map_cons, List.sum_cons]
    exact Nat.add_le_add (he x (by simp)) (sum_le (fun y hy => he y (by simp [hy])))

/-- what `links` of an existing graph with `n` nodes provides -/
structure HeadsOK (n : Nat) (heads : Nat → Option (List Nat)) (f : Nat → List Nat) : Prop where
  eq : ∀ v, v < n → heads v = some (f v)
  lt : ∀ v, v < n → ∀ x ∈ f v, x < n

/-! ### Depth first search -/

structure DfsInv (n : Nat) (vis : List Bool) (ord : List Nat) : Prop where
  len : vis.length = n
  nodup : ord.Nodup
  mem : ∀ v, v ∈ ord ↔ vis[v]? = some true

/-- the number of links of nodes not yet visited -/
def dfsCost (n : Nat) (f : Nat → List Nat) (vis : List Bool) : Nat := ((List.range n).map (fun v => if vis[v]? = some true then 0 else (f v).length)).sum

theorem dfsLoop_spec {n : Nat} {heads : Nat → Option (List Nat)} {f : Nat → List Nat} (hh : HeadsOK n heads f) :
    ∀ (fuel : Nat) (vis : List Bool) (ord stack : List Nat), DfsInv n vis ord → (∀ x ∈ stack, x < n) → stack.length + dfsCost n f vis < fuel →
      ∃ vis' ord', dfsLoop heads fuel vis ord stack = some (vis', ord') ∧ DfsInv n vis' ord' ∧ (∀ v : Nat, vis[v]? = some true → vis'[v]? = some true) ∧
        ∀ x ∈ stack, vis'[x]? = some true := by
  intro fuel
  induction fuel with
  | zero => intro _ _ _ _ _ h; omega
  | succ fuel ih =>
    intro vis ord stack hi hs hf
    match stack with
    | [] => exact ⟨vis, ord, by rw [dfsLoop], hi, fun _ h => h, by simp⟩
    | v :: stack =>
      have hv : v < n := hs v (by simp)
      have hvl : v < vis.length := by rw [hi.len]; exact hv
      have hb : vis[v]? = some vis[v] := List.getElem?_eq_getElem hvl
      rw [dfsLoop]
      simp only [hb, Option.bind_eq_bind, Option.bind_some]
      cases hvis : vis[v] with
      | true =>
        rw [if_pos rfl]
        simp only [List.length_cons] at hf
        obtain ⟨vis', ord', h1, h2, h3, h4⟩ := ih vis ord stack hi (fun x hx => hs x (by simp [hx])) (by omega)
        refine ⟨vis', ord', h1, h2, h3, ?_⟩
        intro x hx
        rcases List.mem_cons.1 hx with rfl | hx
        · exact h3 _ (by rw [hb, hvis])
        · exact h4 x hx
      | false =>
        rw [if_neg (by simp)]
        have hupd : upd vis v true = some (vis.set v true) := upd_of_lt _ (by rw [hi.len]; exact hv)
        simp only [hupd, hh.eq v hv, Option.bind_some]
        have hlen' : (vis.set v true).length = n := by simp [hi.len]
        have hfil := filterM_some (p := fun h => (vis.set v true)[h]?.bind (fun b => pure (!b))) (q := fun h => !((vis.set v true).getD h true)) (l := f v)
          (fun x hx => by
            have : x < (vis.set v true).length := by rw [hlen']; exact hh.lt v hv x hx
            simp [List.getElem?_eq_getElem this, List.getD_eq_getElem?_getD])
        rw [hfil]
        simp only [Option.bind_some]
        have hset : ∀ x, (vis.set v true)[x]? = some true ↔ x = v ∨ vis[x]? = some true := by
          intro x
          rw [List.getElem?_set]
          by_cases hx : v = x
          · subst hx; simp [hi.len, hv]
          · simp [hx, show x ≠ v from fun h => hx h.symm]
        have hi' : DfsInv n (vis.set v true) (ord ++ [v]) := by
          refine ⟨hlen', ?_, ?_⟩
          · rw [List.nodup_append]
            refine ⟨hi.nodup, by simp, ?_⟩
            intro a ha b hb' hab
            simp at hb'; subst hb'; subst hab
            rw [hi.mem, hb, hvis] at ha; simp at ha
          · intro x
            rw [hset, ← hi.mem]; simp [or_comm]
        have hcost : dfsCost n f (vis.set v true) + (f v).length = dfsCost n f vis := by
          have := sum_change (h := fun v => if vis[v]? = some true then 0 else (f v).length)
            (h' := fun x => if (vis.set v true)[x]? = some true then 0 else (f x).length) (v := v) (l := List.range n) List.nodup_range (by simpa using hv)
            (by intro x _ hx; simp only [hset, hx, false_or])
          simp only [hset, true_or, if_true, hb, hvis] at this
          unfold dfsCost
          simp only [hset]
          simp at this ⊢
          omega
        have hfl : ((f v).filter (fun h => !((vis.set v true).getD h true))).length ≤ (f v).length := List.length_filter_le _ _
        obtain ⟨vis', ord', h1, h2, h3, h4⟩ := ih (vis.set v true) (ord ++ [v]) (((f v).filter (fun h => !((vis.set v true).getD h true))).reverse ++ stack) hi'
          (by
            intro x hx
            simp only [List.mem_append, List.mem_reverse, List.mem_filter] at hx
            rcases hx with ⟨hx, _⟩ | hx
            · exact hh.lt v hv x hx
            · exact hs x (by simp [hx]))
          (by simp only [List.length_append, List.length_reverse, List.length_cons] at hf ⊢; omega)
        refine ⟨vis', ord', h1, h2, fun x hx => h3 x ((hset x).2 (Or.inr hx)), ?_⟩
        intro x hx
        rcases List.mem_cons.1 hx with rfl | hx
        · exact h3 _ ((hset _).2 (Or.inl rfl))
        · exact h4 x (by simp [hx])

theorem dfs_spec {n m : Nat} {heads : Nat → Option (List Nat)} {f : Nat → List Nat} (hh : HeadsOK n heads f)
    (hm : ((List.range n).map (fun v => (f v).length)).sum ≤ m) : ∃ ord, dfs n m heads = some ord ∧ ord.Perm (List.range n) := by
  have hcost : ∀ vis, dfsCost n f vis ≤ m := by
    intro vis
    refine Nat.le_trans (sum_le ?_) hm
    intro x _
    split <;> omega
  obtain ⟨⟨vis, ord⟩, h1, h2, h3⟩ := GraphOps.foldlM_inv (fun (st : List Bool × List Nat) node => do
    if ← st.1[node]? then dfsLoop heads (m + 2) st.1 st.2 []
    else dfsLoop heads (m + 2) st.1 st.2 [node]) (fun P st => DfsInv n st.1 st.2 ∧ ∀ v ∈ P, st.1[v]? = some true) (List.range n) (by
      rintro P x Q ⟨vis, ord⟩ hE ⟨hi, hP⟩
      simp only at hi hP
      have hx : x < n := by
        have : x ∈ List.range n := by rw [hE]; simp
        simpa using this
      have hxl : x < vis.length := by rw [hi.len]; exact hx
      have hb : vis[x]? = some vis[x] := List.getElem?_eq_getElem hxl
      simp only [hb, Option.bind_eq_bind, Option.bind_some]
      have hc := hcost vis
      cases hvis : vis[x] with
      | true =>
        obtain ⟨vis', ord', h1, h2, h3, _⟩ := dfsLoop_spec hh (m + 2) vis ord [] hi (by simp) (by simp; omega)
        refine ⟨(vis', ord'), by simpa using h1, h2, ?_⟩
        intro v hv
        simp only [List.mem_append, List.mem_singleton] at hv
        rcases hv with hv | rfl
        · exact h3 v (hP v hv)
        · exact h3 _ (by rw [hb, hvis])
      | false =>
        obtain ⟨vis', ord', h1, h2, h3, h4⟩ := dfsLoop_spec hh (m + 2) vis ord [x] hi (by simpa using hx) (by simp; omega)
        refine ⟨(vis', ord'), by simpa using h1, h2, ?_⟩
        intro v hv
        simp only [List.mem_append, List.mem_singleton] at hv
        rcases hv with hv | rfl
        · exact h3 v (hP v hv)
        · exact h4 _ (by simp)) (List.replicate n false, []) ⟨⟨by simp, by simp, by
        intro v
        simp only [List.not_mem_nil, false_iff]
        rw [List.getElem?_replicate]; split <;> simp⟩, by simp⟩
  refine ⟨ord, by simp only [dfs]; simp only [Option.bind_eq_bind] at h1 ⊢; rw [h1]; rfl, ?_⟩
  rw [List.perm_ext_iff_of_nodup h2.nodup List.nodup_range]
  intro v
  rw [h2.mem]
  constructor
  · intro h
    have := (List.getElem?_eq_some_iff.1 h).1
    simp only at this
    rw [h2.len] at this; simpa using this
  · intro h; exact h3 v h

/-! ### Biconnected components: the search never panics and finds something -/

def Numd (st : Bicon) (v : Nat) : Prop := ∃ k, st.num[v]? = some (some k)

structure BInv (n : Nat) (st : Bicon) : Prop where
  num : st.num.length = n
  low : st.low.length = n
  parent : st.parent.length = n
  stk : ∀ p ∈ st.stack, p.1 < n ∧ ∀ x ∈ p.2, x < n
  par : ∀ p ∈ st.stack, ∃ v, st.parent[p.1]? = some v ∧ (v = p.1 ∨ Numd st v)
  below : ∀ p ∈ st.stack.tail, Numd st p.1
  edg : ∀ e ∈ st.edges, Numd st e.1 ∧ e.2 < n
  cmp : ∀ c ∈ st.comps, ∀ e ∈ c, e.1 < n ∧ e.2 < n
  first : st.comps ≠ [] ∨ ((∃ p ∈ st.stack, p.1 = 0) ∧ st.parent[0]? = some 0 ∧ (st.num[0]? = some (some 0) ∨ st.num[0]? = some none ∧ st.counter = 0))

/-- the rounds left -/
def bcost (n : Nat) (f : Nat → List Nat) (st : Bicon) : Nat :=
  (st.stack.map (fun p => 1 + p.2.length)).sum +
    ((List.range n).map (fun v => if st.num[v]? = some none ∧ v ∉ st.stack.map Prod.fst then 1 + (f v).length else 0)).sum

theorem Numd.lt {n : Nat} {st : Bicon} (h : st.num.length = n) {v : Nat} (hv : Numd st v) : v < n := by
  obtain ⟨k, hk⟩ := hv
  have := (List.getElem?_eq_some_iff.1 hk).1
  omega

theorem number_spec {n : Nat} {f : Nat → List Nat} {st : Bicon} (h : BInv n st) {node : Nat} {ls : List Nat} {stack : List (Nat × List Nat)}
    (hst : st.stack = (node, ls) :: stack) :
    ∃ st', st.number node = some st' ∧ BInv n st' ∧ st'.stack = st.stack ∧ Numd st' node ∧ bcost n f st' = bcost n f st := by
  have hn : node < n := (h.stk (node, ls) (by simp [hst])).1
  have hnl : node < st.num.length := by rw [h.num]; exact hn
  have hnum : st.num[node]? = some st.num[node] := List.getElem?_eq_getElem hnl
  unfold Bicon.number
  simp only [hnum, Option.bind_eq_bind, Option.bind_some, Option.pure_def]
  cases hv : st.num[node] with
  | some k => exact ⟨st, rfl, h, rfl, ⟨k, by rw [hnum, hv]⟩, rfl⟩
  | none =>
    have hu1 : upd st.low node st.counter = some (st.low.set node st.counter) := upd_of_lt _ (by rw [h.low]; exact hn)
    have hu2 : upd st.num node (some st.counter) = some (st.num.set node (some st.counter)) := upd_of_lt _ hnl
    simp only [hu1, hu2, Option.bind_some]
    have hset : ∀ (v k : Nat), st.num[v]? = some (some k) → (st.num.set node (some st.counter))[v]? = some (some k) := by
      intro v k hk
      rw [List.getElem?_set]
      by_cases hx : node = v
      · subst hx; rw [hnum, hv] at hk; simp at hk
      · simp [hx, hk]
    have hself : (st.num.set node (some st.counter))[node]? = some (some st.counter) := by simp [hnl]
    refine ⟨_, rfl, ⟨by simp [h.num], by simp [h.low], h.parent, h.stk, ?_, ?_, ?_, h.cmp, ?_⟩, rfl, ⟨st.counter, hself⟩, ?_⟩
    · intro p hp
      obtain ⟨v, h1, h2⟩ := h.par p hp
      exact ⟨v, h1, h2.imp_right (fun ⟨k, hk⟩ => ⟨k, hset v k hk⟩)⟩
    · intro p hp
      obtain ⟨k, hk⟩ := h.below p hp
      exact ⟨k, hset _ k hk⟩
    · intro e he
      obtain ⟨⟨k, hk⟩, h2⟩ := h.edg e he
      exact ⟨⟨k, hset _ k hk⟩, h2⟩
    · rcases h.first with h1 | ⟨h1, h2, h3⟩
      · exact Or.inl h1
      · refine Or.inr ⟨h1, h2, ?_⟩
        rcases h3 with h3 | ⟨h3, h4⟩
        · exact Or.inl (hset _ _ h3)
        · obtain ⟨p, hp, hp0⟩ := h1
          rw [hst] at hp
          rcases List.mem_cons.1 hp with rfl | hp
          · simp only at hp0
            subst hp0
            exact Or.inl (by rw [h4] at hself; simp only [h4]; exact hself)
          · obtain ⟨k, hk⟩ := h.below p (by rw [hst]; exact hp)
            rw [hp0, h3] at hk; simp at hk
    · unfold bcost
      simp only
      congr 2
      apply List.map_congr_left
      intro v _
      by_cases hx : v = node
      · subst hx; simp [hst]
      · rw [List.getElem?_set_ne (fun h => hx h.symm)]

theorem popEdges_spec {num : List (Option Nat)} {k : Nat} (es : List (Nat × Nat)) : ∀ comp, (∀ e ∈ es, ∃ x, num[e.1]? = some (some x)) →
    ∃ c r, popEdges num k comp es = some (c, r) ∧ (∀ e ∈ r, e ∈ es) ∧ ∀ e ∈ c, e ∈ comp ∨ e ∈ es := by
  induction es with
  | nil => intro comp _; exact ⟨comp, [], by rw [popEdges], by simp, fun e he => Or.inl he⟩
  | cons e es ih =>
    intro comp h
    obtain ⟨x, hx⟩ := h e (by simp)
    rw [popEdges]
    simp only [hx, Option.bind_eq_bind, Option.bind_some]
    by_cases hk : x ≥ k
    · rw [if_pos hk]
      obtain ⟨c, r, h1, h2, h3⟩ := ih (comp ++ [e]) (fun e' he' => h e' (by simp [he']))
      refine ⟨c, r, h1, fun e' he' => by simp [h2 e' he'], ?_⟩
      intro e' he'
      rcases h3 e' he' with h4 | h4
      · simp only [List.mem_append, List.mem_singleton] at h4
        rcases h4 with h4 | rfl
        · exact Or.inl h4
        · exact Or.inr (by simp)
      · exact Or.inr (by simp [h4])
    · rw [if_neg hk]
      exact ⟨comp, e :: es, rfl, fun e' he' => he', fun e' he' => Or.inl he'⟩

theorem finish_spec {n : Nat} {f : Nat → List Nat} {st : Bicon} (h : BInv n st) {w : Nat} {stack : List (Nat × List Nat)}
    (hst : st.stack = (w, []) :: stack) (hw : Numd st w) :
    ∃ st', st.finish w stack = some st' ∧ BInv n st' ∧ bcost n f st' < bcost n f st := by
  obtain ⟨v, hpar, hv⟩ := h.par (w, []) (by simp [hst])
  simp only at hpar hv
  have hvn : Numd st v := by
    rcases hv with rfl | hv
    · exact hw
    · exact hv
  have hvlt := hvn.lt h.num
  have hwlt := hw.lt h.num
  have hlv : st.low[v]? = some (st.low.getD v 0) := by
    rw [List.getD_eq_getElem?_getD, List.getElem?_eq_getElem (by rw [h.low]; exact hvlt)]; rfl
  have hlw : st.low[w]? = some (st.low.getD w 0) := by
    rw [List.getD_eq_getElem?_getD, List.getElem?_eq_getElem (by rw [h.low]; exact hwlt)]; rfl
  have hu : ∀ z, upd st.low v z = some (st.low.set v z) := fun z => upd_of_lt _ (by rw [h.low]; exact hvlt)
  have hlw' : ∀ z, ∃ y, (st.low.set v z)[w]? = some y := fun z => ⟨_, List.getElem?_eq_getElem (by simp [h.low, hwlt])⟩
  obtain ⟨y, hy⟩ := hlw' (min (st.low.getD v 0) (st.low.getD w 0))
  obtain ⟨nv, hnv⟩ := hvn
  obtain ⟨nw, hnw⟩ := hw
  have hmem : ∀ p ∈ stack, p ∈ st.stack := fun p hp => by rw [hst]; simp [hp]
  have hcost : ∀ (st' : Bicon), st'.stack = stack → st'.num = st.num → bcost n f st' < bcost n f st := by
    intro st' h1 h2
    unfold bcost
    rw [h1, h2, hst]
    have : (List.range n).map (fun v => if st.num[v]? = some none ∧ v ∉ stack.map Prod.fst then 1 + (f v).length else 0) =
        (List.range n).map (fun v => if st.num[v]? = some none ∧ v ∉ ((w, ([] : List Nat)) :: stack).map Prod.fst then 1 + (f v).length else 0) := by
      apply List.map_congr_left
      intro u _
      by_cases hu : u = w
      · subst hu; simp [hnw]
      · simp only [List.map_cons, List.mem_cons, hu, false_or]
    rw [this]
    simp
  have hpar' : ∀ p ∈ stack, ∃ v, st.parent[p.1]? = some v ∧ (v = p.1 ∨ Numd st v) := fun p hp => h.par p (hmem p hp)
  have hbelow' : ∀ p ∈ stack.tail, Numd st p.1 := fun p hp => h.below p (by rw [hst]; exact List.mem_of_mem_tail hp)
  unfold Bicon.finish
  simp only [hpar, hlv, hlw, hu, hy, hnv, hnw, Option.bind_eq_bind, Option.bind_some, Option.pure_def]
  by_cases hge : y ≥ nv
  · rw [if_pos hge]
    obtain ⟨c, r, h1, h2, h3⟩ := popEdges_spec (num := st.num) (k := nw) st.edges [] (fun e he => (h.edg e he).1)
    simp only [h1, Option.bind_some]
    have hc : ∀ e ∈ c, e.1 < n ∧ e.2 < n := by
      intro e he
      rcases h3 e he with h4 | h4
      · simp at h4
      · exact ⟨(h.edg e h4).1.lt h.num, (h.edg e h4).2⟩
    cases r with
    | nil =>
      refine ⟨_, rfl, ⟨h.num, by simp [h.low], h.parent, fun p hp => h.stk p (hmem p hp), hpar', hbelow', by simp, ?_, ?_⟩, hcost _ rfl rfl⟩
      · intro c' hc' e he
        simp only [List.mem_append, List.mem_singleton] at hc'
        rcases hc' with hc' | rfl
        · exact h.cmp c' hc' e he
        · exact hc e he
      · exact Or.inl (by simp)
    | cons e0 r =>
      refine ⟨_, rfl, ⟨h.num, by simp [h.low], h.parent, fun p hp => h.stk p (hmem p hp), hpar', hbelow', fun e he => h.edg e (h2 e (by simp [he])), ?_, ?_⟩, hcost _ rfl rfl⟩
      · intro c' hc' e he
        simp only [List.mem_append, List.mem_singleton] at hc'
        rcases hc' with hc' | rfl
        · exact h.cmp c' hc' e he
        · simp only [List.mem_append, List.mem_singleton] at he
          rcases he with he | rfl
          · exact hc e he
          · have := h.edg e (h2 e (by simp))
            exact ⟨this.1.lt h.num, this.2⟩
      · exact Or.inl (by simp)
  · rw [if_neg hge]
    refine ⟨_, rfl, ⟨h.num, by simp [h.low], h.parent, fun p hp => h.stk p (hmem p hp), hpar', hbelow', h.edg, h.cmp, ?_⟩, hcost _ rfl rfl⟩
    rcases h.first with h1 | ⟨⟨p, hp, hp0⟩, h2, h3⟩
    · exact Or.inl h1
    · refine Or.inr ⟨?_, h2, h3⟩
      rw [hst] at hp
      rcases List.mem_cons.1 hp with rfl | hp
      · have hp0 : w = 0 := hp0
        subst hp0
        rw [h2] at hpar; injection hpar with hpar; subst hpar
        rw [hnv] at h3
        simp at h3
        omega
      · exact ⟨p, hp, hp0⟩

theorem neighbor_spec {n : Nat} {links : Nat → Option (List Nat)} {f : Nat → List Nat} (hh : HeadsOK n links f) {st : Bicon} (h : BInv n st) {node x : Nat}
    {rest : List Nat} {stack : List (Nat × List Nat)} (hst : st.stack = (node, x :: rest) :: stack) (hnode : Numd st node) :
    ∃ st', st.neighbor links node x rest stack = some st' ∧ BInv n st' ∧ bcost n f st' < bcost n f st := by
  obtain ⟨hn, hrest⟩ := h.stk (node, x :: rest) (by simp [hst])
  simp only at hn hrest
  have hx : x < n := hrest x (by simp)
  have hxl : x < st.num.length := by rw [h.num]; exact hx
  have hnum : st.num[x]? = some st.num[x] := List.getElem?_eq_getElem hxl
  have hstk' : ∀ p ∈ (node, rest) :: stack, p.1 < n ∧ ∀ y ∈ p.2, y < n := by
    intro p hp
    rcases List.mem_cons.1 hp with rfl | hp
    · exact ⟨hn, fun y hy => hrest y (by simp [hy])⟩
    · exact h.stk p (by rw [hst]; simp [hp])
  have hpar' : ∀ p ∈ (node, rest) :: stack, ∃ v, st.parent[p.1]? = some v ∧ (v = p.1 ∨ Numd st v) := by
    intro p hp
    rcases List.mem_cons.1 hp with rfl | hp
    · exact h.par (node, x :: rest) (by simp [hst])
    · exact h.par p (by rw [hst]; simp [hp])
  have hbelow' : ∀ p ∈ stack, Numd st p.1 := fun p hp => h.below p (by rw [hst]; exact hp)
  have hfirst' : st.comps ≠ [] ∨ ((∃ p ∈ (node, rest) :: stack, p.1 = 0) ∧ st.parent[0]? = some 0 ∧ (st.num[0]? = some (some 0) ∨ st.num[0]? = some none ∧ st.counter = 0)) := by
    rcases h.first with h1 | ⟨⟨p, hp, hp0⟩, h2, h3⟩
    · exact Or.inl h1
    · refine Or.inr ⟨?_, h2, h3⟩
      rw [hst] at hp
      rcases List.mem_cons.1 hp with rfl | hp
      · exact ⟨(node, rest), by simp, hp0⟩
      · exact ⟨p, by simp [hp], hp0⟩
  have hcost : ∀ (st' : Bicon), st'.stack = (node, rest) :: stack → st'.num = st.num → bcost n f st' < bcost n f st := by
    intro st' h1 h2
    unfold bcost
    rw [h1, h2, hst]
    simp only [List.map_cons, List.sum_cons, List.length_cons]
    omega
  unfold Bicon.neighbor
  simp only [hnum, Option.bind_eq_bind, Option.bind_some, Option.pure_def]
  obtain ⟨nn, hnn⟩ := hnode
  cases hv : st.num[x] with
  | some nx =>
    obtain ⟨par, hpar, _⟩ := h.par (node, x :: rest) (by simp [hst])
    simp only at hpar
    simp only [hnn, hpar, Option.bind_some]
    by_cases hc : nx < nn ∧ x ≠ par
    · rw [if_pos hc]
      have hl : st.low[node]? = some (st.low.getD node 0) := by
        rw [List.getD_eq_getElem?_getD, List.getElem?_eq_getElem (by rw [h.low]; exact hn)]; rfl
      have hu : ∀ z, upd st.low node z = some (st.low.set node z) := fun z => upd_of_lt _ (by rw [h.low]; exact hn)
      simp only [hl, hu, Option.bind_some]
      refine ⟨_, rfl, ⟨h.num, by simp [h.low], h.parent, hstk', hpar', hbelow', ?_, h.cmp, hfirst'⟩, hcost _ rfl rfl⟩
      intro e he
      rcases List.mem_cons.1 he with rfl | he
      · exact ⟨⟨nn, hnn⟩, hx⟩
      · exact h.edg e he
    · rw [if_neg hc]
      exact ⟨_, rfl, ⟨h.num, h.low, h.parent, hstk', hpar', hbelow', h.edg, h.cmp, hfirst'⟩, hcost _ rfl rfl⟩
  | none =>
    have hu : upd st.parent x node = some (st.parent.set x node) := upd_of_lt _ (by rw [h.parent]; exact hx)
    simp only [hu, hh.eq x hx, Option.bind_some]
    have hnx : st.num[x]? = some none := by rw [hnum, hv]
    refine ⟨_, rfl, ⟨h.num, h.low, by simp [h.parent], ?_, ?_, ?_, ?_, h.cmp, ?_⟩, ?_⟩
    · intro p hp
      rcases List.mem_cons.1 hp with rfl | hp
      · exact ⟨hx, hh.lt x hx⟩
      · exact hstk' p hp
    · intro p hp
      have hsx : (st.parent.set x node)[x]? = some node := by simp [h.parent, hx]
      rcases List.mem_cons.1 hp with rfl | hp
      · exact ⟨node, hsx, Or.inr ⟨nn, hnn⟩⟩
      · obtain ⟨v, h1, h2⟩ := hpar' p hp
        by_cases hpx : p.1 = x
        · exact ⟨node, by rw [hpx]; exact hsx, Or.inr ⟨nn, hnn⟩⟩
        · exact ⟨v, by simp only; rw [List.getElem?_set_ne (fun h => hpx h.symm)]; exact h1, h2⟩
    · intro p hp
      rcases List.mem_cons.1 hp with rfl | hp
      · exact ⟨nn, hnn⟩
      · exact hbelow' p hp
    · intro e he
      rcases List.mem_cons.1 he with rfl | he
      · exact ⟨⟨nn, hnn⟩, hx⟩
      · exact h.edg e he
    · rcases hfirst' with h1 | ⟨⟨p, hp, hp0⟩, h2, h3⟩
      · exact Or.inl h1
      · by_cases hx0 : x = 0
        · exfalso
          subst hx0
          have : Numd st 0 := by
            rw [← hp0]
            rcases List.mem_cons.1 hp with rfl | hp
            · exact ⟨nn, hnn⟩
            · exact hbelow' p hp
          obtain ⟨k, hk⟩ := this
          rw [hnx] at hk; simp at hk
        · refine Or.inr ⟨⟨p, by simp only [List.mem_cons] at hp ⊢; exact Or.inr hp, hp0⟩, ?_, h3⟩
          simp only
          rw [List.getElem?_set_ne hx0]; exact h2
    · have hxs : x ∉ ((node, x :: rest) :: stack).map Prod.fst := by
        intro hm
        simp only [List.map_cons, List.mem_cons, List.mem_map] at hm
        have : Numd st x := by
          rcases hm with rfl | ⟨p, hp, rfl⟩
          · exact ⟨nn, hnn⟩
          · exact hbelow' p hp
        obtain ⟨k, hk⟩ := this
        rw [hnx] at hk; simp at hk
      unfold bcost
      simp only [hst]
      have := sum_change (h := fun v => if st.num[v]? = some none ∧ v ∉ ((node, x :: rest) :: stack).map Prod.fst then 1 + (f v).length else 0)
        (h' := fun v => if st.num[v]? = some none ∧ v ∉ ((x, f x) :: (node, rest) :: stack).map Prod.fst then 1 + (f v).length else 0) (v := x)
        (l := List.range n) List.nodup_range (by simpa using hx) (by
          intro y _ hy
          simp only [List.map_cons, List.mem_cons, hy, false_or])
      have e1 : (if st.num[x]? = some none ∧ x ∉ ((node, x :: rest) :: stack).map Prod.fst then 1 + (f x).length else 0) = 1 + (f x).length := if_pos ⟨hnx, hxs⟩
      have e2 : (if st.num[x]? = some none ∧ x ∉ ((x, f x) :: (node, rest) :: stack).map Prod.fst then 1 + (f x).length else 0) = 0 := if_neg (by simp)
      rw [e1, e2] at this
      simp only [List.map_cons, List.sum_cons, List.length_cons] at this ⊢
      omega

theorem biconLoop_spec {n : Nat} {links : Nat → Option (List Nat)} {f : Nat → List Nat} (hh : HeadsOK n links f) :
    ∀ (fuel : Nat) (st : Bicon), BInv n st → bcost n f st < fuel → ∃ st', biconLoop links fuel st = some st' ∧ BInv n st' ∧ st'.stack = [] := by
  intro fuel
  induction fuel with
  | zero => intro _ _ h; omega
  | succ fuel ih =>
    intro st h hf
    rw [biconLoop]
    match hst : st.stack with
    | [] => exact ⟨st, rfl, h, hst⟩
    | (node, ls) :: stack =>
      obtain ⟨st1, h1, h2, h3, h4, h5⟩ := number_spec (f := f) h hst
      simp only [h1, Option.bind_eq_bind, Option.bind_some]
      match ls with
      | [] =>
        obtain ⟨st2, g1, g2, g3⟩ := finish_spec (f := f) h2 (w := node) (stack := stack) (by rw [h3]; exact hst) h4
        simp only [g1, Option.bind_some]
        exact ih st2 g2 (by omega)
      | x :: rest =>
        obtain ⟨st2, g1, g2, g3⟩ := neighbor_spec hh h2 (node := node) (x := x) (rest := rest) (stack := stack) (by rw [h3]; exact hst) h4
        simp only [g1, Option.bind_some]
        exact ih st2 g2 (by omega)

theorem biconnected_spec {n m : Nat} (hn : 0 < n) {links : Nat → Option (List Nat)} {f : Nat → List Nat} (hh : HeadsOK n links f)
    (hm : ((List.range n).map (fun v => (f v).length)).sum ≤ m) :
    ∃ comps, biconnected n m links = some comps ∧ comps ≠ [] ∧ ∀ c ∈ comps, ∀ e ∈ c, e.1 < n ∧ e.2 < n := by
  let init : Bicon := ⟨[], 0, List.replicate n none, List.replicate n 0, List.replicate n 0, [], []⟩
  obtain ⟨st, h1, h2⟩ := GraphOps.foldlM_inv (biconRoot links (n + m + 1))
    (fun P st => (P = [] ∧ st = init) ∨ (BInv n st ∧ st.stack = [])) (List.range n) (by
      intro P x Q st hE hi
      have hx : x < n := by
        have : x ∈ List.range n := by rw [hE]; simp
        simpa using this
      have hlen : st.num.length = n ∧ st.low.length = n ∧ st.parent.length = n ∧ st.stack = [] := by
        rcases hi with ⟨_, rfl⟩ | ⟨h, h'⟩
        · simp [init]
        · exact ⟨h.num, h.low, h.parent, h'⟩
      obtain ⟨l1, l2, l3, l4⟩ := hlen
      have hxl : x < st.num.length := by rw [l1]; exact hx
      have hnum : st.num[x]? = some st.num[x] := List.getElem?_eq_getElem hxl
      simp only [biconRoot, hnum, Option.bind_eq_bind, Option.bind_some, Option.pure_def]
      cases hv : st.num[x] with
      | some k =>
        refine ⟨st, rfl, ?_⟩
        rcases hi with ⟨_, rfl⟩ | h
        · simp [init] at hv
        · exact Or.inr h
      | none =>
        have hu : upd st.parent x x = some (st.parent.set x x) := upd_of_lt _ (by rw [l3]; exact hx)
        simp only [hu, hh.eq x hx, Option.bind_some]
        have hsx : (st.parent.set x x)[x]? = some x := by simp [l3, hx]
        have hb : BInv n { st with parent := st.parent.set x x, stack := [(x, f x)] } := by
          refine ⟨l1, l2, by simp [l3], ?_, ?_, by simp, ?_, ?_, ?_⟩
          · intro p hp
            simp only [List.mem_singleton] at hp; subst hp
            exact ⟨hx, hh.lt x hx⟩
          · intro p hp
            simp only [List.mem_singleton] at hp; subst hp
            exact ⟨x, hsx, Or.inl rfl⟩
          · rcases hi with ⟨_, rfl⟩ | ⟨h, _⟩
            · simp [init]
            · exact h.edg
          · rcases hi with ⟨_, rfl⟩ | ⟨h, _⟩
            · simp [init]
            · exact h.cmp
          · rcases hi with ⟨rfl, rfl⟩ | ⟨h, h'⟩
            · right
              have hx0 : x = 0 := by
                have := congrArg List.head? hE
                rw [List.head?_range, if_neg (by omega)] at this
                simpa using this.symm
              subst hx0
              refine ⟨⟨(0, f 0), by simp, rfl⟩, hsx, Or.inr ⟨?_, rfl⟩⟩
              rw [← hv]; exact hnum
            · rcases h.first with h1 | ⟨⟨p, hp, _⟩, _⟩
              · exact Or.inl h1
              · rw [h'] at hp; simp at hp
        have hcost : bcost n f { st with parent := st.parent.set x x, stack := [(x, f x)] } < n + m + 1 := by
          unfold bcost
          simp only [List.map_cons, List.map_nil, List.sum_cons, List.sum_nil]
          have h1 := sum_change (h := fun v => if st.num[v]? = some none ∧ v ∉ [x] then 1 + (f v).length else 0)
            (h' := fun v => if st.num[v]? = some none then 1 + (f v).length else 0) (v := x) (l := List.range n) List.nodup_range (by simpa using hx)
            (by intro y _ hy; simp [hy])
          rw [if_pos (by rw [hnum, hv]), if_neg (by simp)] at h1
          have h2 : ((List.range n).map (fun v => if st.num[v]? = some none then 1 + (f v).length else 0)).sum ≤ n + m := by
            have h3 : ((List.range n).map (fun v => 1 + (f v).length)).sum ≤ n + m := by
              have : ∀ l : List Nat, (l.map (fun v => 1 + (f v).length)).sum = l.length + (l.map (fun v => (f v).length)).sum := by
                intro l
                induction l with
                | nil => rfl
                | cons a l ih => simp only [List.map_cons, List.sum_cons, List.length_cons, ih]; omega
              rw [this, List.length_range]; omega
            refine Nat.le_trans (sum_le ?_) h3
            intro y _
            split <;> omega
          omega
        obtain ⟨st', h1, h2, h3⟩ := biconLoop_spec hh (n + m + 1) _ hb hcost
        exact ⟨st', h1, Or.inr ⟨h2, h3⟩⟩) init (Or.inl ⟨rfl, rfl⟩)
  have h3 : BInv n st ∧ st.stack = [] := by
    rcases h2 with ⟨h, _⟩ | h
    · have := congrArg List.length h
      simp at this; omega
    · exact h
  refine ⟨st.comps, ?_, ?_, h3.1.cmp⟩
  · simp only [biconnected, Option.bind_eq_bind]
    rw [h1]; rfl
  · rcases h3.1.first with h | ⟨⟨p, hp, _⟩, _⟩
    · exact h
    · rw [h3.2] at hp; simp at hp

/-! ### The components outside the core -/

structure CInv (n idx : Nat) (st : List Nat × List (Option Nat) × List Nat) : Prop where
  len : st.1.length = n
  br : ∀ b ∈ st.2.1, ∀ x, b = some x → x < n
  lo : idx ≤ st.2.1.length + 1
  hi : st.2.1.length ≤ idx
  val : ∀ c ∈ st.1, c ≤ idx
  queue : ∀ v ∈ st.2.2, v < n

theorem compStep_spec {n idx : Nat} {core : List Bool} (hc : core.length = n) (hidx : 0 < idx) {st : List Nat × List (Option Nat) × List Nat} (h : CInv n idx st)
    {x : Nat} (hx : x < n) :
    ∃ st', compStep core idx st x = some st' ∧ CInv n idx st' ∧ st'.1.count 0 + st'.2.2.length = st.1.count 0 + st.2.2.length ∧
      ∀ (v c : Nat), c ≠ 0 → st.1[v]? = some c → st'.1[v]? = some c := by
  have hcx : core[x]? = some (core.getD x false) := by
    rw [List.getD_eq_getElem?_getD, List.getElem?_eq_getElem (by omega)]; rfl
  have hkx : st.1[x]? = some (st.1.getD x 0) := by
    rw [List.getD_eq_getElem?_getD, List.getElem?_eq_getElem (by rw [h.len]; exact hx)]; rfl
  have hxl : x < st.1.length := by rw [h.len]; exact hx
  unfold compStep
  simp only [hcx, hkx, Option.bind_eq_bind, Option.bind_some, Option.pure_def]
  by_cases hb : core.getD x false = true
  · rw [if_pos hb]
    by_cases hl : st.2.1.length < idx
    · rw [if_pos hl]
      refine ⟨_, rfl, ⟨h.len, ?_, by have := h.lo; simp; omega, by simp; omega, h.val, h.queue⟩, rfl, fun v c _ hv => hv⟩
      intro b hb' y hy
      simp only [List.mem_append, List.mem_singleton] at hb'
      rcases hb' with hb' | rfl
      · exact h.br b hb' y hy
      · simp at hy; omega
    · rw [if_neg hl]
      exact ⟨_, rfl, h, rfl, fun v c _ hv => hv⟩
  · rw [if_neg hb]
    by_cases hz : st.1.getD x 0 = 0
    · rw [if_pos hz]
      have hu : upd st.1 x idx = some (st.1.set x idx) := upd_of_lt _ hxl
      simp only [hu, Option.bind_some]
      have hz' : st.1[x] = 0 := by
        rw [List.getElem?_eq_getElem hxl] at hkx
        injection hkx with hkx; omega
      refine ⟨_, rfl, ⟨by simp [h.len], h.br, h.lo, h.hi, ?_, ?_⟩, ?_, ?_⟩
      · intro c hc'
        rcases List.mem_or_eq_of_mem_set hc' with hc' | rfl
        · exact h.val c hc'
        · exact Nat.le_refl _
      · intro v hv
        simp only [List.mem_append, List.mem_singleton] at hv
        rcases hv with hv | rfl
        · exact h.queue v hv
        · exact hx
      · simp only
        rw [List.count_set hxl]
        have : 0 < st.1.count 0 := List.count_pos_iff.2 (hz' ▸ List.getElem_mem hxl)
        have hne : ¬ (idx == 0) = true := by simp; omega
        simp only [hz', beq_self_eq_true, if_true, hne, if_false, List.length_append, List.length_singleton]
        simp
        omega
      · intro v c hc0 hv
        simp only
        by_cases hxv : x = v
        · subst hxv
          rw [List.getElem?_eq_getElem hxl, hz'] at hv
          simp at hv; omega
        · rw [List.getElem?_set_ne hxv]; exact hv
    · rw [if_neg hz]
      exact ⟨_, rfl, h, rfl, fun v c _ hv => hv⟩

theorem compLoop_spec {n idx : Nat} {core : List Bool} (hc : core.length = n) (hidx : 0 < idx) {links : Nat → Option (List Nat)} {f : Nat → List Nat}
    (hh : HeadsOK n links f) : ∀ (fuel : Nat) (st : List Nat × List (Option Nat) × List Nat), CInv n idx st → st.1.count 0 + st.2.2.length < fuel →
    ∃ comps bridge, compLoop links core idx fuel st = some (comps, bridge) ∧ CInv n idx (comps, bridge, []) ∧ ∀ (v c : Nat), c ≠ 0 → st.1[v]? = some c → comps[v]? = some c := by
  intro fuel
  induction fuel with
  | zero => intro _ _ h; omega
  | succ fuel ih =>
    rintro ⟨comps, bridge, queue⟩ h hf
    match queue with
    | [] => exact ⟨comps, bridge, by rw [compLoop], h, fun v c _ hv => hv⟩
    | v :: queue =>
      have hv : v < n := h.queue v (by simp)
      rw [compLoop]
      simp only [hh.eq v hv, Option.bind_eq_bind, Option.bind_some]
      have h0 : CInv n idx (comps, bridge, queue) := ⟨h.len, h.br, h.lo, h.hi, h.val, fun x hx => h.queue x (by simp [hx])⟩
      obtain ⟨st', h1, h2, h3, h4⟩ := GraphOps.foldlM_inv (compStep core idx) (fun _ st' => CInv n idx st' ∧ st'.1.count 0 + st'.2.2.length = comps.count 0 + queue.length ∧
          ∀ (v c : Nat), c ≠ 0 → comps[v]? = some c → st'.1[v]? = some c) (f v) (by
        rintro P x Q st hE ⟨g1, g2, g3⟩
        obtain ⟨st', e1, e2, e3, e4⟩ := compStep_spec hc hidx g1 (hh.lt v hv x (by rw [hE]; simp))
        exact ⟨st', e1, e2, by omega, fun v c hc0 hv => e4 v c hc0 (g3 v c hc0 hv)⟩) (comps, bridge, queue) ⟨h0, rfl, fun v c _ hv => hv⟩
      rw [h1]
      simp only [Option.bind_some]
      obtain ⟨c', b', g1, g2, g3⟩ := ih st' h2 (by simp only [List.length_cons] at hf; omega)
      exact ⟨c', b', g1, g2, fun v c hc0 hv => g3 v c hc0 (h4 v c hc0 hv)⟩

/-- Every node outside the core gets a valid component number. -/
theorem components_spec {n : Nat} {core : List Bool} (hc : core.length = n) {links : Nat → Option (List Nat)} {f : Nat → List Nat} (hh : HeadsOK n links f) :
    ∃ comps bridge, components n links core = some (comps, bridge) ∧ comps.length = n ∧ (∀ b ∈ bridge, ∀ x, b = some x → x < n) ∧
      ∀ v, v < n → core[v]? = some false → ∃ c, comps[v]? = some (c + 1) ∧ c < bridge.length := by
  obtain ⟨⟨comps, bridge⟩, h1, h2, h3, h4, h5⟩ := GraphOps.foldlM_inv (compRoot n links core) (fun P st => st.1.length = n ∧ (∀ b ∈ st.2, ∀ x, b = some x → x < n) ∧
      (∀ c ∈ st.1, c ≤ st.2.length) ∧ ∀ v ∈ P, core[v]? = some false → ∃ c, c ≠ 0 ∧ st.1[v]? = some c) (List.range n) (by
    rintro P x Q ⟨comps, bridge⟩ hE ⟨g1, g2, g3, g4⟩
    simp only at g1 g2 g3 g4
    have hx : x < n := by
      have : x ∈ List.range n := by rw [hE]; simp
      simpa using this
    have hcx : core[x]? = some (core.getD x false) := by
      rw [List.getD_eq_getElem?_getD, List.getElem?_eq_getElem (by omega)]; rfl
    have hkx : comps[x]? = some (comps.getD x 0) := by
      rw [List.getD_eq_getElem?_getD, List.getElem?_eq_getElem (by omega)]; rfl
    unfold compRoot
    simp only [hcx, hkx, Option.bind_eq_bind, Option.bind_some, Option.pure_def]
    by_cases hcond : (!core.getD x false && decide (comps.getD x 0 = 0)) = true
    · rw [if_pos hcond]
      simp only [Bool.and_eq_true, decide_eq_true_eq] at hcond
      have hu : upd comps x (bridge.length + 1) = some (comps.set x (bridge.length + 1)) := upd_of_lt _ (by omega)
      simp only [hu, Option.bind_some]
      have hi : CInv n (bridge.length + 1) (comps.set x (bridge.length + 1), bridge, [x]) := by
        refine ⟨by simp [g1], g2, by simp, by simp, ?_, by simpa using hx⟩
        intro c hc'
        rcases List.mem_or_eq_of_mem_set hc' with hc' | rfl
        · have := g3 c hc'; omega
        · exact Nat.le_refl _
      have hcount : (comps.set x (bridge.length + 1)).count 0 + 1 < n + 1 := by
        have hxl : x < comps.length := by omega
        rw [List.count_set hxl]
        have hz' : comps[x] = 0 := by
          rw [List.getElem?_eq_getElem hxl] at hkx
          injection hkx with hkx; omega
        have h1 : 0 < comps.count 0 := List.count_pos_iff.2 (hz' ▸ List.getElem_mem hxl)
        have h2 : comps.count 0 ≤ comps.length := List.count_le_length
        have hne : ¬ (bridge.length + 1 == 0) = true := by simp
        simp only [hz', beq_self_eq_true, if_true, hne, if_false]
        simp
        omega
      obtain ⟨comps', bridge', h1, h2, h3⟩ := compLoop_spec hc (by omega) hh (n + 1) _ hi hcount
      simp only [h1, Option.bind_some]
      have hlo := h2.lo
      have hhi := h2.hi
      simp only at hlo hhi
      have hlen : (if bridge'.length < bridge.length + 1 then bridge' ++ [none] else bridge').length = bridge.length + 1 := by
        split
        · simp; omega
        · omega
      refine ⟨_, rfl, h2.len, ?_, ?_, ?_⟩
      · intro b hb y hy
        simp only at hb
        split at hb
        · simp only [List.mem_append, List.mem_singleton] at hb
          rcases hb with hb | rfl
          · exact h2.br b hb y hy
          · simp at hy
        · exact h2.br b hb y hy
      · intro c hc'
        simp only
        rw [hlen]
        exact h2.val c hc'
      · intro v hv hcv
        by_cases hvx : x = v
        · subst hvx
          exact ⟨bridge.length + 1, by omega, h3 x _ (by omega) (by simp [g1, hx])⟩
        · simp only [List.mem_append, List.mem_singleton] at hv
          rcases hv with hv | rfl
          · obtain ⟨c, hc0, hc1⟩ := g4 v hv hcv
            exact ⟨c, hc0, h3 v c hc0 (by simp only; rw [List.getElem?_set_ne hvx]; exact hc1)⟩
          · exact absurd rfl hvx
    · rw [if_neg hcond]
      refine ⟨_, rfl, g1, g2, g3, ?_⟩
      intro v hv hcv
      simp only [List.mem_append, List.mem_singleton] at hv
      rcases hv with hv | rfl
      · exact g4 v hv hcv
      · rw [hcx] at hcv
        injection hcv with hcv
        refine ⟨comps.getD v 0, ?_, hkx⟩
        intro h0
        exact hcond (by simp only [hcv, h0]; rfl)) (List.replicate n 0, []) ⟨by simp, by simp, by simp, by simp⟩
  refine ⟨comps, bridge, h1, h2, h3, ?_⟩
  intro v hv hcv
  obtain ⟨c, hc0, hc1⟩ := h5 v (by simpa using hv) hcv
  have := h4 c (List.mem_of_getElem? hc1)
  refine ⟨c - 1, ?_, ?_⟩
  · rw [show c - 1 + 1 = c by omega]; exact hc1
  · simp only at this; omega

/-! ### The whole preprocessing -/

def hf (g : FOGraph) (v : Nat) : List Nat := (g.adj.getD v []).map Link.node

theorem heads_ok {g : FOGraph} (hg : g.WF) : HeadsOK g.numNodes (headsOf g) (hf g) := by
  constructor
  · intro v hv
    exact headsOf_eq (GraphOps.WF_links hg hv)
  · intro v hv x hx
    simp only [hf, List.mem_map] at hx
    obtain ⟨l, hl, rfl⟩ := hx
    exact GraphOps.WF.adj_heads hg hl

theorem sum_heads {g : FOGraph} (hg : g.WF) : ((List.range g.numNodes).map (fun v => (hf g v).length)).sum = g.numArcs := by
  rw [← GraphOps.WF.arcs_length hg, GraphOps.arcs_length, List.length_flatten, List.map_map]
  congr 1
  apply List.map_congr_left
  intro v _
  simp [hf]

theorem und_ok {g r : FOGraph} (hg : g.WF) (hr : r.WF) (hn : r.numNodes = g.numNodes) :
    HeadsOK g.numNodes (undirected (headsOf r) (headsOf g)) (fun v => hf r v ++ hf g v) := by
  have h1 := heads_ok hg
  have h2 := heads_ok hr
  rw [hn] at h2
  constructor
  · intro v hv
    simp [undirected, h1.eq v hv, h2.eq v hv]
  · intro v hv x hx
    rcases List.mem_append.1 hx with hx | hx
    · exact h2.lt v hv x hx
    · exact h1.lt v hv x hx

theorem sum_und {g r : FOGraph} (hg : g.WF) (hr : r.WF) (hn : r.numNodes = g.numNodes) (hm : r.numArcs = g.numArcs) :
    ((List.range g.numNodes).map (fun v => (hf r v ++ hf g v).length)).sum = 2 * g.numArcs := by
  have h1 := sum_heads hg
  have h2 := sum_heads hr
  rw [hn, hm] at h2
  have : ∀ l : List Nat, (l.map (fun v => (hf r v ++ hf g v).length)).sum = (l.map (fun v => (hf r v).length)).sum + (l.map (fun v => (hf g v).length)).sum := by
    intro l
    induction l with
    | nil => rfl
    | cons a l ih => simp only [List.map_cons, List.sum_cons, List.length_append] at ih ⊢; omega
  rw [this]; omega

theorem longest_mem {α : Type} {l : List (List α)} (h : l ≠ []) : ∃ x ∈ l, longest l = some x := by
  match l with
  | [] => exact absurd rfl h
  | x :: xs =>
    rw [longest]
    have : ∀ (ys : List (List α)) (b : List α), ∃ z, z ∈ b :: ys ∧ ys.foldl (fun best y => if y.length ≥ best.length then y else best) b = z := by
      intro ys
      induction ys with
      | nil => intro b; exact ⟨b, by simp, rfl⟩
      | cons y ys ih =>
        intro b
        obtain ⟨z, h1, h2⟩ := ih (if y.length ≥ b.length then y else b)
        refine ⟨z, ?_, h2⟩
        rcases List.mem_cons.1 h1 with h1 | h1
        · rw [h1]; split <;> simp
        · simp [h1]
    obtain ⟨z, h1, h2⟩ := this xs x
    exact ⟨z, h1, by rw [h2]⟩

theorem mark_spec {n : Nat} (es : List (Nat × Nat)) (h : ∀ e ∈ es, e.1 < n ∧ e.2 < n) :
    ∃ core, es.foldlM markEdge (List.replicate n false) = some core ∧ core.length = n := by
  obtain ⟨c, h1, h2⟩ := GraphOps.foldlM_inv markEdge (fun _ c => c.length = n) es (by
    intro P e Q c hE hc
    obtain ⟨g1, g2⟩ := h e (by rw [hE]; simp)
    have hu1 : upd c e.1 true = some (c.set e.1 true) := upd_of_lt _ (by omega)
    have hu2 : upd (c.set e.1 true) e.2 true = some ((c.set e.1 true).set e.2 true) := upd_of_lt _ (by simp; omega)
    exact ⟨(c.set e.1 true).set e.2 true, by simp [markEdge, hu1, hu2], by simp [hc]⟩) (List.replicate n false) (by simp)
  exact ⟨c, h1, h2⟩

/-- What the preprocessing guarantees. -/
structure VTopoOK (g r : FOGraph) (t : VTopo) : Prop where
  order : t.order.OK g.numNodes
  big : t.biggest ≤ g.numNodes
  deg : t.deg2 ≤ t.biggest → ∀ rk v d, t.order.node rk = some v → degree g r v = some d → t.symDeg rk = some (classOf (d % 256))
  total : ∀ rk, rk < g.numNodes → ∃ c, t.symDeg rk = some c
  bridge : ∀ rk, rk < g.numNodes → ∃ b, t.bridgeNode rk = some b ∧ ∀ x, b = some x → x < g.numNodes

theorem virtualTopocore_spec {srt : (Nat → Nat) → List Nat → List Nat} (hs : SortOK srt) {g : FOGraph} (hg : g.WF) (hn : 0 < g.numNodes) :
    ∃ t r, virtualTopocore srt g = some t ∧ GraphOps.reversed g.numNodes g.numArcs g.linkIter = some r ∧ VTopoOK g r t := by
  obtain ⟨r, hr1, hr2, hr3, hr4, hr5⟩ := GraphOps.reversed_spec hg
  obtain ⟨ord, ho1, ho2⟩ := dfs_spec (m := g.numArcs) (heads_ok hg) (Nat.le_of_eq (sum_heads hg))
  have hsmall := GraphOps.WF.small_arcs hg
  have hperm_ok : ∀ l : List Nat, l.Perm (List.range g.numNodes) → ∃ o, NodeOrder.fromNodeOrder l = some o ∧ o.nodeOrder = l := by
    intro l hl
    have hlen : l.length = g.numNodes := by rw [hl.length_eq, List.length_range]
    obtain ⟨inv, hinv⟩ := NodeOrder.invert_of_perm (xs := l) (by omega) (by rw [hlen]; exact hl)
    exact ⟨⟨l, inv⟩, by simp [NodeOrder.fromNodeOrder, hinv], rfl⟩
  obtain ⟨o0, ho3, _⟩ := hperm_ok ord ho2
  let dg : Nat → Nat := fun v => ((degree g r v).getD 0) % 256
  have hdeg : ∀ v, v < g.numNodes → degree8 g r v = some (dg v) := by
    intro v hv
    obtain ⟨d, h1, _⟩ := degree_spec hg hr2 hr3 (fun u v w => hr5 v u w) hv
    simp only [dg, h1, Option.getD_some]
    simp only [degree, Option.bind_eq_bind, Option.bind_eq_some_iff] at h1
    obtain ⟨fw, e1, bw, e2, e3⟩ := h1
    simp [degree8, e1, e2, e3]
  have hdegs := mapM_some (f := degree8 g r) (h := dg) (l := List.range g.numNodes) (fun x hx => hdeg x (by simpa using hx))
  have hdegs_get : ∀ v, v < g.numNodes → ((List.range g.numNodes).map dg)[v]? = some (dg v) := by
    intro v hv; simp [hv]
  obtain ⟨bccs, hb1, hb2, hb3⟩ := biconnected_spec hn (und_ok hg hr2 hr3) (Nat.le_of_eq (sum_und hg hr2 hr3 hr4))
  obtain ⟨big, hl1, hl2⟩ := longest_mem hb2
  obtain ⟨core, hc1, hc2⟩ := mark_spec big (hb3 big hl1)
  obtain ⟨comps, bridge, hk1, hk2, hk3, hk4⟩ := components_spec hc2 (und_ok hg hr2 hr3)
  have hordlt : ∀ v ∈ ord, v < g.numNodes := fun v hv => by simpa using ho2.mem_iff.1 hv
  have hcoreget : ∀ v, v < g.numNodes → core[v]? = some (core.getD v false) := by
    intro v hv
    rw [List.getD_eq_getElem?_getD, List.getElem?_eq_getElem (by omega)]; rfl
  have hin := filterM_some (p := fun v => core[v]?) (q := fun v => core.getD v false) (l := ord) (fun v hv => hcoreget v (hordlt v hv))
  have hout := filterM_some (p := fun v => core[v]?.bind (fun b => some (!b))) (q := fun v => !core.getD v false) (l := ord)
    (fun v hv => by rw [hcoreget v (hordlt v hv)]; rfl)
  let inC := ord.filter (fun v => core.getD v false)
  let outC := ord.filter (fun v => !core.getD v false)
  let sorted := srt (degKey ((List.range g.numNodes).map dg)) inC
  obtain ⟨hsp, hsort⟩ := hs (degKey ((List.range g.numNodes).map dg)) inC
  have hNperm : (sorted ++ outC).Perm (List.range g.numNodes) := by
    refine ((hsp.append_right outC).trans ?_).trans ho2
    exact List.filter_append_perm _ _
  have hNlt : ∀ v ∈ sorted ++ outC, v < g.numNodes := fun v hv => by simpa using hNperm.mem_iff.1 hv
  have hod := mapM_some (f := fun v => ((List.range g.numNodes).map dg)[v]?) (h := dg) (l := outC) (fun v hv => hdegs_get v (hNlt v (by simp [hv])))
  have hnd := mapM_some (f := fun v => ((List.range g.numNodes).map dg)[v]?) (h := dg) (l := sorted ++ outC) (fun v hv => hdegs_get v (hNlt v hv))
  have hbccv : ∀ v ∈ outC, ∃ c, comps[v]? = some (c + 1) ∧ c < bridge.length := by
    intro v hv
    have hv' := List.mem_filter.1 hv
    have hvn := hordlt v hv'.1
    apply hk4 v hvn
    rw [hcoreget v hvn]
    have := hv'.2
    simp only [Bool.not_eq_true'] at this
    rw [this]
  have hbcc := mapM_some (f := fun v => comps[v]?.bind (fun c => if c = 0 then none else some (c - 1))) (h := fun v => comps.getD v 0 - 1) (l := outC)
    (fun v hv => by
      obtain ⟨c, h1, _⟩ := hbccv v hv
      simp [h1, List.getD_eq_getElem?_getD])
  obtain ⟨o, ho4, ho5⟩ := hperm_ok _ hNperm
  have hNlen : (sorted ++ outC).length = g.numNodes := by rw [hNperm.length_eq, List.length_range]
  have hook : o.OK g.numNodes := hNlen ▸ NodeOrder.ok_of_fromNodeOrder ho4
  have hbr := mapM_some (f := rankOf o) (h := fun b => b.map (fun x => (o.rank x).getD 0)) (l := bridge) (fun b hb => by
    cases b with
    | none => rfl
    | some x =>
      obtain ⟨rk, _, h1, _⟩ := hook.rank_lt (hk3 _ hb x rfl)
      simp [rankOf, h1])
  refine ⟨⟨o, inC.length, ((sorted ++ outC).map dg).findIdx (· < 3), ((sorted ++ outC).map dg).findIdx (· < 4), outC.map dg, outC.map (fun v => comps.getD v 0 - 1),
    bridge.map (fun b => b.map (fun x => (o.rank x).getD 0))⟩, r, ?_, hr1, ?_⟩
  · simp only [virtualTopocore, ho1, ho3, hr1, hdegs, hb1, hl2, hc1, hk1, hin, Option.bind_eq_bind, Option.bind_some, Option.pure_def]
    simp only [hout, Option.bind_some]
    rw [hod]
    simp only [Option.bind_some]
    rw [hbcc]
    simp only [Option.bind_some]
    rw [hnd]
    simp only [Option.bind_some]
    rw [ho4]
    simp only [Option.bind_some]
    rw [hbr]
    rfl
  · have hsl : sorted.length = inC.length := hsp.length_eq
    have hlen2 : inC.length + outC.length = g.numNodes := by rw [← hNlen, List.length_append, hsl]
    have hnode : ∀ rk v, o.node rk = some v → (sorted ++ outC)[rk]? = some v := by
      intro rk v h
      rw [← ho5]; exact h
    have hnd_get : ∀ rk v : Nat, (sorted ++ outC)[rk]? = some v → ((sorted ++ outC).map dg)[rk]? = some (dg v) := by
      intro rk v h; rw [List.getElem?_map, h]; rfl
    have hout_get : ∀ rk : Nat, inC.length ≤ rk → (sorted ++ outC)[rk]? = outC[rk - inC.length]? := by
      intro rk h
      rw [List.getElem?_append_right (by omega), hsl]
    have hfind : ∀ (k i : Nat) (x : Nat), ((sorted ++ outC).map dg)[i]? = some x → i < ((sorted ++ outC).map dg).findIdx (fun y => decide (y < k)) → k ≤ x := by
      intro k i x h1 h2
      have h3 := List.not_of_lt_findIdx h2
      obtain ⟨h4, h5⟩ := List.getElem?_eq_some_iff.1 h1
      rw [h5] at h3
      simpa using h3
    have hsorted : ∀ (k i : Nat) (v : Nat), k ≤ 4 → ((sorted ++ outC).map dg).findIdx (fun y => decide (y < k)) ≤ i → i < inC.length → (sorted ++ outC)[i]? = some v → dg v < k := by
      intro k i v hk4 h1 h2 h3
      have h4 : ((sorted ++ outC).map dg).findIdx (fun y => decide (y < k)) < ((sorted ++ outC).map dg).length := by
        rw [List.length_map, hNlen]; omega
      have h5 := List.findIdx_getElem (w := h4)
      simp only [List.getElem_map, decide_eq_true_eq] at h5
      generalize hj : ((sorted ++ outC).map dg).findIdx (fun y => decide (y < k)) = j at h1 h4 h5
      have h4' : j < (sorted ++ outC).length := by simpa using h4
      have hi' : i < sorted.length := by omega
      have hj' : j < sorted.length := by omega
      have e1 : (sorted ++ outC)[j] = sorted[j] := List.getElem_append_left hj'
      rw [e1] at h5
      have e2 : v = sorted[i] := by
        rw [List.getElem?_append_left hi', List.getElem?_eq_getElem hi'] at h3
        injection h3 with h3; exact h3.symm
      have hdg : ∀ u, u < g.numNodes → degKey ((List.range g.numNodes).map dg) u = 4 - min (dg u) 4 := by
        intro u hu
        simp [degKey, List.getD_eq_getElem?_getD, hu]
      rcases Nat.lt_or_eq_of_le h1 with h6 | h6
      · have h7 := List.pairwise_iff_getElem.1 hsort j i hj' hi' h6
        have m1 := hNlt _ (List.mem_append_left outC (List.getElem_mem hj'))
        have m2 := hNlt _ (List.mem_append_left outC (List.getElem_mem hi'))
        have h8 : 4 - min (dg sorted[j]) 4 ≤ 4 - min (dg sorted[i]) 4 := by rw [← hdg _ m1, ← hdg _ m2]; exact h7
        rw [e2]
        omega
      · subst h6; rw [e2]; exact h5
    refine ⟨hook, by show inC.length ≤ _; omega, ?_, ?_, ?_⟩
    · intro h2b rk v d hrk hd
      simp only at h2b hrk
      have hN := hnode rk v hrk
      have hx := hnd_get rk v hN
      have hrn : rk < g.numNodes := by
        have := (List.getElem?_eq_some_iff.1 hN).1
        omega
      have hdv : dg v = d % 256 := by simp [dg, hd]
      rw [← hdv]
      unfold VTopo.symDeg
      simp only
      by_cases c3 : rk < ((sorted ++ outC).map dg).findIdx (fun y => decide (y < 4))
      · rw [if_pos c3]
        have := hfind 4 rk _ hx c3
        rw [classOf, if_neg (by omega), if_pos (by omega)]
      · rw [if_neg c3]
        by_cases c2 : rk < ((sorted ++ outC).map dg).findIdx (fun y => decide (y < 3))
        · rw [if_pos c2]
          have h1 := hfind 3 rk _ hx c2
          have h2 := hsorted 4 rk v (by omega) (by omega) (by omega) hN
          rw [classOf, if_pos (by omega)]
        · rw [if_neg c2]
          by_cases cb : rk < inC.length
          · rw [if_pos cb]
            have h2 := hsorted 3 rk v (by omega) (by omega) (by omega) hN
            rw [classOf, if_neg (by omega), if_neg (by omega)]
          · rw [if_neg cb]
            rw [hout_get rk (by omega)] at hN
            rw [List.getElem?_map, hN]
            rfl
    · intro rk hrk
      unfold VTopo.symDeg
      simp only
      split
      · exact ⟨_, rfl⟩
      · split
        · exact ⟨_, rfl⟩
        · split
          · exact ⟨_, rfl⟩
          · have : rk - inC.length < outC.length := by omega
            exact ⟨_, by simp only [List.getElem?_map, List.getElem?_eq_getElem this]; rfl⟩
    · intro rk hrk
      unfold VTopo.bridgeNode
      split
      · exact ⟨none, rfl, by simp⟩
      · rename_i hcore
        simp only [VTopo.inCore, Bool.or_eq_true, decide_eq_true_eq, not_or] at hcore
        have hlt : rk - inC.length < outC.length := by omega
        obtain ⟨c, h1, h2⟩ := hbccv outC[rk - inC.length] (List.getElem_mem hlt)
        simp only [List.getElem?_map, List.getElem?_eq_getElem hlt, Option.map_some, Option.bind_eq_bind, Option.bind_some, List.getD_eq_getElem?_getD, h1,
          Option.getD_some, Nat.add_sub_cancel, List.getElem?_eq_getElem h2]
        refine ⟨_, rfl, ?_⟩
        intro x hx
        cases hb : bridge[c] with
        | none => rw [hb] at hx; simp at hx
        | some y =>
          rw [hb] at hx
          have hy := hk3 _ (List.getElem_mem h2) y hb
          obtain ⟨rk', h3, h4, _⟩ := hook.rank_lt hy
          simp only [Option.map_some, h4, Option.getD_some, Option.some.injEq] at hx
          omega
end Verif.Topo
