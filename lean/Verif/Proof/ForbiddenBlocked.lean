import Verif.Proof.ForbiddenActive
import Verif.Proof.CCHExact
/- The forbidden paths stored at the edges: helper lemmas. -/
set_option linter.unusedSimpArgs false
set_option linter.unusedVariables false
namespace Verif.Traffic
open Spec Active

/-- `e` leads from `u` to `v` -/
def Ed (g : FOGraph) (e u v : Nat) : Prop := ∃ w, EdgeAt g.firstOut g.head g.weight e u v w

theorem Ed.unique {g : FOGraph} (hg : g.WF) {e u v u' v' : Nat} (h : Ed g e u v) (h' : Ed g e u' v') : u = u' ∧ v = v' := by
  obtain ⟨w, a, b, h1, h2, h3, h4, h5, -⟩ := h
  obtain ⟨w', a', b', k1, k2, k3, k4, k5, -⟩ := h'
  refine ⟨CCH.range_unique hg h1 h2 ⟨h3, h4⟩ k1 k2 ⟨k3, k4⟩, ?_⟩
  rw [h5] at k5
  simpa using k5

theorem Ed.lt {g : FOGraph} {e u v : Nat} (h : Ed g e u v) : e < g.numArcs := by
  obtain ⟨w, a, b, h1, h2, h3, h4, h5, -⟩ := h
  exact (List.getElem?_eq_some_iff.1 h5).1

structure BOK (g : FOGraph) (b : Blocked) (loc : Nat → Nat → Nat) : Prop where
  el : b.edges.length = g.numArcs
  cl : b.counter.length = g.numNodes
  path : ∀ (k : Nat) p, b.paths[k]? = some p → 2 ≤ p.length ∧ ∀ x ∈ p, x.1 < g.numNodes
  lid : ∀ (k : Nat) p (i : Nat) x, b.paths[k]? = some p → 1 ≤ i → p[i]? = some x → x.2 = loc k x.1
  cnt : ∀ (k : Nat) p (i : Nat) x, b.paths[k]? = some p → 1 ≤ i → i + 1 < p.length → p[i]? = some x → ∃ c, b.counter[x.1]? = some c ∧ loc k x.1 < c
  inj : ∀ (k k' : Nat) p p' (i i' : Nat) (x x' : Nat × Nat), b.paths[k]? = some p → b.paths[k']? = some p' → 1 ≤ i → i + 1 < p.length → 1 ≤ i' → i' + 1 < p'.length →
    p[i]? = some x → p'[i']? = some x' → x.1 = x'.1 → loc k x.1 = loc k' x'.1 → k = k'
  edge : ∀ (e : Nat) fs, b.edges[e]? = some fs → ∀ k off tl, (k, off, tl) ∈ fs ↔
    ∃ p x y, b.paths[k]? = some p ∧ 1 ≤ off ∧ p[off - 1]? = some x ∧ p[off]? = some y ∧ Ed g e x.1 y.1 ∧ tl = loc k x.1
  zero : ∀ (v c : Nat), b.counter[v]? = some c → c ≠ 0 → ∃ p ∈ b.paths, ∃ (i : Nat) (x : Nat × Nat), 1 ≤ i ∧ i + 1 < p.length ∧ p[i]? = some x ∧ x.1 = v

theorem replicate_get {α : Type} {n i : Nat} {a x : α} (h : (List.replicate n a)[i]? = some x) : x = a := by
  obtain ⟨_, h⟩ := List.getElem?_eq_some_iff.1 h
  simpa using h.symm

theorem BOK.new (g : FOGraph) : BOK g (Blocked.new g.numNodes g.numArcs) (fun _ _ => 0) := by
  refine ⟨by simp [Blocked.new], by simp [Blocked.new], ?_, ?_, ?_, ?_, ?_, ?_⟩
  · intro k p h; simp [Blocked.new] at h
  · intro k p i x h; simp [Blocked.new] at h
  · intro k p i x h; simp [Blocked.new] at h
  · intro k k' p p' i i' x x' h; simp [Blocked.new] at h
  · intro e fs h k off tl
    have := replicate_get h
    subst this
    simp [Blocked.new]
  · intro v c h hc
    exact absurd (replicate_get h) hc

/-! ### Adding a path -/

theorem pushEdges_spec {x : Nat × Nat × Nat} (es : List Nat) (edges : List (List (Nat × Nat × Nat))) (hes : ∀ e ∈ es, e < edges.length) :
    ∃ edges', Blocked.pushEdges x edges es = some edges' ∧ edges'.length = edges.length ∧
      ∀ (e : Nat) l', edges'[e]? = some l' → ∃ l, edges[e]? = some l ∧ ∀ y, y ∈ l' ↔ y ∈ l ∨ (e ∈ es ∧ y = x) := by
  induction es generalizing edges with
  | nil => exact ⟨edges, rfl, rfl, fun e l' h => ⟨l', h, fun y => by simp⟩⟩
  | cons a es ih =>
    have ha : a < edges.length := hes a (by simp)
    have hget : edges[a]? = some edges[a] := List.getElem?_eq_getElem ha
    obtain ⟨edges', h1, h2, h3⟩ := ih (edges.set a (edges[a] ++ [x])) (fun e he => by simpa using hes e (by simp [he]))
    refine ⟨edges', ?_, by simpa using h2, ?_⟩
    · unfold Blocked.pushEdges at h1 ⊢
      simp only [List.foldlM_cons, hget, upd_of_lt _ ha, Option.bind_eq_bind, Option.bind_some, Option.pure_def]
      exact h1
    · intro e l' hl
      obtain ⟨l, h4, h5⟩ := h3 e l' hl
      by_cases hea : e = a
      · subst hea
        rw [List.getElem?_set_self ha] at h4
        injection h4 with h4
        refine ⟨edges[e], hget, fun y => ?_⟩
        rw [h5, ← h4]
        rw [List.mem_append, List.mem_singleton]
        constructor
        · rintro ((h | h) | ⟨h, h'⟩)
          · exact .inl h
          · exact .inr ⟨by simp, h⟩
          · exact .inr ⟨by simp, h'⟩
        · rintro (h | ⟨h, h'⟩)
          · exact .inl (.inl h)
          · exact .inl (.inr h')
      · rw [List.getElem?_set_ne (fun h => hea h.symm)] at h4
        refine ⟨l, h4, fun y => ?_⟩
        rw [h5]
        simp [hea]

theorem addArcs_spec {g : FOGraph} (hg : g.WF) {counter : List Nat} (hc : counter.length = g.numNodes) {cnt : Nat → Nat}
    (hcnt : ∀ v, v < g.numNodes → counter[v]? = some (cnt v)) (gid : Nat) (f : List Nat) (off : Nat) (edges : List (List (Nat × Nat × Nat)))
    (hel : edges.length = g.numArcs) (hf : ∀ v ∈ f, v < g.numNodes) :
    ∃ edges', Blocked.addArcs g counter gid off f edges = some (edges', f.tail.map (fun v => (v, cnt v))) ∧ edges'.length = edges.length ∧
      ∀ (e : Nat) l', edges'[e]? = some l' → ∃ l, edges[e]? = some l ∧ ∀ y, y ∈ l' ↔ y ∈ l ∨ ∃ (i u v : Nat), f[i]? = some u ∧ f[i + 1]? = some v ∧ Ed g e u v ∧
        y = (gid, off + i + 1, cnt u) := by
  induction f generalizing off edges with
  | nil => exact ⟨edges, by simp [Blocked.addArcs], rfl, fun e l' h => ⟨l', h, fun y => by simp⟩⟩
  | cons u f ih =>
    cases f with
    | nil => exact ⟨edges, by simp [Blocked.addArcs], rfl, fun e l' h => ⟨l', h, fun y => by simp⟩⟩
    | cons v f =>
      have hu := hf u (by simp)
      have hv := hf v (by simp)
      obtain ⟨es, h1, h2⟩ := CCH.edgeIndices_spec hg (v := v) hu
      obtain ⟨e1, h3, h4, h5⟩ := pushEdges_spec (x := (gid, off + 1, cnt u)) es edges (fun e he => by
        rw [hel]; exact Ed.lt ((h2 e).1 he))
      obtain ⟨e2, h6, h7, h8⟩ := ih (off + 1) e1 (by rw [h4, hel]) (fun x hx => hf x (by simp [hx]))
      refine ⟨e2, ?_, by rw [h7, h4], ?_⟩
      · simp only [Blocked.addArcs, hcnt u hu, hcnt v hv, h1, h3, h6, Option.bind_eq_bind, Option.bind_some, Option.pure_def]
        simp
      · intro e l' hl
        obtain ⟨l1, h9, h10⟩ := h8 e l' hl
        obtain ⟨l, h11, h12⟩ := h5 e l1 h9
        refine ⟨l, h11, fun y => ?_⟩
        rw [h10, h12]
        constructor
        · rintro ((h | ⟨h, rfl⟩) | ⟨i, a, b, ha, hb, hE, rfl⟩)
          · exact .inl h
          · exact .inr ⟨0, u, v, rfl, rfl, (h2 e).1 h, rfl⟩
          · exact .inr ⟨i + 1, a, b, by simpa using ha, by simpa using hb, hE, by rw [show off + (i + 1) + 1 = off + 1 + i + 1 from by omega]⟩
        · rintro (h | ⟨i, a, b, ha, hb, hE, rfl⟩)
          · exact .inl (.inl h)
          · cases i with
            | zero =>
              simp at ha hb
              subst ha hb
              exact .inl (.inr ⟨(h2 e).2 hE, rfl⟩)
            | succ i =>
              exact .inr ⟨i, a, b, by simpa using ha, by simpa using hb, hE, by rw [show off + (i + 1) + 1 = off + 1 + i + 1 from by omega]⟩

theorem countNodes_spec (nodes : List Nat) (counter : List Nat) (h : ∀ v ∈ nodes, v < counter.length) :
    ∃ c', Blocked.countNodes counter nodes = some c' ∧ c'.length = counter.length ∧ ∀ (v c : Nat), counter[v]? = some c → c'[v]? = some (c + nodes.count v) := by
  induction nodes generalizing counter with
  | nil => exact ⟨counter, rfl, rfl, fun v c h => by simpa using h⟩
  | cons a nodes ih =>
    have ha : a < counter.length := h a (by simp)
    have hget : counter[a]? = some counter[a] := List.getElem?_eq_getElem ha
    obtain ⟨c', h1, h2, h3⟩ := ih (counter.set a (counter[a] + 1)) (fun v hv => by simpa using h v (by simp [hv]))
    refine ⟨c', ?_, by simpa using h2, ?_⟩
    · unfold Blocked.countNodes at h1 ⊢
      simp only [List.foldlM_cons, hget, upd_of_lt _ ha, Option.bind_eq_bind, Option.bind_some, Option.pure_def]
      exact h1
    · intro v c hv
      by_cases hva : v = a
      · subst hva
        rw [h3 v (counter[v] + 1) (List.getElem?_set_self ha), List.count_cons_self]
        rw [hget] at hv
        injection hv with hv
        rw [← hv, show counter[v] + 1 + List.count v nodes = counter[v] + (List.count v nodes + 1) from by omega]
      · rw [h3 v c (by rw [List.getElem?_set_ne (fun h => hva h.symm)]; exact hv), List.count_cons_of_ne (fun h => hva h.symm)]

/-- the nodes of the forbidden paths -/
def Blocked.nodes (b : Blocked) : List (List Nat) := b.paths.map (·.map Prod.fst)

theorem slice_inner {f : List Nat} (h : 2 ≤ f.length) : slice f 1 (f.length - 1) = some ((f.drop 1).take (f.length - 2)) := by
  unfold slice
  rw [if_pos ⟨by omega, by omega⟩]
  congr 2

theorem mem_inner {f : List Nat} {i v : Nat} (h1 : 1 ≤ i) (h2 : i + 1 < f.length) (h : f[i]? = some v) : v ∈ (f.drop 1).take (f.length - 2) := by
  refine List.mem_iff_getElem?.2 ⟨i - 1, ?_⟩
  rw [List.getElem?_take_of_lt (by omega), List.getElem?_drop, show 1 + (i - 1) = i from by omega]
  exact h

/-- after the debug test -/
theorem add_spec {g : FOGraph} (hg : g.WF) {b : Blocked} {loc : Nat → Nat → Nat} (hb : BOK g b loc) {f : List Nat} (hf2 : 2 ≤ f.length)
    (hf : ∀ v ∈ f, v < g.numNodes) (dbg : Bool) (hdbg : dbg = true → ∃ c last first, f[0]? = some first ∧ f.getLast? = some last ∧ b.counter[first]? = some c ∧
      b.testPath g last f (Active.new c) = some true) :
    ∃ b' loc', b.add dbg g f = some b' ∧ BOK g b' loc' ∧ b'.nodes = b.nodes ++ [f] := by
  obtain ⟨a0, f', rfl⟩ : ∃ a0 f', f = a0 :: f' := by
    cases f with
    | nil => simp at hf2
    | cons a f => exact ⟨a, f, rfl⟩
  obtain ⟨last, hlast⟩ : ∃ last, (a0 :: f').getLast? = some last := ⟨_, List.getLast?_eq_some_getLast (by simp)⟩
  obtain ⟨cnt, hcnt⟩ : ∃ cnt : Nat → Nat, ∀ v, v < g.numNodes → b.counter[v]? = some (cnt v) :=
    ⟨fun v => (b.counter[v]?).getD 0, fun v hv => by simp [List.getElem?_eq_getElem (show v < b.counter.length by rw [hb.cl]; exact hv)]⟩
  obtain ⟨edges, h1, h2, h3⟩ := addArcs_spec hg hb.cl hcnt b.paths.length (a0 :: f') 0 b.edges hb.el hf
  have hsl := slice_inner hf2
  obtain ⟨inner, hinner⟩ : ∃ inner, inner = ((a0 :: f').drop 1).take ((a0 :: f').length - 2) := ⟨_, rfl⟩
  rw [← hinner] at hsl
  obtain ⟨ctr, h4, h5, h6⟩ := countNodes_spec inner b.counter (fun v hv => by
    rw [hb.cl]; rw [hinner] at hv; exact hf v (List.mem_of_mem_drop (List.mem_of_mem_take hv)))
  obtain ⟨p, hp⟩ : ∃ p, p = (a0, 0) :: f'.map (fun v => (v, cnt v)) := ⟨_, rfl⟩
  have hpl : p.length = (a0 :: f').length := by rw [hp]; simp
  have hpn : p.map Prod.fst = a0 :: f' := by
    rw [hp]; simp [List.map_map, Function.comp_def]
  have hpget : ∀ (i : Nat) x, p[i]? = some x → (a0 :: f')[i]? = some x.1 := by
    intro i x hx
    rw [← hpn, List.getElem?_map, hx]; rfl
  have hpid : ∀ (i : Nat) x, 1 ≤ i → p[i]? = some x → x.2 = cnt x.1 := by
    intro i x hi hx
    obtain ⟨j, rfl⟩ : ∃ j, i = j + 1 := ⟨i - 1, by omega⟩
    rw [hp, List.getElem?_cons_succ, List.getElem?_map, Option.map_eq_some_iff] at hx
    obtain ⟨y, _, rfl⟩ := hx
    rfl
  obtain ⟨loc', hloc'⟩ : ∃ loc' : Nat → Nat → Nat, loc' = fun k => if k = b.paths.length then cnt else loc k := ⟨_, rfl⟩
  have hlnew : loc' b.paths.length = cnt := by rw [hloc']; simp
  have hlold : ∀ k, k < b.paths.length → loc' k = loc k := fun k hk => by rw [hloc']; simp; intro h; omega
  have hpaths : ∀ (k : Nat) q, (b.paths ++ [p])[k]? = some q → (k < b.paths.length ∧ b.paths[k]? = some q) ∨ (k = b.paths.length ∧ q = p) := by
    intro k q hq
    rcases Nat.lt_trichotomy k b.paths.length with h | h | h
    · rw [List.getElem?_append_left h] at hq; exact .inl ⟨h, hq⟩
    · subst h; simp at hq; exact .inr ⟨rfl, hq.symm⟩
    · rw [List.getElem?_eq_none (by simp; omega)] at hq; simp at hq
  have hold : ∀ (k : Nat) q, b.paths[k]? = some q → (b.paths ++ [p])[k]? = some q := fun k q hq => by
    rw [List.getElem?_append_left (List.getElem?_eq_some_iff.1 hq).1]; exact hq
  have hnewp : (b.paths ++ [p])[b.paths.length]? = some p := by simp
  have hmono : ∀ v c, b.counter[v]? = some c → ∃ c', ctr[v]? = some c' ∧ c ≤ c' := fun v c hc => ⟨_, h6 v c hc, by omega⟩
  have hfresh : ∀ (i : Nat) x, 1 ≤ i → i + 1 < p.length → p[i]? = some x → ∃ c, ctr[x.1]? = some c ∧ cnt x.1 < c := by
    intro i x hi hil hx
    have hxn := hpget i x hx
    have hlt := hf x.1 (List.mem_of_getElem? hxn)
    refine ⟨_, h6 _ _ (hcnt _ hlt), ?_⟩
    have hmem : x.1 ∈ inner := by rw [hinner]; exact mem_inner hi (by rw [← hpl]; exact hil) hxn
    have := List.count_pos_iff.2 hmem
    omega
  refine ⟨⟨b.paths ++ [p], edges, ctr⟩, loc', ?_, ?_, ?_⟩
  · unfold Blocked.add
    cases dbg with
    | false =>
      simp only [List.getElem?_cons_zero, hlast, Option.bind_eq_bind, Option.bind_some, Option.pure_def, h1, hsl, h4, if_true, List.tail_cons, ← hp]
      simp
    | true =>
      obtain ⟨c, last', first, k1, k2, k3, k4⟩ := hdbg rfl
      simp at k1
      subst k1
      rw [hlast] at k2
      injection k2 with k2
      subst k2
      simp only [List.getElem?_cons_zero, hlast, k3, k4, Option.bind_eq_bind, Option.bind_some, Option.pure_def, h1, hsl, h4, if_true, List.tail_cons, ← hp]
  · refine ⟨by rw [h2]; exact hb.el, by rw [h5]; exact hb.cl, ?_, ?_, ?_, ?_, ?_, ?_⟩
    · intro k q hq
      rcases hpaths k q hq with ⟨_, h⟩ | ⟨_, rfl⟩
      · exact hb.path k q h
      · refine ⟨by omega, fun x hx => ?_⟩
        obtain ⟨i, hi⟩ := List.mem_iff_getElem?.1 hx
        exact hf _ (List.mem_of_getElem? (hpget i x hi))
    · intro k q i x hq hi hx
      rcases hpaths k q hq with ⟨hk, h⟩ | ⟨rfl, rfl⟩
      · rw [hlold k hk]; exact hb.lid k q i x h hi hx
      · rw [hlnew]; exact hpid i x hi hx
    · intro k q i x hq hi hil hx
      rcases hpaths k q hq with ⟨hk, h⟩ | ⟨rfl, rfl⟩
      · obtain ⟨c, h7, h8⟩ := hb.cnt k q i x h hi hil hx
        obtain ⟨c', h9, h10⟩ := hmono _ _ h7
        exact ⟨c', h9, by rw [hlold k hk]; omega⟩
      · rw [hlnew]; exact hfresh i x hi hil hx
    · intro k k' q q' i i' x x' hq hq' hi hil hi' hil' hx hx' hxx hl
      rcases hpaths k q hq with ⟨hk, h⟩ | ⟨rfl, rfl⟩
      · rcases hpaths k' q' hq' with ⟨hk', h'⟩ | ⟨rfl, rfl⟩
        · rw [hlold k hk, hlold k' hk'] at hl
          exact hb.inj k k' q q' i i' x x' h h' hi hil hi' hil' hx hx' hxx hl
        · exfalso
          obtain ⟨c, h7, h8⟩ := hb.cnt k q i x h hi hil hx
          have hlt := hf x'.1 (List.mem_of_getElem? (hpget i' x' hx'))
          rw [hlold k hk, hlnew] at hl
          have := hcnt _ hlt
          rw [← hxx] at this hl
          rw [this] at h7
          injection h7 with h7
          omega
      · rcases hpaths k' q' hq' with ⟨hk', h'⟩ | ⟨rfl, rfl⟩
        · exfalso
          obtain ⟨c, h7, h8⟩ := hb.cnt k' q' i' x' h' hi' hil' hx'
          have hlt := hf x.1 (List.mem_of_getElem? (hpget i x hx))
          rw [hlold k' hk', hlnew] at hl
          have := hcnt _ hlt
          rw [hxx] at this hl
          rw [this] at h7
          injection h7 with h7
          omega
        · rfl
    · intro e fs hfs k off tl
      obtain ⟨l, h7, h8⟩ := h3 e fs hfs
      rw [h8, hb.edge e l h7]
      constructor
      · rintro (⟨q, x, y, k1, k2, k3, k4, k5, k6⟩ | ⟨i, u, v, k1, k2, k3, k4⟩)
        · have hk := (List.getElem?_eq_some_iff.1 k1).1
          exact ⟨q, x, y, hold k q k1, k2, k3, k4, k5, by rw [hlold k hk]; exact k6⟩
        · injection k4 with k4 k5
          injection k5 with k5 k6
          have hil := (List.getElem?_eq_some_iff.1 k2).1
          have q1 : p[i]? = some p[i] := List.getElem?_eq_getElem (by omega)
          have q2 : p[i + 1]? = some p[i + 1] := List.getElem?_eq_getElem (by omega)
          have q3 := hpget _ _ q1
          have q4 := hpget _ _ q2
          rw [k1] at q3; rw [k2] at q4
          injection q3 with q3
          injection q4 with q4
          refine ⟨p, p[i], p[i + 1], by rw [k4]; exact hnewp, by omega, by rw [show off - 1 = i from by omega]; exact q1,
            by rw [show off = i + 1 from by omega]; exact q2, by rw [← q3, ← q4]; exact k3, by rw [k4, hlnew, ← q3]; exact k6⟩
      · rintro ⟨q, x, y, k1, k2, k3, k4, k5, k6⟩
        rcases hpaths k q k1 with ⟨hk, h⟩ | ⟨rfl, rfl⟩
        · exact .inl ⟨q, x, y, h, k2, k3, k4, k5, by rw [← hlold k hk]; exact k6⟩
        · right
          refine ⟨off - 1, x.1, y.1, hpget _ _ k3, ?_, k5, ?_⟩
          · rw [show off - 1 + 1 = off from by omega]; exact hpget _ _ k4
          · rw [k6, hlnew, show 0 + (off - 1) + 1 = off from by omega]
    · intro v c hc hc0
      have hv : v < b.counter.length := by rw [← h5]; exact (List.getElem?_eq_some_iff.1 hc).1
      have hget := List.getElem?_eq_getElem hv
      have := h6 v _ hget
      have hc' : c = b.counter[v] + List.count v inner := by
        have := hc.symm.trans this
        injection this
      by_cases h0 : b.counter[v] = 0
      · have hmem : v ∈ inner := List.count_pos_iff.1 (by omega)
        rw [hinner] at hmem
        obtain ⟨i, hi⟩ := List.mem_iff_getElem?.1 hmem
        have hil := (List.getElem?_eq_some_iff.1 hi).1
        rw [List.getElem?_take, List.getElem?_drop] at hi
        rw [List.length_take, List.length_drop] at hil
        rw [if_pos (by omega), ← hpn, List.getElem?_map, Option.map_eq_some_iff] at hi
        obtain ⟨x, hx1, hx2⟩ := hi
        exact ⟨p, by simp, 1 + i, x, by omega, by rw [hpl]; omega, hx1, hx2⟩
      · obtain ⟨q, hq, i, x, hx⟩ := hb.zero v _ hget h0
        exact ⟨q, by simp [hq], i, x, hx⟩
  · simp only [Blocked.nodes, List.map_append, List.map_cons, List.map_nil, hpn]

/-! ### Reset -/

theorem clearEdges_spec (es : List Nat) (edges : List (List (Nat × Nat × Nat))) (hes : ∀ e ∈ es, e < edges.length) :
    ∃ edges', Blocked.clearEdges edges es = some edges' ∧ edges'.length = edges.length ∧
      ∀ (e : Nat) l', edges'[e]? = some l' → l' = [] ∨ (e ∉ es ∧ edges[e]? = some l') := by
  induction es generalizing edges with
  | nil => exact ⟨edges, rfl, rfl, fun e l' h => .inr ⟨by simp, h⟩⟩
  | cons a es ih =>
    have ha : a < edges.length := hes a (by simp)
    obtain ⟨edges', h1, h2, h3⟩ := ih (edges.set a []) (fun e he => by simpa using hes e (by simp [he]))
    refine ⟨edges', ?_, by simpa using h2, ?_⟩
    · unfold Blocked.clearEdges at h1 ⊢
      simp only [List.foldlM_cons, upd_of_lt _ ha, Option.bind_eq_bind, Option.bind_some, Option.pure_def]
      exact h1
    · intro e l' hl
      rcases h3 e l' hl with h | ⟨h4, h5⟩
      · exact .inl h
      · by_cases hea : e = a
        · subst hea
          rw [List.getElem?_set_self ha] at h5
          injection h5 with h5
          exact .inl h5.symm
        · rw [List.getElem?_set_ne (fun h => hea h.symm)] at h5
          exact .inr ⟨by simp [hea, h4], h5⟩

theorem clearArcs_spec {g : FOGraph} (hg : g.WF) (f : List Nat) (edges : List (List (Nat × Nat × Nat))) (hel : edges.length = g.numArcs)
    (hf : ∀ v ∈ f, v < g.numNodes) :
    ∃ edges', Blocked.clearArcs g f edges = some edges' ∧ edges'.length = edges.length ∧
      ∀ (e : Nat) l', edges'[e]? = some l' → l' = [] ∨ (edges[e]? = some l' ∧ ∀ (i u v : Nat), f[i]? = some u → f[i + 1]? = some v → ¬ Ed g e u v) := by
  induction f generalizing edges with
  | nil => exact ⟨edges, by simp [Blocked.clearArcs], rfl, fun e l' h => .inr ⟨h, by simp⟩⟩
  | cons u f ih =>
    cases f with
    | nil => exact ⟨edges, by simp [Blocked.clearArcs], rfl, fun e l' h => .inr ⟨h, by simp⟩⟩
    | cons v f =>
      obtain ⟨es, h1, h2⟩ := CCH.edgeIndices_spec hg (v := v) (hf u (by simp))
      obtain ⟨e1, h3, h4, h5⟩ := clearEdges_spec es edges (fun e he => by rw [hel]; exact Ed.lt ((h2 e).1 he))
      obtain ⟨e2, h6, h7, h8⟩ := ih e1 (by rw [h4, hel]) (fun x hx => hf x (by simp [hx]))
      refine ⟨e2, ?_, by rw [h7, h4], ?_⟩
      · simp only [Blocked.clearArcs, h1, h3, h6, Option.bind_eq_bind, Option.bind_some, Option.pure_def]
      · intro e l' hl
        rcases h8 e l' hl with h | ⟨h9, h10⟩
        · exact .inl h
        · rcases h5 e l' h9 with h | ⟨h11, h12⟩
          · exact .inl h
          · refine .inr ⟨h12, ?_⟩
            intro i a c ha hc hE
            cases i with
            | zero =>
              simp at ha hc
              subst ha hc
              exact h11 ((h2 e).2 hE)
            | succ i => exact h10 i a c (by simpa using ha) (by simpa using hc) hE

theorem clearNodes_spec (nodes : List Nat) (counter : List Nat) (h : ∀ v ∈ nodes, v < counter.length) :
    ∃ c', Blocked.clearNodes counter nodes = some c' ∧ c'.length = counter.length ∧
      ∀ (v c : Nat), c'[v]? = some c → c = 0 ∨ (v ∉ nodes ∧ counter[v]? = some c) := by
  induction nodes generalizing counter with
  | nil => exact ⟨counter, rfl, rfl, fun v c h => .inr ⟨by simp, h⟩⟩
  | cons a nodes ih =>
    have ha : a < counter.length := h a (by simp)
    obtain ⟨c', h1, h2, h3⟩ := ih (counter.set a 0) (fun e he => by simpa using h e (by simp [he]))
    refine ⟨c', ?_, by simpa using h2, ?_⟩
    · unfold Blocked.clearNodes at h1 ⊢
      simp only [List.foldlM_cons, upd_of_lt _ ha, Option.bind_eq_bind, Option.bind_some, Option.pure_def]
      exact h1
    · intro e l' hl
      rcases h3 e l' hl with h | ⟨h4, h5⟩
      · exact .inl h
      · by_cases hea : e = a
        · subst hea
          rw [List.getElem?_set_self ha] at h5
          injection h5 with h5
          exact .inl h5.symm
        · rw [List.getElem?_set_ne (fun h => hea h.symm)] at h5
          exact .inr ⟨by simp [hea, h4], h5⟩

theorem resetPaths_spec {g : FOGraph} (hg : g.WF) (ps : List (List (Nat × Nat))) (edges : List (List (Nat × Nat × Nat))) (counter : List Nat)
    (hel : edges.length = g.numArcs) (hcl : counter.length = g.numNodes) (hps : ∀ p ∈ ps, ∀ x ∈ p, x.1 < g.numNodes) :
    ∃ edges' counter', ps.foldlM (Blocked.resetPath g) (edges, counter) = some (edges', counter') ∧ edges'.length = edges.length ∧
      counter'.length = counter.length ∧
      (∀ (e : Nat) l', edges'[e]? = some l' → l' = [] ∨ (edges[e]? = some l' ∧ ∀ p ∈ ps, ∀ (i u v : Nat), (p.map Prod.fst)[i]? = some u → (p.map Prod.fst)[i + 1]? = some v → ¬ Ed g e u v)) ∧
      ∀ (v c : Nat), counter'[v]? = some c → c = 0 ∨ (counter[v]? = some c ∧ ∀ p ∈ ps, v ∉ p.map Prod.fst) := by
  induction ps generalizing edges counter with
  | nil => exact ⟨edges, counter, rfl, rfl, rfl, fun e l' h => .inr ⟨h, by simp⟩, fun v c h => .inr ⟨h, by simp⟩⟩
  | cons p ps ih =>
    have hp : ∀ v ∈ p.map Prod.fst, v < g.numNodes := by
      intro v hv
      obtain ⟨x, hx, rfl⟩ := List.mem_map.1 hv
      exact hps p (by simp) x hx
    obtain ⟨e1, h1, h2, h3⟩ := clearArcs_spec hg (p.map Prod.fst) edges hel hp
    obtain ⟨c1, h4, h5, h6⟩ := clearNodes_spec (p.map Prod.fst) counter (fun v hv => by rw [hcl]; exact hp v hv)
    obtain ⟨e2, c2, h7, h8, h9, h10, h11⟩ := ih e1 c1 (by rw [h2, hel]) (by rw [h5, hcl]) (fun q hq => hps q (by simp [hq]))
    refine ⟨e2, c2, ?_, by rw [h8, h2], by rw [h9, h5], ?_, ?_⟩
    · simp only [List.foldlM_cons, Blocked.resetPath, h1, h4, Option.bind_eq_bind, Option.bind_some, Option.pure_def]
      exact h7
    · intro e l' hl
      rcases h10 e l' hl with h | ⟨h12, h13⟩
      · exact .inl h
      · rcases h3 e l' h12 with h | ⟨h14, h15⟩
        · exact .inl h
        · refine .inr ⟨h14, fun q hq => ?_⟩
          rcases List.mem_cons.1 hq with rfl | hq
          · exact h15
          · exact h13 q hq
    · intro v c hv
      rcases h11 v c hv with h | ⟨h12, h13⟩
      · exact .inl h
      · rcases h6 v c h12 with h | ⟨h14, h15⟩
        · exact .inl h
        · refine .inr ⟨h15, fun q hq => ?_⟩
          rcases List.mem_cons.1 hq with rfl | hq
          · exact h14
          · exact h13 q hq

theorem reset_spec {g : FOGraph} (hg : g.WF) {b : Blocked} {loc : Nat → Nat → Nat} (hb : BOK g b loc) : b.reset g = some (Blocked.new g.numNodes g.numArcs) := by
  obtain ⟨edges, ctr, h1, h2, h3, h4, h5⟩ := resetPaths_spec hg b.paths b.edges b.counter hb.el hb.cl (fun p hp x hx => by
    obtain ⟨k, hk⟩ := List.mem_iff_getElem?.1 hp
    exact (hb.path k p hk).2 x hx)
  have he : edges = List.replicate g.numArcs [] := by
    refine List.eq_replicate_iff.2 ⟨by rw [h2, hb.el], fun l hl => ?_⟩
    obtain ⟨e, hel⟩ := List.mem_iff_getElem?.1 hl
    rcases h4 e l hel with h | ⟨h6, h7⟩
    · exact h
    · cases l with
      | nil => rfl
      | cons x l =>
        exfalso
        obtain ⟨k, off, tl⟩ := x
        obtain ⟨p, x, y, k1, k2, k3, k4, k5, k6⟩ := (hb.edge e _ h6 k off tl).1 (by simp)
        refine h7 p (List.mem_of_getElem? k1) (off - 1) x.1 y.1 (by rw [List.getElem?_map, k3]; rfl) ?_ k5
        rw [show off - 1 + 1 = off from by omega, List.getElem?_map, k4]; rfl
  have hc : ctr = List.replicate g.numNodes 0 := by
    refine List.eq_replicate_iff.2 ⟨by rw [h3, hb.cl], fun c hc => ?_⟩
    obtain ⟨v, hv⟩ := List.mem_iff_getElem?.1 hc
    rcases h5 v c hv with h | ⟨h6, h7⟩
    · exact h
    · refine Classical.byContradiction fun hne => ?_
      obtain ⟨p, hp, i, x, _, _, hx, rfl⟩ := hb.zero v c h6 hne
      exact h7 p hp (List.mem_map_of_mem (List.mem_of_getElem? hx))
  simp only [Blocked.reset, h1, Option.bind_eq_bind, Option.bind_some, Option.pure_def, he, hc, Blocked.new]

end Verif.Traffic
