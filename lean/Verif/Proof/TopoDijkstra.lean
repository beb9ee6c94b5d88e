import Verif.Model.TopoDijkstra
import Verif.Proof.Dijkstra
set_option linter.unusedSimpArgs false
set_option linter.unusedVariables false
/- Correctness of the search that follows chains of nodes of low degree without queueing them. -/
namespace Verif.Topo
open Spec DData
variable {α β σ : Type}

/-- What the search needs to know about the degrees: coming from `u`, a node of degree at most two (three) has at most one (two) arcs that
do not lead back. -/
structure DegOK (p : Prob α β) (deg : Nat → Option SymDeg) : Prop where
  total : ∀ v, v < p.n → ∃ c, deg v = some c
  two : ∀ u lu b lv, p.links u = some lu → b ∈ lu → deg (p.ops.head b) = some .lessEqTwo → p.links (p.ops.head b) = some lv →
    (lv.filter (fun e => decide (p.ops.head e ≠ u))).length ≤ 1
  three : ∀ u lu b lv, p.links u = some lu → b ∈ lu → deg (p.ops.head b) = some .three → p.links (p.ops.head b) = some lv →
    (lv.filter (fun e => decide (p.ops.head e ≠ u))).length ≤ 2

/-- nodes that are never queued (except the source) -/
def Passed (sk : Skip) (deg : Nat → Option SymDeg) (v : Nat) : Prop := sk.deg2 = true ∧ deg v = some .lessEqTwo

/-- Following the predecessors from `v` leads to `s`; `ns` are the nodes in front of `v`, `l` the arrival. -/
inductive Chain (p : Prob α β) (s τ : Nat) (D : Nat → Nat) (P : Nat → Nat × β) : Nat → List Nat → List α → Nat → Prop
  | nil : Chain p s τ D P s [] [] τ
  | snoc {u v l : Nat} {ns : List Nat} {as ls : List α} {b : α} : v ≠ s → v < p.n → P v = (u, p.ops.predLink b) →
      p.links u = some ls → b ∈ ls → p.ops.head b = v → p.lf b (D u) ≤ D v → Chain p s τ D P u ns as l →
      Chain p s τ D P v (ns ++ [u]) (as ++ [b]) (p.lf b l)

section
variable {p : Prob α β} {s τ : Nat} {D : Nat → Nat} {P : Nat → Nat × β}

theorem Chain.le (hp : p.OK) (hs : D s = τ) {v l : Nat} {ns : List Nat} {as : List α} (h : Chain p s τ D P v ns as l) (hv : D v < INFINITY) :
    l ≤ D v ∧ ∀ y ∈ ns, D y ≤ D v := by
  induction h with
  | nil => simp [hs]
  | @snoc u v l ns as ls b _ _ _ h4 h5 _ hle _ ih =>
    have hge := hp.ge u ls b (D u) h4 h5
    have ih := ih (by omega)
    have hm := hp.mono u ls b l (D u) h4 h5 ih.1 (by omega)
    refine ⟨by omega, ?_⟩
    intro y hy
    simp at hy
    rcases hy with hy | rfl
    · have := ih.2 y hy; omega
    · omega

theorem Chain.unique {v l l' : Nat} {ns ns' : List Nat} {as as' : List α} (h : Chain p s τ D P v ns as l) (h' : Chain p s τ D P v ns' as' l') :
    ns = ns' := by
  induction h generalizing ns' as' l' with
  | nil =>
    cases h' with
    | nil => rfl
    | snoc h => exact absurd rfl h
  | snoc h1 h2 h3 _ _ _ _ _ ih =>
    cases h' with
    | nil => exact absurd rfl h1
    | snoc g1 g2 g3 _ _ _ _ g6 =>
      rw [h3] at g3
      injection g3 with g3 _
      subst g3
      rw [ih g6]

theorem Chain.sub {v l : Nat} {ns : List Nat} {as : List α} (h : Chain p s τ D P v ns as l) {y : Nat} (hy : y ∈ ns) :
    ∃ ms bs l', ms.length < ns.length ∧ Chain p s τ D P y ms bs l' := by
  induction h with
  | nil => simp at hy
  | @snoc u v l ns as ls b _ _ _ _ _ _ _ hc ih =>
    simp at hy
    rcases hy with hy | rfl
    · obtain ⟨ms, bs, l', h1, h2⟩ := ih hy
      exact ⟨ms, bs, l', by simp; omega, h2⟩
    · exact ⟨ns, as, l, by simp, hc⟩

theorem Chain.nodup {v l : Nat} {ns : List Nat} {as : List α} (h : Chain p s τ D P v ns as l) : (ns ++ [v]).Nodup := by
  induction h with
  | nil => simp
  | @snoc u v l ns as ls b h1 h2 h3 h4 h5 h6 h7 hc ih =>
    rw [List.nodup_append]
    refine ⟨ih, by simp, ?_⟩
    intro y hy z hz
    simp at hz; subst hz
    rintro rfl
    have hfull := Chain.snoc h1 h2 h3 h4 h5 h6 h7 hc
    obtain ⟨ms, bs, l', g1, g2⟩ := hfull.sub hy
    rw [hfull.unique g2] at g1; omega

theorem Chain.length_le {v l : Nat} {ns : List Nat} {as : List α} (hs : s < p.n) (h : Chain p s τ D P v ns as l) : ns.length < p.n := by
  have hlt : ∀ y ∈ ns ++ [v], y < p.n := by
    induction h with
    | nil => simpa using hs
    | snoc _ hv _ _ _ _ _ _ ih =>
      intro y hy
      simp only [List.mem_append, List.mem_singleton] at hy
      rcases hy with hy | rfl
      · exact ih y (by simpa using hy)
      · exact hv
  have := (List.subperm_of_subset h.nodup (l₂ := List.range p.n) (by intro y hy; simpa using hlt y hy)).length_le
  simp at this; omega

theorem Chain.apath {v l : Nat} {ns : List Nat} {as : List α} (h : Chain p s τ D P v ns as l) : APath p s τ (ns ++ [v]) as l := by
  induction h with
  | nil => exact .nil
  | snoc _ _ _ h4 h5 h6 _ _ ih => subst h6; exact .snoc ih h4 h5

theorem Chain.loop {d : DData β} (hpred : ∀ y, y < p.n → d.pred[y]? = some (P y)) {v l : Nat} {ns : List Nat} {as : List α}
    (h : Chain p s τ D P v ns as l) :
    (∀ fuel path, ns.length < fuel → nodePathLoop d s fuel path v = some (path ++ ns.reverse)) ∧
    (∀ fuel path, ns.length < fuel → edgePathLoop d s fuel path v = some (path ++ (as.map p.ops.predLink).reverse)) := by
  induction h with
  | nil =>
    constructor <;>
    · intro fuel path hf
      cases fuel with
      | zero => simp at hf
      | succ fuel => simp [nodePathLoop, edgePathLoop]
  | snoc h1 h2 h3 _ _ _ _ _ ih =>
    constructor
    · intro fuel path hf
      cases fuel with
      | zero => omega
      | succ fuel =>
        simp only [nodePathLoop, h1, if_false, hpred _ h2, Option.bind_eq_bind, Option.bind_some, h3]
        rw [ih.1 fuel _ (by simp at hf; omega)]; simp
    · intro fuel path hf
      cases fuel with
      | zero => omega
      | succ fuel =>
        simp only [edgePathLoop, h1, if_false, hpred _ h2, Option.bind_eq_bind, Option.bind_some, h3]
        rw [ih.2 fuel _ (by simp at hf; omega)]; simp

/-- Every labelled node has a chain. -/
def PInv (p : Prob α β) (s τ : Nat) (D : Nat → Nat) (P : Nat → Nat × β) : Prop :=
  ∀ x, D x < INFINITY → ∃ ns as l, Chain p s τ D P x ns as l

theorem PInv.upd (hp : p.OK) (h : PInv p s τ D P) (hs : D s = τ) {u x : Nat} {b : α} {ls : List α} (hxn : x < p.n) (hu : D u < INFINITY)
    (hlb : τ ≤ D u) (hls : p.links u = some ls) (hb : b ∈ ls) (hhd : p.ops.head b = x)
    (hlt : p.lf b (D u) < D x) : PInv p s τ (fupd D x (p.lf b (D u))) (fupd P x (u, p.ops.predLink b)) := by
  have hge := hp.ge u ls b (D u) hls hb
  have hxs : x ≠ s := by rintro rfl; omega
  have hxu : x ≠ u := by rintro rfl; omega
  have keep : ∀ {v ns as l}, Chain p s τ D P v ns as l → v ≠ x → x ∉ ns →
      Chain p s τ (fupd D x (p.lf b (D u))) (fupd P x (u, p.ops.predLink b)) v ns as l := by
    intro v ns as l hc
    induction hc with
    | nil => intro _ _; exact .nil
    | snoc h1 h2 h3 h4 h5 h6 h7 _ ih =>
      intro hv hx
      simp at hx
      refine .snoc h1 h2 (by rw [fupd_of_ne _ _ hv]; exact h3) h4 h5 h6 ?_ (ih (fun h => hx.2 h.symm) hx.1)
      rw [fupd_of_ne _ _ hv, fupd_of_ne _ _ (fun h => hx.2 h.symm)]; exact h7
  obtain ⟨nu, au, lu, hcu⟩ := h u hu
  have hcu' := keep hcu (Ne.symm hxu) (by intro hx; have := (hcu.le hp hs hu).2 x hx; omega)
  have hx' : Chain p s τ (fupd D x (p.lf b (D u))) (fupd P x (u, p.ops.predLink b)) x (nu ++ [u]) (au ++ [b]) (p.lf b lu) :=
    .snoc hxs hxn (by simp) hls hb hhd (by rw [fupd_of_ne _ _ (Ne.symm hxu)]; simp) hcu'
  have all : ∀ {v ns as l}, Chain p s τ D P v ns as l → D v < INFINITY →
      ∃ ns' as' l', Chain p s τ (fupd D x (p.lf b (D u))) (fupd P x (u, p.ops.predLink b)) v ns' as' l' := by
    intro v ns as l hc
    induction hc with
    | nil => intro _; exact ⟨_, _, _, .nil⟩
    | @snoc y v l ns as ls' b' h1 h2 h3 h4 h5 h6 h7 _ ih =>
      intro hv
      by_cases hvx : v = x
      · subst hvx; exact ⟨_, _, _, hx'⟩
      · have hge' := hp.ge y ls' b' (D y) h4 h5
        obtain ⟨ns', as', l', hc'⟩ := ih (by omega)
        refine ⟨_, _, _, .snoc h1 h2 (by rw [fupd_of_ne _ _ hvx]; exact h3) h4 h5 h6 ?_ hc'⟩
        rw [fupd_of_ne _ _ hvx]
        by_cases hyx : y = x
        · subst hyx
          simp only [fupd_same]
          have := hp.mono y ls' b' (p.lf b (D u)) (D y) h4 h5 (by omega) (by omega)
          omega
        · rw [fupd_of_ne _ _ hyx]; exact h7
  intro y hy
  by_cases hyx : y = x
  · subst hyx; exact ⟨_, _, _, hx'⟩
  · rw [fupd_of_ne _ _ hyx] at hy
    obtain ⟨ns, as, l, hc⟩ := h y hy
    exact all hc hy
end

/-- Invariant of a search from `s` at time `τ`; `pend v b`: arc `b` of `v` has still to be relaxed. -/
structure TInv (p : Prob α β) (sk : Skip) (deg : Nat → Option SymDeg) (s τ : Nat) (pend : Nat → α → Prop) (a : Abs β) : Prop where
  src : a.D s = τ
  lb : ∀ v, τ ≤ a.D v
  ub : ∀ v, a.D v ≤ INFINITY
  queue : ∀ v k, a.Q v = some k → v < p.n ∧ a.D v < INFINITY ∧ p.pi v < INFINITY ∧ k = a.D v + p.pi v ∧ ¬ Passed sk deg v
  relaxed : ∀ v, v < p.n → a.D v < INFINITY → a.Q v = none → p.pi v < INFINITY → ∀ ls b, p.links v = some ls → b ∈ ls → ¬ pend v b →
    a.D (p.ops.head b) ≤ p.lf b (a.D v)
  chain : PInv p s τ a.D a.P
  walk : ∀ v, a.D v < INFINITY → TWalk p.F s τ v (a.D v)

/-- Labels only decrease and the queue changes only at nodes whose label decreases. -/
def Ext (a a' : Abs β) : Prop := ∀ v, a'.D v ≤ a.D v ∧ (a'.D v = a.D v → a'.Q v = a.Q v)

theorem Ext.refl (a : Abs β) : Ext a a := fun v => ⟨Nat.le_refl _, fun _ => rfl⟩

theorem Ext.trans {a b c : Abs β} (h1 : Ext a b) (h2 : Ext b c) : Ext a c := by
  intro v
  have := h1 v; have := h2 v
  refine ⟨by omega, fun h => ?_⟩
  rw [(h2 v).2 (by omega), (h1 v).2 (by omega)]

section
variable {p : Prob α β} {sk : Skip} {deg : Nat → Option SymDeg} {s τ : Nat}

theorem TInv.mono {pend pend' : Nat → α → Prop} {a : Abs β} (h : TInv p sk deg s τ pend a) (hp : ∀ v b, pend v b → pend' v b) :
    TInv p sk deg s τ pend' a :=
  { h with relaxed := fun v h1 h2 h3 h4 ls b h5 h6 h7 => h.relaxed v h1 h2 h3 h4 ls b h5 h6 (fun hh => h7 (hp v b hh)) }

/-- an arc that does not improve anything -/
theorem TInv.skip {pend pend' : Nat → α → Prop} {a : Abs β} (h : TInv p sk deg s τ pend a) {x : Nat} {b : α}
    (hn : ¬ p.lf b (a.D x) < a.D (p.ops.head b)) (hpend : ∀ v c, ¬ pend' v c → ¬ pend v c ∨ (v = x ∧ c = b)) : TInv p sk deg s τ pend' a := by
  refine { h with relaxed := ?_ }
  intro v h1 h2 h3 h4 ls c h5 h6 h7
  rcases hpend v c h7 with h8 | ⟨rfl, rfl⟩
  · exact h.relaxed v h1 h2 h3 h4 ls c h5 h6 h8
  · omega

/-- an arc that improves the label of its head -/
theorem TInv.improve (hp : p.OK) {pend pend' : Nat → α → Prop} {a : Abs β} (h : TInv p sk deg s τ pend a) {x : Nat} {b : α} {ls : List α}
    (hls : p.links x = some ls) (hb : b ∈ ls) (hx : a.D x < INFINITY)
    (hlt : p.lf b (a.D x) < a.D (p.ops.head b)) {Q' : Nat → Option Nat}
    (hQne : ∀ y, y ≠ p.ops.head b → Q' y = a.Q y)
    (hQu : ∀ k, Q' (p.ops.head b) = some k → p.pi (p.ops.head b) < INFINITY ∧ k = p.lf b (a.D x) + p.pi (p.ops.head b) ∧ ¬ Passed sk deg (p.ops.head b))
    (hpend : ∀ v c, v ≠ p.ops.head b → ¬ pend' v c → ¬ pend v c ∨ (v = x ∧ c = b))
    (hrel : Q' (p.ops.head b) = none → p.pi (p.ops.head b) < INFINITY → ∀ lu c, p.links (p.ops.head b) = some lu → c ∈ lu →
      ¬ pend' (p.ops.head b) c → p.ops.head c = x) :
    TInv p sk deg s τ pend' ⟨fupd a.D (p.ops.head b) (p.lf b (a.D x)), Q', fupd a.P (p.ops.head b) (x, p.ops.predLink b)⟩ ∧
    Ext a ⟨fupd a.D (p.ops.head b) (p.lf b (a.D x)), Q', fupd a.P (p.ops.head b) (x, p.ops.predLink b)⟩ := by
  have hun := hp.heads x ls b hls hb
  have hge := hp.ge x ls b (a.D x) hls hb
  have hchain := h.chain.upd hp h.src hun hx (h.lb x) hls hb rfl hlt
  generalize hu : p.ops.head b = u at *
  generalize hl : p.lf b (a.D x) = l at *
  have hlinf : l < INFINITY := Nat.lt_of_lt_of_le hlt (h.ub u)
  have hxu : x ≠ u := by rintro rfl; omega
  have hus : u ≠ s := by rintro rfl; have := h.src; have := h.lb x; omega
  have hDle : ∀ y, fupd a.D u l y ≤ a.D y := by
    intro y; unfold fupd; split
    · subst_vars; omega
    · exact Nat.le_refl _
  constructor
  · constructor
    · simpa [fupd_of_ne _ _ hus.symm] using h.src
    · intro v; simp only; unfold fupd; split
      · have := h.lb x; omega
      · exact h.lb v
    · intro v; exact Nat.le_trans (hDle v) (h.ub v)
    · intro v k hk
      simp only at hk ⊢
      by_cases hvu : v = u
      · subst hvu
        obtain ⟨h1, h2, h3⟩ := hQu k hk
        exact ⟨hun, by simpa using hlinf, h1, by simpa using h2, h3⟩
      · rw [hQne v hvu] at hk
        rw [fupd_of_ne _ _ hvu]
        exact h.queue v k hk
    · intro v h1 h2 h3 h4 lv c h5 h6 h7
      simp only at h2 h3 ⊢
      by_cases hvu : v = u
      · subst hvu
        have := hrel h3 h4 lv c h5 h6 h7
        rw [this, fupd_of_ne _ _ hxu]
        simp only [fupd_same]
        have := hp.ge v lv c l h5 h6
        omega
      · rw [hQne v hvu] at h3
        rw [fupd_of_ne _ _ hvu] at h2 ⊢
        rcases hpend v c hvu h7 with h8 | ⟨rfl, rfl⟩
        · exact Nat.le_trans (hDle _) (h.relaxed v h1 h2 h3 h4 lv c h5 h6 h8)
        · rw [hu, hl]; simp
    · exact hchain
    · intro v hv
      simp only at hv ⊢
      by_cases hvu : v = u
      · subst hvu; simp only [fupd_same]
        rw [← hl]
        exact .snoc (h.walk x hx) ⟨ls, b, hls, hb, hu, rfl⟩
      · rw [fupd_of_ne _ _ hvu] at hv ⊢
        exact h.walk v hv
  · intro v
    refine ⟨hDle v, ?_⟩
    simp only
    intro he
    by_cases hvu : v = u
    · subst hvu; simp at he; omega
    · exact hQne v hvu

/-- Every walk ends at a node with a small enough label, or a queued node has a small enough key. -/
theorem TInv.frontier (hp : p.OK) (hcl : ∀ v ls b, p.links v = some ls → b ∈ ls → p.pi (p.ops.head b) < INFINITY → p.pi v < INFINITY)
    {a : Abs β} (h : TInv p sk deg s τ (fun _ _ => False) a) (hs : s < p.n) {v x : Nat} (hw : TWalk p.F s τ v x) (hx : x < INFINITY)
    (hv : p.pi v < INFINITY) : a.D v ≤ x ∨ ∃ y k, a.Q y = some k ∧ k ≤ x + p.pi v := by
  have hlt : ∀ {v x}, TWalk p.F s τ v x → v < p.n := by
    intro v x hw
    cases hw with
    | nil => exact hs
    | snoc _ ha => obtain ⟨ls, b, h1, h2, rfl, _⟩ := ha; exact hp.heads _ ls b h1 h2
  induction hw with
  | nil => left; rw [h.src]; exact Nat.le_refl _
  | @snoc u v x f hw harc ih =>
    obtain ⟨ls, b, hls, hb, rfl, rfl⟩ := harc
    have hge := hp.ge u ls b x hls hb
    have hpu := hcl u ls b hls hb hv
    have hfe := hp.feas u ls b x hls hb (by omega) hpu
    rcases ih (by omega) hpu with h1 | ⟨y, k, h1, h2⟩
    · cases hq : a.Q u with
      | some k =>
        right
        have := (h.queue u k hq).2.2.2.1
        exact ⟨u, k, hq, by omega⟩
      | none =>
        left
        have hr := h.relaxed u (hlt hw) (by omega) hq hpu ls b hls hb (by simp)
        have hm := hp.mono u ls b _ _ hls hb h1 (by omega)
        omega
    · right; exact ⟨y, k, h1, by omega⟩

end

/-! ### The local choices -/
section
variable {p : Prob α β}

theorem lastOther_spec (ops : DOps α β) (prev : Nat) (ls : List α) : lastOther ops prev ls = (ls.filter (fun e => decide (ops.head e ≠ prev))).getLast? := by
  have : ∀ (l : List α) (o : Option α), l.foldl (fun o e => if ops.head e ≠ prev then some e else o) o =
      ((l.filter (fun e => decide (ops.head e ≠ prev))).getLast?).or o := by
    intro l
    induction l with
    | nil => intro o; simp
    | cons e l ih =>
      intro o
      rw [List.foldl_cons, ih, List.filter_cons]
      by_cases he : ops.head e = prev
      · simp [he]
      · simp only [ne_eq, he, not_false_eq_true, if_true, decide_true, List.getLast?_cons]
        cases (l.filter (fun e => decide (¬ ops.head e = prev))).getLast? <;> simp
  rw [lastOther, this]; simp

theorem twoOthers_spec (ops : DOps α β) (prev : Nat) (ls : List α) :
    twoOthers ops prev ls = ((ls.filter (fun e => decide (ops.head e ≠ prev))).head?, (ls.filter (fun e => decide (ops.head e ≠ prev))).tail.getLast?) := by
  have h2 : ∀ (l : List α) (x : α) (o : Option α),
      l.foldl (fun o e => if ops.head e ≠ prev then (if o.1.isNone then (some e, o.2) else (o.1, some e)) else o) (some x, o) =
      (some x, ((l.filter (fun e => decide (ops.head e ≠ prev))).getLast?).or o) := by
    intro l
    induction l with
    | nil => intro x o; simp
    | cons e l ih =>
      intro x o
      rw [List.foldl_cons, List.filter_cons]
      by_cases he : ops.head e = prev
      · rw [if_neg (by simp [he]), if_neg (by simp [he])]; exact ih x o
      · simp only [ne_eq, he, not_false_eq_true, if_true, decide_true, List.getLast?_cons, Option.isNone_some, Bool.false_eq_true, if_false]
        have := ih x (some e)
        simp only [ne_eq] at this
        rw [this]
        cases (l.filter (fun e => decide (¬ ops.head e = prev))).getLast? <;> simp
  rw [twoOthers]
  induction ls with
  | nil => simp
  | cons e l ih =>
    rw [List.foldl_cons, List.filter_cons]
    by_cases he : ops.head e = prev
    · rw [if_neg (by simp [he]), if_neg (by simp [he])]; exact ih
    · simp only [ne_eq, he, not_false_eq_true, if_true, decide_true, Option.isNone_none]
      have := h2 l e none
      simp only [ne_eq] at this
      rw [this]; simp

/-- what the closures of a search with potential do -/
structure ClOK (p : Prob α β) (cl : Closures σ) (J : σ → Prop) : Prop where
  imp : ∀ c v l, J c → v < p.n → l < INFINITY → ∃ c', cl.imp c v l = some (c', true) ∧ J c'
  key : ∀ c v l, J c → v < p.n → l < INFINITY → ∃ c', cl.key c v l = some (c', if p.pi v < INFINITY then some (l + p.pi v) else none) ∧ J c'

/-- the queue after adding `u` -/
def qset (p : Prob α β) (Q : Nat → Option Nat) (u l : Nat) : Nat → Option Nat := if p.pi u < INFINITY then fupd Q u (some (l + p.pi u)) else Q

theorem enqueue_spec {cl : Closures σ} {J : σ → Prop} (hcl : ClOK p cl J) {N : Nat} (hN : p.n ≤ N) {q : IHeap QState} {Q : Nat → Option Nat}
    (hq : IHeap.Rep N q (fun v => (Q v).map (fun k => ⟨k, v⟩))) {u l : Nat} (hu : u < p.n) (hl : l < INFINITY)
    (hdec : ∀ k, Q u = some k → l + p.pi u ≤ k) {c : σ} (hc : J c) :
    ∃ q' c', enqueue cl q u l c = some (q', c') ∧ J c' ∧ IHeap.Rep N q' (fun v => (qset p Q u l v).map (fun k => ⟨k, v⟩)) := by
  obtain ⟨c1, h1, h2⟩ := hcl.imp c u l hc hu hl
  obtain ⟨c2, h3, h4⟩ := hcl.key c1 u l h2 hu hl
  have huN := Nat.lt_of_lt_of_le hu hN
  have hcont := IHeap.rep_containsIndex hq huN
  by_cases hpi : p.pi u < INFINITY
  · simp only [hpi, if_true] at h3
    cases hqu : Q u with
    | none =>
      simp only [hqu, Option.map_none, Option.isSome_none] at hcont
      obtain ⟨q', hq1, hq2⟩ := IHeap.rep_push (x := (⟨l + p.pi u, u⟩ : QState)) hq huN (by simp [idx_q, hqu])
      refine ⟨q', c2, ?_, h4, ?_⟩
      · simp only [enqueue, h1, h3, hcont, Option.bind_eq_bind, Option.bind_some, if_true]
        simp [hq1]
      · convert hq2 using 1
        funext x
        by_cases hxu : x = u
        · subst hxu; simp [idx_q, qset, hpi]
        · simp only [idx_q, qset, hpi, if_true]; rw [fupd_of_ne _ _ hxu, fupd_of_ne _ _ hxu]
    | some k =>
      simp only [hqu, Option.map_some, Option.isSome_some] at hcont
      have hk := hdec k hqu
      obtain ⟨q', hq1, hq2⟩ := IHeap.rep_decreaseKey (x := (⟨l + p.pi u, u⟩ : QState)) (y := ⟨k, u⟩) hq (by simp [idx_q, hqu]) (by
          simp only [IHeap.le, HeapElem.lt]; simp; omega)
      refine ⟨q', c2, ?_, h4, ?_⟩
      · simp only [enqueue, h1, h3, hcont, Option.bind_eq_bind, Option.bind_some, if_true]
        simp [hq1]
      · convert hq2 using 1
        funext x
        by_cases hxu : x = u
        · subst hxu; simp [idx_q, qset, hpi]
        · simp only [idx_q, qset, hpi, if_true]; rw [fupd_of_ne _ _ hxu, fupd_of_ne _ _ hxu]
  · simp only [hpi, if_false] at h3
    refine ⟨q, c2, ?_, h4, ?_⟩
    · simp only [enqueue, h1, h3, Option.bind_eq_bind, Option.bind_some, if_true]
      rfl
    · simpa [qset, hpi] using hq
end

/-! ### Following a chain -/

/-- The local variables; `g` is the arc of the current chain step, `V` the nodes visited by the current chain. -/
structure LocOK (p : Prob α β) (a : Abs β) (loc : Loc α β) (g : Option (Nat × α)) (V : List Nat) : Prop where
  chain : loc.chain = g.map (fun q => ⟨(q.1, p.ops.predLink q.2), p.ops.head q.2, p.lf q.2 (a.D q.1)⟩)
  cur : ∀ x b, g = some (x, b) → x < p.n ∧ a.D x < INFINITY ∧ ∃ ls, p.links x = some ls ∧ b ∈ ls
  three : ∀ y e, loc.degThree = some (y, e) → y < p.n ∧ a.D y < INFINITY ∧ ∃ ls, p.links y = some ls ∧ e ∈ ls
  had : loc.degThree ≠ none → loc.hadDegThree = true
  nodup : V.Nodup
  lt : ∀ z ∈ V, z < p.n
  vis : ∀ x b, g = some (x, b) → ∀ z ∈ V, a.D z ≤ p.lf b (a.D x)

/-- the arcs that the loop still has to relax -/
def pendOf (O : Nat → α → Prop) (loc : Loc α β) (g : Option (Nat × α)) (v : Nat) (c : α) : Prop :=
  O v c ∨ g = some (v, c) ∨ loc.degThree = some (v, c)

/-- rounds that are still possible -/
def need (p : Prob α β) (loc : Loc α β) (g : Option (Nat × α)) (V : List Nat) : Nat :=
  match g with
  | none => if loc.degThree.isNone then 1 else p.n + 2
  | some _ => (p.n - V.length) + 2 + (if loc.hadDegThree && loc.degThree.isNone then 0 else p.n + 2)

section
variable {p : Prob α β} {sk : Skip} {deg : Nat → Option SymDeg} {s τ : Nat}

theorem LocOK.length_le {a : Abs β} {loc : Loc α β} {g : Option (Nat × α)} {V : List Nat} (h : LocOK p a loc g V) : V.length ≤ p.n := by
  have := (List.subperm_of_subset h.nodup (l₂ := List.range p.n) (by intro y hy; simpa using h.lt y hy)).length_le
  simpa using this

theorem follow_spec (hp : p.OK) {x l : Nat} {b : α} {ls : List α} (hls : p.links x = some ls) (hb : b ∈ ls) (hl : l < INFINITY) :
    follow p.ops x l b = some ⟨(x, p.ops.predLink b), p.ops.head b, p.lf b l⟩ := by
  simp [follow, hp.link x ls b l hls hb hl]

theorem second_spec (hp : p.OK) {N : Nat} (hN : p.n ≤ N) {O : Nat → α → Prop} {d : DData β} {a : Abs β} {loc : Loc α β} {g : Option (Nat × α)} {V : List Nat}
    (hr : Refines N d a) (hi : TInv p sk deg s τ (pendOf O loc g) a) (hl : LocOK p a loc g V) :
    ∃ loc' g' V', second p.ops d loc = some loc' ∧ TInv p sk deg s τ (pendOf O loc' g') a ∧ LocOK p a loc' g' V' ∧
      (g' = none → loc'.degThree = none) ∧ need p loc' g' V' ≤ need p loc g V := by
  cases g with
  | some q =>
    have hc := hl.chain
    simp at hc
    refine ⟨loc, some q, V, ?_, hi, hl, by simp, Nat.le_refl _⟩
    simp [second, hc]
  | none =>
    have hc := hl.chain
    simp at hc
    cases ht : loc.degThree with
    | none =>
      refine ⟨loc, none, V, ?_, hi, hl, fun _ => ht, Nat.le_refl _⟩
      simp [second, hc, ht]
    | some q =>
      obtain ⟨y, e⟩ := q
      obtain ⟨h1, h2, ls, h3, h4⟩ := hl.three y e ht
      have hget := hr.get (Nat.lt_of_lt_of_le h1 hN)
      refine ⟨{ loc with chain := some ⟨(y, p.ops.predLink e), p.ops.head e, p.lf e (a.D y)⟩, degThree := none }, some (y, e), [], ?_, ?_, ?_, ?_, ?_⟩
      · simp [second, hc, ht, hget, follow_spec hp h3 h4 h2]
      · apply hi.mono
        intro v b hb
        rcases hb with hb | hb | hb
        · exact .inl hb
        · simp at hb
        · rw [ht] at hb; exact .inr (.inl hb)
      · refine ⟨by simp, ?_, by simp, by simp, by simp, by simp, by simp⟩
        intro x b hxb
        simp at hxb
        obtain ⟨rfl, rfl⟩ := hxb
        exact ⟨h1, h2, ls, h3, h4⟩
      · simp
      · have := hl.had (by simp [ht])
        simp [need, ht, this]

/-- The state after an improvement, for any new queue. -/
theorem refines_improve {N : Nat} {d : DData β} {a : Abs β} (hr : Refines N d a) {u nd : Nat} (hu : u < N) (hlt : nd < a.D u) (pv : Nat × β) :
    ∃ dist, d.dist.modify u (fun l => if nd < l then nd else l) = some dist ∧ dist.get u = some nd ∧
      upd d.pred u pv = some (d.pred.set u pv) ∧
      ∀ q Q', IHeap.Rep N q (fun v => (Q' v).map (fun k => (⟨k, v⟩ : QState))) →
        Refines N ⟨dist, d.pred.set u pv, q⟩ ⟨fupd a.D u nd, Q', fupd a.P u pv⟩ := by
  obtain ⟨dist, hd1, hd2, hd3, hd4⟩ := hr.modify hu (fun l => if nd < l then nd else l)
  simp only [hlt, if_true] at hd3 hd4
  have hpl : u < d.pred.length := by rw [hr.plen]; exact hu
  refine ⟨dist, hd1, hd3, upd_of_lt _ hpl, ?_⟩
  intro q Q' hq
  refine ⟨hd4, hd2, hq, by simp [hr.plen], ?_⟩
  intro x hx
  by_cases hxu : x = u
  · subst hxu; simp [hr.plen, hx]
  · simp only
    rw [List.getElem?_set_ne (by omega), hr.pred x hx, fupd_of_ne _ _ hxu]

theorem refines_same {N : Nat} {d : DData β} {a : Abs β} (hr : Refines N d a) {u nd : Nat} (hu : u < N) (hlt : ¬ nd < a.D u) :
    ∃ dist, d.dist.modify u (fun l => if nd < l then nd else l) = some dist ∧ Refines N { d with dist := dist } a := by
  obtain ⟨dist, hd1, hd2, hd3, hd4⟩ := hr.modify hu (fun l => if nd < l then nd else l)
  simp only [hlt, if_false] at hd3 hd4
  refine ⟨dist, hd1, ?_, hd2, hr.queue, hr.plen, hr.pred⟩
  have : fupd a.D u (a.D u) = a.D := by
    funext x; unfold fupd; split
    · subst_vars; rfl
    · rfl
  rw [this] at hd4
  exact hd4

/-- the outcome of a chain step before the second edge is considered -/
structure StepOut (p : Prob α β) (sk : Skip) (deg : Nat → Option SymDeg) (s τ : Nat) (J : σ → Prop) (N : Nat) (O : Nat → α → Prop) (a : Abs β) (k : Nat)
    (d' : DData β) (loc' : Loc α β) (s' : σ) (a' : Abs β) (g' : Option (Nat × α)) (V' : List Nat) : Prop where
  ref : Refines N d' a'
  inv : TInv p sk deg s τ (pendOf O loc' g') a'
  loc : LocOK p a' loc' g' V'
  ext : Ext a a'
  j : J s'
  need : need p loc' g' V' < k

theorem filter_one {γ : Type} {l : List γ} {f : γ → Bool} (h : (l.filter f).length ≤ 1) {x : γ} (hx : x ∈ l) (hf : f x = true) :
    (l.filter f).getLast? = some x := by
  have hm : x ∈ l.filter f := by simp [hx, hf]
  cases hl : l.filter f with
  | nil => rw [hl] at hm; simp at hm
  | cons y t =>
    rw [hl] at hm h
    cases t with
    | nil => simp at hm; simp [hm]
    | cons z t => simp at h

theorem filter_two {γ : Type} {l : List γ} {f : γ → Bool} (h : (l.filter f).length ≤ 2) {x : γ} (hx : x ∈ l) (hf : f x = true) :
    (l.filter f).head? = some x ∨ (l.filter f).tail.getLast? = some x := by
  have hm : x ∈ l.filter f := by simp [hx, hf]
  cases hl : l.filter f with
  | nil => rw [hl] at hm; simp at hm
  | cons y t =>
    rw [hl] at hm h
    cases t with
    | nil => simp at hm; simp [hm]
    | cons z t =>
      cases t with
      | nil => simp at hm; rcases hm with rfl | rfl <;> simp
      | cons w t => simp at h

theorem chainBody_spec (hp : p.OK) (hdeg : DegOK p deg) {cl : Closures σ} {J : σ → Prop} (hcl : ClOK p cl J) {N : Nat} (hN : p.n ≤ N)
    {O : Nat → α → Prop} {d : DData β} {a : Abs β} {loc : Loc α β} {x : Nat} {b : α} {V : List Nat} {c : σ}
    (hr : Refines N d a) (hi : TInv p sk deg s τ (pendOf O loc (some (x, b))) a) (hl : LocOK p a loc (some (x, b)) V) (hj : J c) :
    ∃ d' loc' c' a' g' V', chainBody sk ⟨p.links, deg⟩ p.ops cl ⟨(x, p.ops.predLink b), p.ops.head b, p.lf b (a.D x)⟩ d loc c = some (d', loc', c') ∧
      StepOut p sk deg s τ J N O a (need p loc (some (x, b)) V) d' loc' c' a' g' V' ∧ (g' = none → loc'.degThree = none) := by
  obtain ⟨hxn, hxD, ls, hls, hb⟩ := hl.cur x b rfl
  have hun := hp.heads x ls b hls hb
  have huN := Nat.lt_of_lt_of_le hun hN
  have hget := hr.get huN
  have hVlen := hl.length_le
  -- it is enough to describe the state before `second`
  suffices H : ∃ d' loc' c' a' g' V', (∀ r, second p.ops d' loc' = some r →
        chainBody sk ⟨p.links, deg⟩ p.ops cl ⟨(x, p.ops.predLink b), p.ops.head b, p.lf b (a.D x)⟩ d loc c = some (d', r, c')) ∧
      StepOut p sk deg s τ J N O a (need p loc (some (x, b)) V) d' loc' c' a' g' V' by
    obtain ⟨d', loc', c', a', g', V', h1, h2⟩ := H
    obtain ⟨loc2, g2, V2, k1, k2, k3, k4, k5⟩ := second_spec hp hN h2.ref h2.inv h2.loc
    exact ⟨d', loc2, c', a', g2, V2, h1 _ k1, ⟨h2.ref, k2, k3, h2.ext, h2.j, Nat.lt_of_le_of_lt k5 h2.need⟩, k4⟩
  by_cases hlt : p.lf b (a.D x) < a.D (p.ops.head b)
  · -- improvement
    have hge := hp.ge x ls b (a.D x) hls hb
    have hlinf : p.lf b (a.D x) < INFINITY := Nat.lt_of_lt_of_le hlt (hi.ub _)
    have hux : p.ops.head b ≠ x := by intro h; rw [h] at hlt; omega
    obtain ⟨dist, hd1, hd2, hd3, hd4⟩ := refines_improve hr huN hlt (x, p.ops.predLink b)
    obtain ⟨lu, hlu⟩ := hp.total _ hun
    have hcont := IHeap.rep_containsIndex hr.queue huN
    have hdecr : ∀ k, a.Q (p.ops.head b) = some k → p.lf b (a.D x) + p.pi (p.ops.head b) ≤ k := by
      intro k hk; have := (hi.queue _ k hk).2.2.2.1; omega
    -- the labels of other nodes
    have hDne : ∀ y, y ≠ p.ops.head b → fupd a.D (p.ops.head b) (p.lf b (a.D x)) y = a.D y := fun y hy => fupd_of_ne _ _ hy
    have hDle : ∀ y, fupd a.D (p.ops.head b) (p.lf b (a.D x)) y ≤ a.D y := by
      intro y; unfold fupd; split
      · subst_vars; omega
      · exact Nat.le_refl _
    have hthree' : ∀ y e, loc.degThree = some (y, e) → y < p.n ∧ fupd a.D (p.ops.head b) (p.lf b (a.D x)) y < INFINITY ∧ ∃ ls, p.links y = some ls ∧ e ∈ ls := by
      intro y e he
      obtain ⟨h1, h2, h3⟩ := hl.three y e he
      exact ⟨h1, Nat.lt_of_le_of_lt (hDle y) h2, h3⟩
    -- case: the node is queued
    have endpt : ¬ Passed sk deg (p.ops.head b) →
        branch sk ⟨p.links, deg⟩ p.ops cl d.queue x (p.ops.head b) (p.lf b (a.D x)) { loc with chain := none } c =
          some (⟨none, true⟩, { loc with chain := none }, c) →
        ∃ d' loc' c' a' g' V', (∀ r, second p.ops d' loc' = some r →
          chainBody sk ⟨p.links, deg⟩ p.ops cl ⟨(x, p.ops.predLink b), p.ops.head b, p.lf b (a.D x)⟩ d loc c = some (d', r, c')) ∧
        StepOut p sk deg s τ J N O a (need p loc (some (x, b)) V) d' loc' c' a' g' V' := by
      intro hnp hbr
      obtain ⟨q', c', hq1, hq2, hq3⟩ := enqueue_spec hcl hN hr.queue hun hlinf hdecr hj
      have himp := hi.improve hp hls hb hxD hlt (Q' := qset p a.Q (p.ops.head b) (p.lf b (a.D x))) (pend' := pendOf (β := β) O { loc with chain := none } none)
        (by intro y hy; unfold qset; split
            · exact fupd_of_ne _ _ hy
            · rfl)
        (by
          intro k hk
          unfold qset at hk
          split at hk
          · rename_i hpi
            simp at hk
            exact ⟨hpi, hk.symm, hnp⟩
          · obtain ⟨_, _, h3, _⟩ := hi.queue _ k hk
            contradiction)
        (by
          intro v e _ hn
          simp only [pendOf, not_or] at hn ⊢
          by_cases he : v = x ∧ e = b
          · exact .inr he
          · left
            refine ⟨hn.1, ?_, hn.2.2⟩
            simp; intro h1 h2; exact he ⟨h1.symm, h2.symm⟩)
        (by
          intro hq hpi
          simp [qset, hpi] at hq)
      refine ⟨_, { loc with chain := none }, c', _, none, V, ?_, hd4 q' _ hq3, himp.1, ?_, himp.2, hq2, ?_⟩
      · intro r hsec
        simp only [chainBody, hget, hd1, hlt, hd2, hd3, if_true, Option.bind_eq_bind, Option.bind_some, hbr, advance, hq1, hsec, Option.pure_def]
      · exact ⟨by simp, by simp, hthree', hl.had, hl.nodup, hl.lt, by simp⟩
      · simp only [need]
        cases hdt : loc.degThree <;> simp <;> omega
    obtain ⟨cls, hcls⟩ := hdeg.total _ hun
    cases cls with
    | greaterEqFour =>
      apply endpt
      · simp [Passed, hcls]
      · simp [branch, hcls]
    | lessEqTwo =>
      by_cases h2 : sk.deg2 = true
      · -- continue through a node of degree two
        have hnoq : a.Q (p.ops.head b) = none := by
          cases hq : a.Q (p.ops.head b) with
          | none => rfl
          | some k => exact absurd ⟨h2, hcls⟩ (hi.queue _ k hq).2.2.2.2
        have hbr : branch sk ⟨p.links, deg⟩ p.ops cl d.queue x (p.ops.head b) (p.lf b (a.D x)) { loc with chain := none } c =
            some (⟨lastOther p.ops x lu, false⟩, { loc with chain := none }, c) := by
          simp [branch, hcls, h2, hlu]
        have hone := hdeg.two x ls b lu hls hb hcls hlu
        have himp : ∀ g', (∀ e, lastOther p.ops x lu = some e → g' = some (p.ops.head b, e)) → _ := fun g' hg' =>
          hi.improve hp hls hb hxD hlt (Q' := a.Q) (pend' := pendOf (β := β) O { loc with chain := none } g')
          (fun y _ => rfl) (by intro k hk; rw [hnoq] at hk; simp at hk)
          (by
            intro v e _ hn
            simp only [pendOf, not_or] at hn ⊢
            by_cases he : v = x ∧ e = b
            · exact .inr he
            · left
              refine ⟨hn.1, ?_, hn.2.2⟩
              simp; intro h1 h2; exact he ⟨h1.symm, h2.symm⟩)
          (by
            intro _ _ lu' e hlu' he hn
            rw [hlu] at hlu'; cases hlu'
            by_contra hne
            have := filter_one hone he (by simp [hne])
            rw [← lastOther_spec] at this
            apply hn
            simp only [pendOf]
            exact .inr (.inl (hg' e this)))
        cases ho : lastOther p.ops x lu with
        | none =>
          have himp := himp none (by intro e he; rw [ho] at he; simp at he)
          refine ⟨_, { loc with chain := none }, c, _, none, V, ?_, hd4 d.queue _ hr.queue, himp.1, ?_, himp.2, hj, ?_⟩
          · intro r hsec
            simp only [chainBody, hget, hd1, hlt, hd2, hd3, if_true, Option.bind_eq_bind, Option.bind_some, hbr, advance, ho, hsec, Option.pure_def,
              Bool.false_eq_true, if_false]
          · exact ⟨by simp, by simp, hthree', hl.had, hl.nodup, hl.lt, by simp⟩
          · simp only [need]
            cases hdt : loc.degThree <;> simp <;> omega
        | some e =>
          have himp := himp (some (p.ops.head b, e)) (by intro e' he; rw [ho] at he; cases he; rfl)
          have heu : e ∈ lu := by
            have := lastOther_spec p.ops x lu
            rw [ho] at this
            have := List.mem_of_getLast? this.symm
            simp at this; exact this.1
          have hge2 := hp.ge _ lu e (p.lf b (a.D x)) hlu heu
          have hnotin : p.ops.head b ∉ V := by
            intro hz; have := hl.vis x b rfl _ hz; omega
          refine ⟨_, { loc with chain := some ⟨(p.ops.head b, p.ops.predLink e), p.ops.head e, p.lf e (p.lf b (a.D x))⟩ }, c, _, some (p.ops.head b, e),
            p.ops.head b :: V, ?_, hd4 d.queue _ hr.queue, himp.1, ?_, himp.2, hj, ?_⟩
          · intro r hsec
            simp only [chainBody, hget, hd1, hlt, hd2, hd3, if_true, Option.bind_eq_bind, Option.bind_some, hbr, advance, ho, Option.pure_def,
              follow_spec hp hlu heu hlinf, hsec]
          · refine ⟨by simp, ?_, hthree', hl.had, List.nodup_cons.2 ⟨hnotin, hl.nodup⟩, ?_, ?_⟩
            · intro y e' hy
              simp at hy
              obtain ⟨rfl, rfl⟩ := hy
              exact ⟨hun, by simpa using hlinf, lu, hlu, heu⟩
            · intro z hz
              simp at hz
              rcases hz with rfl | hz
              · exact hun
              · exact hl.lt z hz
            · intro y e' hy z hz
              simp at hy hz
              obtain ⟨rfl, rfl⟩ := hy
              simp only [fupd_same]
              rcases hz with rfl | hz
              · simpa using hge2
              · have := hl.vis x b rfl z hz
                have := hDle z
                omega
          · have h1 : (p.ops.head b :: V).length ≤ p.n := by
              have := (List.subperm_of_subset (List.nodup_cons.2 ⟨hnotin, hl.nodup⟩) (l₂ := List.range p.n) (by
                intro z hz
                simp at hz ⊢
                rcases hz with rfl | hz
                · exact hun
                · exact hl.lt z hz)).length_le
              simpa using this
            simp only [need, List.length_cons] at h1 ⊢
            omega
      · apply endpt
        · simp [Passed, h2]
        · simp [branch, hcls, h2]
    | three =>
      by_cases h3 : sk.deg3 = true ∧ loc.hadDegThree = false
      · cases hq : a.Q (p.ops.head b) with
        | some k =>
          simp only [hq, Option.map_some, Option.isSome_some] at hcont
          apply endpt
          · simp [Passed, hcls]
          · simp [branch, hcls, h3, hcont]
        | none =>
          simp only [hq, Option.map_none, Option.isSome_none] at hcont
          obtain ⟨c1, hc1, hc2⟩ := hcl.imp c _ _ hj hun hlinf
          have hdt : loc.degThree = none := by
            cases hdt : loc.degThree with
            | none => rfl
            | some q => have := hl.had (by simp [hdt]); rw [h3.2] at this; simp at this
          have htwo := hdeg.three x ls b lu hls hb hcls hlu
          obtain ⟨o1, o2, hto⟩ : ∃ o1 o2, twoOthers p.ops x lu = (o1, o2) := ⟨_, _, rfl⟩
          have hspec := twoOthers_spec p.ops x lu
          rw [hto] at hspec
          injection hspec with hs1 hs2
          have hbr : branch sk ⟨p.links, deg⟩ p.ops cl d.queue x (p.ops.head b) (p.lf b (a.D x)) { loc with chain := none } c =
              some (⟨o1, false⟩, ⟨none, o2.map (fun e => (p.ops.head b, e)), true⟩, c1) := by
            simp [branch, hcls, h3, hlu, hcont, hc1, hto, hdt]
          have himp : ∀ g', (∀ e, o1 = some e → g' = some (p.ops.head b, e)) → _ := fun g' hg' =>
            hi.improve hp hls hb hxD hlt (Q' := a.Q)
            (pend' := pendOf O ({ chain := none, degThree := o2.map (fun e => (p.ops.head b, e)), hadDegThree := true } : Loc α β) g')
            (fun y _ => rfl) (by intro k hk; rw [hq] at hk; simp at hk)
            (by
              intro v e _ hn
              simp only [pendOf, not_or] at hn ⊢
              by_cases he : v = x ∧ e = b
              · exact .inr he
              · left
                refine ⟨hn.1, ?_, by simp [hdt]⟩
                simp; intro h1 h2; exact he ⟨h1.symm, h2.symm⟩)
            (by
              intro _ _ lu' e hlu' he hn
              rw [hlu] at hlu'; cases hlu'
              by_contra hne
              apply hn
              simp only [pendOf]
              rcases filter_two htwo he (by simp [hne]) with h | h
              · rw [← hs1] at h; exact .inr (.inl (hg' e h))
              · rw [← hs2] at h; exact .inr (.inr (by simp [h])))
          have ho2 : ∀ y e, o2.map (fun e => (p.ops.head b, e)) = some (y, e) → y = p.ops.head b ∧ e ∈ lu := by
            intro y e he
            simp only [Option.map_eq_some_iff, Prod.mk.injEq] at he
            obtain ⟨e', h1, rfl, rfl⟩ := he
            refine ⟨rfl, ?_⟩
            rw [hs2] at h1
            have := List.mem_of_mem_tail (List.mem_of_getLast? h1)
            simp at this; exact this.1
          have hthree2 : ∀ y e, o2.map (fun e => (p.ops.head b, e)) = some (y, e) →
              y < p.n ∧ fupd a.D (p.ops.head b) (p.lf b (a.D x)) y < INFINITY ∧ ∃ ls, p.links y = some ls ∧ e ∈ ls := by
            intro y e he
            obtain ⟨rfl, h2⟩ := ho2 y e he
            exact ⟨hun, by simpa using hlinf, lu, hlu, h2⟩
          cases o1 with
          | none =>
            have ho2n : o2 = none := by
              rw [hs2]
              have : lu.filter (fun e => decide (p.ops.head e ≠ x)) = [] := by
                simpa only [List.head?_eq_none_iff] using hs1.symm
              rw [this]; rfl
            subst ho2n
            have himp := himp none (by simp)
            refine ⟨_, ⟨none, none, true⟩, c1, _, none, V, ?_, hd4 d.queue _ hr.queue, himp.1, ?_, himp.2, hc2, ?_⟩
            · intro r hsec
              simp only [Option.map_none] at hbr
              simp only [chainBody, hget, hd1, hlt, hd2, hd3, if_true, Option.bind_eq_bind, Option.bind_some, hbr, advance, hsec, Option.pure_def,
                Bool.false_eq_true, if_false]
            · exact ⟨by simp, by simp, by simp, by simp, hl.nodup, hl.lt, by simp⟩
            · simp [need]; omega
          | some e =>
            have himp := himp (some (p.ops.head b, e)) (by simp)
            have heu : e ∈ lu := by
              have := List.mem_of_head? hs1.symm
              simp at this; exact this.1
            have hge2 := hp.ge _ lu e (p.lf b (a.D x)) hlu heu
            have hnotin : p.ops.head b ∉ V := by
              intro hz; have := hl.vis x b rfl _ hz; omega
            refine ⟨_, ⟨some ⟨(p.ops.head b, p.ops.predLink e), p.ops.head e, p.lf e (p.lf b (a.D x))⟩, o2.map (fun e => (p.ops.head b, e)), true⟩, c1, _,
              some (p.ops.head b, e), p.ops.head b :: V, ?_, hd4 d.queue _ hr.queue, himp.1, ?_, himp.2, hc2, ?_⟩
            · intro r hsec
              simp only [chainBody, hget, hd1, hlt, hd2, hd3, if_true, Option.bind_eq_bind, Option.bind_some, hbr, advance, Option.pure_def,
                follow_spec hp hlu heu hlinf, hsec]
            · refine ⟨by simp, ?_, hthree2, by simp, List.nodup_cons.2 ⟨hnotin, hl.nodup⟩, ?_, ?_⟩
              · intro y e' hy
                simp at hy
                obtain ⟨rfl, rfl⟩ := hy
                exact ⟨hun, by simpa using hlinf, lu, hlu, heu⟩
              · intro z hz
                simp at hz
                rcases hz with rfl | hz
                · exact hun
                · exact hl.lt z hz
              · intro y e' hy z hz
                simp at hy hz
                obtain ⟨rfl, rfl⟩ := hy
                simp only [fupd_same]
                rcases hz with rfl | hz
                · simpa using hge2
                · have := hl.vis x b rfl z hz
                  have := hDle z
                  omega
            · have h1 : (p.ops.head b :: V).length ≤ p.n := by
                have := (List.subperm_of_subset (List.nodup_cons.2 ⟨hnotin, hl.nodup⟩) (l₂ := List.range p.n) (by
                  intro z hz
                  simp at hz ⊢
                  rcases hz with rfl | hz
                  · exact hun
                  · exact hl.lt z hz)).length_le
                simpa using this
              simp only [need, List.length_cons, h3.2, Bool.false_and, Bool.false_eq_true, if_false] at h1 ⊢
              split <;> omega
      · apply endpt
        · simp [Passed, hcls]
        · have : (!sk.deg3 || loc.hadDegThree) = true := by
            cases h4 : sk.deg3 <;> cases h5 : loc.hadDegThree <;> simp_all
          simp [branch, hcls, this]
  · -- no improvement
    obtain ⟨dist, hd1, hd2⟩ := refines_same hr huN hlt
    refine ⟨{ d with dist := dist }, { loc with chain := none }, c, a, none, V, ?_, hd2, ?_, ?_, Ext.refl a, hj, ?_⟩
    · intro r hsec
      simp only [chainBody, hget, hd1, hlt, if_false, Option.bind_eq_bind, Option.bind_some, hsec, Option.pure_def]
    · apply hi.skip hlt
      intro v e hn
      simp only [pendOf, not_or] at hn ⊢
      by_cases he : v = x ∧ e = b
      · exact .inr he
      · left
        refine ⟨hn.1, ?_, hn.2.2⟩
        simp; intro h1 h2; exact he ⟨h1.symm, h2.symm⟩
    · exact ⟨by simp, by simp, hl.three, hl.had, hl.nodup, hl.lt, by simp⟩
    · simp only [need]
      cases hdt : loc.degThree <;> simp <;> omega

theorem chainLoop_spec (hp : p.OK) (hdeg : DegOK p deg) {cl : Closures σ} {J : σ → Prop} (hcl : ClOK p cl J) {N : Nat} (hN : p.n ≤ N)
    {O : Nat → α → Prop} : ∀ (fuel : Nat) {d : DData β} {a : Abs β} {loc : Loc α β} {g : Option (Nat × α)} {V : List Nat} {c : σ},
    Refines N d a → TInv p sk deg s τ (pendOf O loc g) a → LocOK p a loc g V → (g = none → loc.degThree = none) → J c → need p loc g V ≤ fuel →
    ∃ d' c' a', chainLoop sk ⟨p.links, deg⟩ p.ops cl fuel d loc c = some (d', c') ∧ Refines N d' a' ∧ TInv p sk deg s τ O a' ∧ Ext a a' ∧ J c' := by
  intro fuel
  induction fuel with
  | zero =>
    intro d a loc g V c hr hi hl hd hj hf
    exfalso
    cases g with
    | none => simp [need, hd rfl] at hf
    | some q => simp [need] at hf
  | succ fuel ih =>
    intro d a loc g V c hr hi hl hd hj hf
    cases g with
    | none =>
      have hc := hl.chain
      simp at hc
      refine ⟨d, c, a, by simp [chainLoop, hc], hr, ?_, Ext.refl a, hj⟩
      apply hi.mono
      intro v b hb
      rcases hb with hb | hb | hb
      · exact hb
      · simp at hb
      · rw [hd rfl] at hb; simp at hb
    | some q =>
      obtain ⟨x, b⟩ := q
      have hc := hl.chain
      simp at hc
      obtain ⟨d1, loc1, c1, a1, g1, V1, h1, h2, h3⟩ := chainBody_spec hp hdeg hcl hN hr hi hl hj
      obtain ⟨d2, c2, a2, h4, h5, h6, h7, h8⟩ := ih h2.ref h2.inv h2.loc h3 h2.j (by have := h2.need; omega)
      refine ⟨d2, c2, a2, ?_, h5, h6, h2.ext.trans h7, h8⟩
      simp only [chainLoop, hc, h1, Option.bind_eq_bind, Option.bind_some]
      exact h4

theorem relaxEdge_spec (hp : p.OK) (hdeg : DegOK p deg) {cl : Closures σ} {J : σ → Prop} (hcl : ClOK p cl J) {N : Nat} (hN : p.n ≤ N)
    {O : Nat → α → Prop} {d : DData β} {a : Abs β} {v : Nat} {b : α} {ls : List α} {c : σ} (hvn : v < p.n) (hls : p.links v = some ls) (hb : b ∈ ls)
    (hv : a.D v < INFINITY) (hr : Refines N d a) (hi : TInv p sk deg s τ (fun y e => O y e ∨ (y = v ∧ e = b)) a) (hj : J c) :
    ∃ d' c' a', relaxEdge p.n sk ⟨p.links, deg⟩ p.ops cl v (d, c) b = some (d', c') ∧ Refines N d' a' ∧ TInv p sk deg s τ O a' ∧ Ext a a' ∧ J c' := by
  have hget := hr.get (Nat.lt_of_lt_of_le hvn hN)
  have := chainLoop_spec (O := O) hp hdeg hcl hN (2 * p.n + 4) (loc := ⟨some ⟨(v, p.ops.predLink b), p.ops.head b, p.lf b (a.D v)⟩, none, false⟩)
    (g := some (v, b)) (V := []) hr (hi.mono (by
      intro y e he
      rcases he with he | ⟨rfl, rfl⟩
      · exact .inl he
      · exact .inr (.inl rfl)))
    ⟨by simp, by
      intro x e hx
      simp at hx
      obtain ⟨rfl, rfl⟩ := hx
      exact ⟨hvn, hv, ls, hls, hb⟩, by simp, by simp, by simp, by simp, by simp⟩ (by simp) hj (by simp [need]; omega)
  obtain ⟨d', c', a', h1, h2⟩ := this
  refine ⟨d', c', a', ?_, h2⟩
  simp only [relaxEdge, hget, follow_spec hp hls hb hv, Option.bind_eq_bind, Option.bind_some]
  exact h1

theorem fold_spec (hp : p.OK) (hdeg : DegOK p deg) {cl : Closures σ} {J : σ → Prop} (hcl : ClOK p cl J) {N : Nat} (hN : p.n ≤ N)
    {v : Nat} {ls : List α} (hvn : v < p.n) (hls : p.links v = some ls) : ∀ (rest : List α), (∀ e ∈ rest, e ∈ ls) →
    ∀ {d : DData β} {a : Abs β} {c : σ}, a.D v < INFINITY → Refines N d a → TInv p sk deg s τ (fun y e => y = v ∧ e ∈ rest) a → J c →
    ∃ d' c' a', rest.foldlM (relaxEdge p.n sk ⟨p.links, deg⟩ p.ops cl v) (d, c) = some (d', c') ∧ Refines N d' a' ∧
      TInv p sk deg s τ (fun _ _ => False) a' ∧ Ext a a' ∧ J c' := by
  intro rest
  induction rest with
  | nil =>
    intro _ d a c hv hr hi hj
    exact ⟨d, c, a, rfl, hr, hi.mono (by simp), Ext.refl a, hj⟩
  | cons b rest ih =>
    intro hsub d a c hv hr hi hj
    obtain ⟨d1, c1, a1, h1, h2, h3, h4, h5⟩ := relaxEdge_spec (O := fun y e => y = v ∧ e ∈ rest) hp hdeg hcl hN hvn hls (hsub b (by simp)) hv hr
      (hi.mono (by
        intro y e he
        obtain ⟨rfl, he⟩ := he
        simp at he
        rcases he with rfl | he
        · exact .inr ⟨rfl, rfl⟩
        · exact .inl ⟨rfl, he⟩)) hj
    obtain ⟨d2, c2, a2, h6, h7, h8, h9, h10⟩ := ih (fun e he => hsub e (by simp [he])) (Nat.lt_of_le_of_lt (h4 v).1 hv) h2 h3 h5
    refine ⟨d2, c2, a2, ?_, h7, h8, h4.trans h9, h10⟩
    simp only [List.foldlM_cons, h1, Option.bind_eq_bind, Option.bind_some]
    exact h6
end

/-! ### The search -/

/-- the nodes that have been popped: their labels are final -/
structure Sett (p : Prob α β) (s τ : Nat) (a : Abs β) (S : List Nat) : Prop where
  nodup : S.Nodup
  lt : ∀ v ∈ S, v < p.n
  out : ∀ v ∈ S, a.Q v = none
  exact : ∀ v ∈ S, ∀ x, TWalk p.F s τ v x → x < INFINITY → a.D v ≤ x

/-- the potential is undefined only at sets of nodes that cannot be left towards nodes with potential -/
def Closed (p : Prob α β) : Prop := ∀ v ls b, p.links v = some ls → b ∈ ls → p.pi (p.ops.head b) < INFINITY → p.pi v < INFINITY

section
variable {p : Prob α β} {sk : Skip} {deg : Nat → Option SymDeg} {s τ : Nat}

theorem Sett.length_le {a : Abs β} {S : List Nat} (h : Sett p s τ a S) : S.length ≤ p.n := by
  have := (List.subperm_of_subset h.nodup (l₂ := List.range p.n) (by intro y hy; simpa using h.lt y hy)).length_le
  simpa using this

theorem Sett.ext {a a' : Abs β} {S : List Nat} (h : Sett p s τ a S) (hub' : ∀ v, a.D v ≤ INFINITY) (he : Ext a a') (hi : TInv p sk deg s τ (fun _ _ => False) a') : Sett p s τ a' S := by
  refine ⟨h.nodup, h.lt, ?_, ?_⟩
  · intro v hv
    have h1 := he v
    have hub := hi.ub v
    have heq : a'.D v = a.D v := by
      by_cases hd : a'.D v < INFINITY
      · have := h.exact v hv _ (hi.walk v hd) hd; omega
      · have := h1.1
        have := hub' v
        omega
    rw [h1.2 heq, h.out v hv]
  · intro v hv x hw hx
    have := h.exact v hv x hw hx
    have := (he v).1
    omega

theorem walk_ge (hp : p.OK) {v x : Nat} (h : TWalk p.F s τ v x) : τ ≤ x := by
  induction h with
  | nil => exact Nat.le_refl _
  | snoc _ h ih =>
    obtain ⟨ls, b, h1, h2, _, rfl⟩ := h
    exact Nat.le_trans ih (hp.ge _ ls b _ h1 h2)

theorem settle_spec (hp : p.OK) (hclo : Closed p) (hdeg : DegOK p deg) {cl : Closures σ} {J : σ → Prop} (hcl : ClOK p cl J) {N : Nat} (hN : p.n ≤ N)
    (hs : s < p.n) {S : List Nat} {a : Abs β} {d : DData β} {c : σ} (hr : Refines N d a) (hi : TInv p sk deg s τ (fun _ _ => False) a)
    (hS : Sett p s τ a S) (hj : J c) :
    (settleNext p.n sk ⟨p.links, deg⟩ p.ops cl d c = some (none, d, c) ∧ ∀ v, a.Q v = none) ∨
    ∃ v d' c' a', settleNext p.n sk ⟨p.links, deg⟩ p.ops cl d c = some (some v, d', c') ∧ Refines N d' a' ∧
      TInv p sk deg s τ (fun _ _ => False) a' ∧ Sett p s τ a' (v :: S) ∧ J c' := by
  rcases IHeap.rep_pop hr.queue with ⟨h1, h2⟩ | ⟨x, q, h1, h2, h3, h4⟩
  · left
    refine ⟨by simp [settleNext, h1], ?_⟩
    intro v; have := h2 v; simpa using this
  · right
    simp only [idx_q, Option.map_eq_some_iff] at h2
    obtain ⟨k, hk, hx⟩ := h2
    obtain ⟨hvn, hvD, hvpi, hkd, hnp⟩ := hi.queue _ k hk
    obtain ⟨ls, hls⟩ := hp.total x.node hvn
    have hmin : ∀ u k', a.Q u = some k' → k ≤ k' := by
      intro u k' hu
      have := h3 u ⟨k', u⟩ (by simp [hu])
      have hkey : x.key = k := by rw [← hx]
      simp only [IHeap.le, HeapElem.lt] at this
      simp at this; omega
    have hr1 : Refines N { d with queue := q } { a with Q := fupd a.Q x.node none } := by
      refine ⟨hr.dist, hr.default, ?_, hr.plen, hr.pred⟩
      convert h4 using 1
      funext u
      by_cases hu : u = x.node
      · subst hu; simp [idx_q]
      · simp only [idx_q]; rw [fupd_of_ne _ _ hu, fupd_of_ne _ _ hu]
    have hi1 : TInv p sk deg s τ (fun y e => y = x.node ∧ e ∈ ls) { a with Q := fupd a.Q x.node none } := by
      refine ⟨hi.src, hi.lb, hi.ub, ?_, ?_, hi.chain, hi.walk⟩
      · intro v k' hv
        simp only at hv
        by_cases hvx : v = x.node
        · subst hvx; simp at hv
        · rw [fupd_of_ne _ _ hvx] at hv; exact hi.queue v k' hv
      · intro v g1 g2 g3 g4 lv e g5 g6 g7
        by_cases hvx : v = x.node
        · subst hvx
          rw [hls] at g5; cases g5
          exact absurd ⟨rfl, g6⟩ g7
        · simp only at g3
          rw [fupd_of_ne _ _ hvx] at g3
          exact hi.relaxed v g1 g2 g3 g4 lv e g5 g6 (by simp)
    have hS1 : Sett p s τ { a with Q := fupd a.Q x.node none } (x.node :: S) := by
      refine ⟨List.nodup_cons.2 ⟨?_, hS.nodup⟩, ?_, ?_, ?_⟩
      · intro hm; have := hS.out _ hm; rw [hk] at this; simp at this
      · intro v hv
        simp at hv
        rcases hv with rfl | hv
        · exact hvn
        · exact hS.lt v hv
      · intro v hv
        by_cases hvx : v = x.node
        · subst hvx; simp
        · simp only; rw [fupd_of_ne _ _ hvx]
          simp [hvx] at hv; exact hS.out v hv
      · intro v hv y hw hy
        simp at hv
        rcases hv with rfl | hv
        · rcases hi.frontier hp hclo hs hw hy hvpi with h | ⟨u, k', g1, g2⟩
          · exact h
          · have := hmin u k' g1; simp only; omega
        · exact hS.exact v hv y hw hy
    obtain ⟨d', c', a', h5, h6, h7, h8, h9⟩ := fold_spec hp hdeg hcl hN hvn hls ls (fun _ h => h) (a := { a with Q := fupd a.Q x.node none }) hvD hr1 hi1 hj
    refine ⟨x.node, d', c', a', ?_, h6, h7, hS1.ext hi.ub h8 h7, h9⟩
    simp only [settleNext, h1, hls, Option.bind_eq_bind, Option.bind_some]
    simp [h5]

/-- The first step: the source is popped. -/
theorem start_spec (hp : p.OK) (hdeg : DegOK p deg) {cl : Closures σ} {J : σ → Prop} (hcl : ClOK p cl J) {N : Nat} (hN : p.n ≤ N)
    {P : Nat → Nat × β} {d1 : DData β} {c : σ} (hr1 : Refines N d1 ⟨fupd (fun _ => INFINITY) s τ, fupd (fun _ => none) s (some τ), P⟩) (hs : s < p.n)
    (hτ : τ < INFINITY) (hj : J c) :
    ∃ d' c' a', settleNext p.n sk ⟨p.links, deg⟩ p.ops cl d1 c = some (some s, d', c') ∧ Refines N d' a' ∧
      TInv p sk deg s τ (fun _ _ => False) a' ∧ Sett p s τ a' [s] ∧ J c' := by
  obtain ⟨ls, hls⟩ := hp.total s hs
  rcases IHeap.rep_pop hr1.queue with ⟨_, h3⟩ | ⟨x, q, h2, h3, _, h4⟩
  · have := h3 s; simp at this
  · have hxs : x.node = s := by
      apply Classical.byContradiction
      intro hne
      simp only [idx_q] at h3
      rw [fupd_of_ne _ _ hne] at h3
      simp at h3
    have hr2 : Refines N { d1 with queue := q } ⟨fupd (fun _ => INFINITY) s τ, fun _ => none, P⟩ := by
      refine ⟨hr1.dist, hr1.default, ?_, hr1.plen, hr1.pred⟩
      convert h4 using 1
      funext u
      by_cases hu : u = s
      · subst hu; simp [idx_q, hxs]
      · simp only [idx_q, hxs]; rw [fupd_of_ne _ _ hu, fupd_of_ne _ _ hu]
    have hne : ∀ v, fupd (fun _ => INFINITY) s τ v < INFINITY → v = s := by
      intro v h
      by_cases hv : v = s
      · exact hv
      · rw [fupd_of_ne _ _ hv] at h; omega
    have hi : TInv p sk deg s τ (fun y e => y = s ∧ e ∈ ls) ⟨fupd (fun _ => INFINITY) s τ, fun _ => none, P⟩ := by
      refine ⟨by simp, ?_, ?_, by simp, ?_, ?_, ?_⟩
      · intro v; simp only [fupd]; split <;> omega
      · intro v; simp only [fupd]; split <;> omega
      · intro v g1 g2 _ _ lv e g5 g6 g7
        have := hne v g2; subst this
        rw [hls] at g5; cases g5
        exact absurd ⟨rfl, g6⟩ g7
      · intro v hv
        have := hne v hv; subst this
        exact ⟨[], [], τ, .nil⟩
      · intro v hv
        have := hne v hv; subst this
        simp only [fupd_same]; exact .nil
    have hS : Sett p s τ ⟨fupd (fun _ => INFINITY) s τ, fun _ => none, P⟩ [s] := by
      refine ⟨by simp, by simpa using hs, by simp, ?_⟩
      intro v hv x hw _
      simp at hv; subst hv
      simpa using walk_ge hp hw
    obtain ⟨d', c', a', h5, h6, h7, h8, h9⟩ := fold_spec hp hdeg hcl hN hs hls ls (fun _ h => h)
      (a := ⟨fupd (fun _ => INFINITY) s τ, fun _ => none, P⟩) (by simpa using hτ) hr2 hi hj
    refine ⟨d', c', a', ?_, h6, h7, hS.ext hi.ub h8 h7, h9⟩
    simp only [settleNext, h2, hxs, hls, Option.bind_eq_bind, Option.bind_some]
    simp [h5]

theorem peekKey_spec {n : Nat} {d : DData β} {a : Abs β} (hr : Refines n d a) :
    (d.peekKey = none ∧ ∀ v, a.Q v = none) ∨
    ∃ v k, d.peekKey = some k ∧ a.Q v = some k ∧ ∀ u k', a.Q u = some k' → k ≤ k' := by
  rcases IHeap.rep_peek hr.queue with ⟨h1, h2⟩ | ⟨x, h1, h2, h3⟩
  · left
    refine ⟨by simp [peekKey, h1], fun v => ?_⟩
    have := h2 v; simpa using this
  · right
    simp only [idx_q, Option.map_eq_some_iff] at h2
    obtain ⟨k, hk, hx⟩ := h2
    have hkey : x.key = k := by rw [← hx]
    refine ⟨x.node, k, by simp [peekKey, h1, hkey], hk, ?_⟩
    intro u k' hu
    have := h3 u ⟨k', u⟩ (by simp [hu])
    simp only [IHeap.le, HeapElem.lt] at this
    simp at this; omega

/-- the state of the search when it stops -/
structure Stopped (p : Prob α β) (sk : Skip) (deg : Nat → Option SymDeg) (s τ t tp cap : Nat) (a : Abs β) : Prop where
  inv : TInv p sk deg s τ (fun _ _ => False) a
  stop : (∀ v k, a.Q v = some k → a.D t + tp ≤ k) ∨ (∀ v k, a.Q v = some k → cap < k)

theorem mayStop_spec {N : Nat} {d : DData β} {a : Abs β} (hr : Refines N d a) {t tp cap : Nat} (ht : t < N) (hD : a.D t ≤ INFINITY) (htp : tp < INFINITY) :
    ∃ b, mayStop d t tp cap = some b ∧ (b = true → (∀ v k, a.Q v = some k → a.D t + tp ≤ k) ∨ (∀ v k, a.Q v = some k → cap < k)) := by
  rcases peekKey_spec hr with ⟨h1, h2⟩ | ⟨v, k, h1, h2, h3⟩
  · exact ⟨false, by simp [mayStop, h1], by simp⟩
  · have hadd : add32 (a.D t) tp = some (a.D t + tp) := add32_of_lt (by simp only [INFINITY, U32] at *; omega)
    refine ⟨decide (k ≥ a.D t + tp) || decide (k > cap), by simp [mayStop, h1, hr.get ht, hadd], ?_⟩
    intro hb
    simp at hb
    rcases hb with hb | hb
    · left; intro u k' hu; have := h3 u k' hu; omega
    · right; intro u k' hu; have := h3 u k' hu; omega

theorem loop_spec (hp : p.OK) (hclo : Closed p) (hdeg : DegOK p deg) {P : Potential σ} {J : σ → Prop} (hcl : ClOK p (potClosures P) J) {N : Nat} (hN : p.n ≤ N)
    (hs : s < p.n) {t tp cap : Nat} (ht : t < p.n) (htp : tp < INFINITY) :
    ∀ (fuel : Nat) {S : List Nat} {a : Abs β} {d : DData β} {c : σ}, Refines N d a → TInv p sk deg s τ (fun _ _ => False) a → Sett p s τ a S → J c →
      p.n + 1 ≤ S.length + fuel →
    ∃ d' c' a', searchLoop p.n sk ⟨p.links, deg⟩ p.ops P t tp cap fuel d c = some (d', c') ∧ Refines N d' a' ∧ Stopped p sk deg s τ t tp cap a' ∧ J c' := by
  intro fuel
  induction fuel with
  | zero =>
    intro S a d c hr hi hS hj hf
    have := hS.length_le; omega
  | succ fuel ih =>
    intro S a d c hr hi hS hj hf
    rcases settle_spec hp hclo hdeg hcl hN hs hr hi hS hj with ⟨h1, h2⟩ | ⟨v, d', c', a', h1, h2, h3, h4, h5⟩
    · refine ⟨d, c, a, by simp [searchLoop, h1], hr, ⟨hi, .inl ?_⟩, hj⟩
      intro v k hv; rw [h2] at hv; simp at hv
    · obtain ⟨b, hb1, hb2⟩ := mayStop_spec (cap := cap) h2 (Nat.lt_of_lt_of_le ht hN) (h3.ub t) htp
      cases b with
      | true => exact ⟨d', c', a', by simp [searchLoop, h1, hb1], h2, ⟨h3, hb2 rfl⟩, h5⟩
      | false =>
        obtain ⟨d2, c2, a2, h6, h7⟩ := ih h2 h3 h4 h5 (by simp; omega)
        exact ⟨d2, c2, a2, by simp [searchLoop, h1, hb1, h6], h7⟩

theorem Stopped.exact (hp : p.OK) (hclo : Closed p) (hs : s < p.n) {t cap : Nat} (htp : p.pi t < INFINITY) {a : Abs β}
    (h : Stopped p sk deg s τ t (p.pi t) cap a) {x : Nat} (hw : TWalk p.F s τ t x) (hx : x < INFINITY) (hc : x + p.pi t ≤ cap) : a.D t ≤ x := by
  rcases h.inv.frontier hp hclo hs hw hx htp with h1 | ⟨y, k, h1, h2⟩
  · exact h1
  · rcases h.stop with h3 | h3
    · have := h3 y k h1; omega
    · have := h3 y k h1; omega

/-- the paths that a stopped search reports -/
theorem paths_spec (hp : p.OK) {N : Nat} (hN : p.n ≤ N) (hs : s < p.n) {d : DData β} {a : Abs β} (hr : Refines N d a)
    (hi : TInv p sk deg s τ (fun _ _ => False) a) {v : Nat} (hv : a.D v < INFINITY) :
    ∃ (ns : List Nat) (as : List α) (l : Nat), APath p s τ (ns ++ [v]) as l ∧ l ≤ a.D v ∧ nodePath d s v = some (ns ++ [v]) ∧
      edgePath d s v = some (as.map p.ops.predLink) := by
  obtain ⟨ns, as, l, hc⟩ := hi.chain v hv
  have hlen := hc.length_le hs
  have hl := hc.loop (d := d) (fun y hy => hr.pred y (Nat.lt_of_lt_of_le hy hN))
  have hpl := hr.plen
  refine ⟨ns, as, l, hc.apath, (hc.le hp hi.src hv).1, ?_, ?_⟩
  · simp [nodePath, hl.1 (d.pred.length + 1) [v] (by omega)]
  · simp [edgePath, hl.2 (d.pred.length + 1) [] (by omega)]

theorem APath.twalk {ns : List Nat} {as : List α} {l : Nat} (h : APath p s τ ns as l) : ∀ v, ns.getLast? = some v → TWalk p.F s τ v l := by
  induction h with
  | nil => intro v hv; simp at hv; subst hv; exact .nil
  | @snoc ns as u x ls b _ h1 h2 ih =>
    intro v hv
    simp at hv
    subst hv
    exact .snoc (ih u (by simp)) ⟨ls, b, h1, h2, rfl, rfl⟩

/-- `distance` on any server: the reported value is the arrival of a walk; it is the earliest if the earliest is at most the cap (with the potential of
the target). -/
theorem distance_spec (hp : p.OK) (hclo : Closed p) (hdeg : DegOK p deg) {P : Potential σ} {J : σ → Prop} (hcl : ClOK p (potClosures P) J)
    {t cap : Nat} (hs : s < p.n) (hτ : τ < INFINITY) (ht : t < p.n) {c : σ} {I : σ → Prop} (hc : I c) (hinit : ∀ c, I c → ∃ c', P.init c t = some c' ∧ J c')
    (htp : ∀ c, J c → ∃ c', P.get c t = some (c', some (p.pi t)) ∧ J c') (hpt : p.pi t < INFINITY) {d0 : DData β} {a0 : Abs β} (hr : Refines p.n d0 a0) :
    ∃ r d c' a, distance p.n sk ⟨p.links, deg⟩ p.ops P d0 c s τ t cap = some (r, d, c') ∧ J c' ∧ Refines p.n d a ∧ Stopped p sk deg s τ t (p.pi t) cap a ∧
      r = if a.D t < INFINITY then some (a.D t - τ) else none := by
  obtain ⟨d1, h1, hr1⟩ := init_refines hr hs τ
  obtain ⟨c1, h2, h3⟩ := hinit c hc
  obtain ⟨c2, h4, h5⟩ := htp c1 h3
  obtain ⟨d2, c3, a2, h6, h7, h8, h9, h10⟩ := start_spec (sk := sk) hp hdeg hcl (Nat.le_refl _) hr1 hs hτ h5
  have hdep : d1.dist.get s = some τ := by have := hr1.get hs; simpa using this
  obtain ⟨b, hb1, hb2⟩ := mayStop_spec (cap := cap) h7 ht (h8.ub t) hpt
  have key : ∃ d' c' a', searchLoop p.n sk ⟨p.links, deg⟩ p.ops P t (p.pi t) cap (p.n + 2) d1 c2 = some (d', c') ∧ Refines p.n d' a' ∧
      Stopped p sk deg s τ t (p.pi t) cap a' ∧ J c' := by
    cases b with
    | true => exact ⟨d2, c3, a2, by simp [searchLoop, h6, hb1], h7, ⟨h8, hb2 rfl⟩, h10⟩
    | false =>
      obtain ⟨d', c', a', g1, g2⟩ := loop_spec (cap := cap) hp hclo hdeg hcl (Nat.le_refl _) hs ht hpt (p.n + 1) h7 h8 h9 h10 (by simp)
      exact ⟨d', c', a', by rw [searchLoop]; simp [h6, hb1, g1], g2⟩
  obtain ⟨d', c', a', g1, g2, g3, g4⟩ := key
  refine ⟨_, d', c', a', ?_, g4, g2, g3, rfl⟩
  simp only [distance, distanceManually, h1, h2, h4, hdep, g1, g2.get ht, Option.bind_eq_bind, Option.bind_some, Option.pure_def]

/-- the plain search without potential -/
theorem plain_ok (hpi : ∀ v, p.pi v = 0) : ClOK p plainClosures (fun _ => True) := by
  constructor
  · intro c v l _ _ _; exact ⟨c, rfl, trivial⟩
  · intro c v l _ _ _; exact ⟨c, by simp [plainClosures, hpi, INFINITY], trivial⟩

theorem exhaust_spec (hp : p.OK) (hpi : ∀ v, p.pi v = 0) (hdeg : DegOK p deg) {N : Nat} (hN : p.n ≤ N) (hs : s < p.n) :
    ∀ (fuel : Nat) {S : List Nat} {a : Abs β} {d : DData β}, Refines N d a → TInv p sk deg s τ (fun _ _ => False) a → Sett p s τ a S →
      p.n + 1 ≤ S.length + fuel →
    ∃ d' a', exhaust p.n sk ⟨p.links, deg⟩ p.ops fuel d = some d' ∧ Refines N d' a' ∧ TInv p sk deg s τ (fun _ _ => False) a' ∧ ∀ v, a'.Q v = none := by
  have hclo : Closed p := by intro v ls b _ _ _; rw [hpi]; simp [INFINITY]
  intro fuel
  induction fuel with
  | zero =>
    intro S a d hr hi hS hf
    have := hS.length_le; omega
  | succ fuel ih =>
    intro S a d hr hi hS hf
    rcases settle_spec hp hclo hdeg (plain_ok hpi) hN hs hr hi hS (c := ()) trivial with ⟨h1, h2⟩ | ⟨v, d', c', a', h1, h2, h3, h4, h5⟩
    · exact ⟨d, a, by simp [exhaust, h1], hr, hi, h2⟩
    · obtain ⟨d2, a2, h6, h7⟩ := ih h2 h3 h4 (by simp; omega)
      exact ⟨d2, a2, by simp [exhaust, h1, h6], h7⟩

theorem oneToAll_spec (hp : p.OK) (hpi : ∀ v, p.pi v = 0) (hdeg : DegOK p deg) (hs : s < p.n) {d0 : DData β} {a0 : Abs β} (hr : Refines p.n d0 a0) :
    ∃ d a, oneToAll p.n sk ⟨p.links, deg⟩ p.ops d0 s = some d ∧ Refines p.n d a ∧ TInv p sk deg s 0 (fun _ _ => False) a ∧
      ∀ v x, TWalk p.F s 0 v x → x < INFINITY → a.D v ≤ x := by
  obtain ⟨d1, h1, hr1⟩ := init_refines hr hs 0
  obtain ⟨d2, c3, a2, h6, h7, h8, h9, h10⟩ := start_spec (sk := sk) hp hdeg (plain_ok hpi) (Nat.le_refl _) hr1 hs (by simp [INFINITY]) (c := ()) trivial
  obtain ⟨d', a', g1, g2, g3, g4⟩ := exhaust_spec hp hpi hdeg (Nat.le_refl _) hs (p.n + 1) h7 h8 h9 (by simp)
  refine ⟨d', a', by simp only [oneToAll, h1, Option.bind_eq_bind, Option.bind_some]; rw [exhaust]; simp [h6, g1], g2, g3, ?_⟩
  intro v x hw hx
  rcases g3.frontier hp (by intro v ls b _ _ _; rw [hpi]; simp [INFINITY]) hs hw hx (by rw [hpi]; simp [INFINITY]) with h | ⟨y, k, h, _⟩
  · exact h
  · rw [g4] at h; simp at h
end

end Verif.Topo
