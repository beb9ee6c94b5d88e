import Verif.Proof.ForbiddenActive
import Verif.Model.MultiCrit
/- The search with several labels per node, on sets of labels: invariants. -/
set_option linter.unusedSimpArgs false
set_option linter.unusedVariables false
namespace Verif.Traffic
namespace MC
open Active

/-- what the search works on -/
structure Env where
  s : Nat
  A : Nat → Nat → Nat → Prop
  step : Nat → Nat → Active → Option Active
  shape : Nat → Active → Prop
  pot : Nat → Option Nat

namespace Env
variable (E : Env)

structure OK : Prop where
  pos : ∀ u v w, E.A u v w → 0 < w
  mono : ∀ u v w a b b', E.A u v w → E.shape u a → E.shape u b → Sub a b → E.step u v b = some b' → ∃ a', E.step u v a = some a' ∧ Sub a' b'
  shape : ∀ u v w a a', E.A u v w → E.shape u a → E.step u v a = some a' → E.shape v a'
  cons : ∀ u v w pv, E.A u v w → E.pot v = some pv → ∃ pu, E.pot u = some pu ∧ pu ≤ w + pv
  src : E.shape E.s (Active.new 0)

def key (v d : Nat) : Nat := (E.pot v).getD 0 + d

/-- the order in the queue -/
def klt (v d v' d' : Nat) : Prop := E.key v d < E.key v' d' ∨ (E.key v d = E.key v' d' ∧ v < v')

end Env

/-- labels waiting at the nodes, labels popped, and the distance of the parent's label at the time a label was made -/
structure St where
  W : Nat → Lab → Prop
  T : Nat → Lab → Prop
  γ : Nat → Lab → Nat

def dom (a b : Lab) : Prop := a.dist ≤ b.dist ∧ Sub a.act b.act

theorem dom.refl (a : Lab) : dom a a := ⟨Nat.le_refl _, Sub.refl _⟩
theorem dom.trans {a b c : Lab} (h1 : dom a b) (h2 : dom b c) : dom a c := ⟨Nat.le_trans h1.1 h2.1, h1.2.trans h2.2⟩

namespace St
variable (S : St)

def cur (v : Nat) (l : Lab) : Prop := S.W v l ∨ S.T v l

/-- there is a label at least as good -/
def cov (v d : Nat) (a : Active) : Prop := ∃ X, S.cur v X ∧ X.dist ≤ d ∧ Sub X.act a

/-- pop a label -/
def pop (u : Nat) (e : Lab) : St :=
  ⟨fun v l => S.W v l ∧ ¬ (v = u ∧ l = e), fun v l => S.T v l ∨ (v = u ∧ l = e), S.γ⟩

open Classical in
/-- a new label, the labels it dominates are removed -/
noncomputable def add (h : Nat) (R : Lab) (g : Nat) : St :=
  ⟨fun v l => (S.W v l ∧ ¬ (v = h ∧ dom R l)) ∨ (v = h ∧ l = R), fun v l => S.T v l ∧ ¬ (v = h ∧ dom R l),
    fun v l => if v = h ∧ l = R then g else S.γ v l⟩

end St

variable {E : Env} {S : St}

/-- `y` is a label from which `x` can be continued -/
structure Dep (E : Env) (S : St) (x y : Nat × Lab) : Prop where
  ne : x.1 ≠ E.s
  cx : S.cur x.1 x.2
  par : y.1 = x.2.parent
  cy : S.cur y.1 y.2
  dist : y.2.dist = S.γ x.1 x.2
  sub : Sub y.2.act x.2.pact

inductive Chain (E : Env) (S : St) : Nat × Lab → Nat × Lab → Prop
  | one {x y} : Dep E S x y → Chain E S x y
  | cons {x y z} : Dep E S x y → Chain E S y z → Chain E S x z

theorem Chain.trans {x y z : Nat × Lab} (h1 : Chain E S x y) (h2 : Chain E S y z) : Chain E S x z := by
  induction h1 with
  | one h => exact .cons h h2
  | cons h _ ih => exact .cons h (ih h2)

theorem Chain.cy {x y : Nat × Lab} (h : Chain E S x y) : S.cur y.1 y.2 := by
  induction h with
  | one h => exact h.cy
  | cons _ _ ih => exact ih

theorem Chain.cx {x y : Nat × Lab} (h : Chain E S x y) : S.cur x.1 x.2 := by
  cases h with
  | one h => exact h.cx
  | cons h _ => exact h.cx

/-- in the queue -/
def Qd (E : Env) (S : St) (v : Nat) (l : Lab) : Prop := S.W v l ∧ ∃ p, E.pot v = some p

/-- depends on a label at `v` with distance `d` -/
def Dp (E : Env) (S : St) (x : Nat × Lab) (v d : Nat) : Prop := ∃ L : Lab, Chain E S x (v, L) ∧ L.dist = d

structure Base (E : Env) (S : St) : Prop where
  src : ∀ l, S.cur E.s l ↔ l = MData.source E.s
  inc : ∀ v a b, S.cur v a → S.cur v b → dom a b → a = b
  disj : ∀ v l, S.W v l → ¬ S.T v l
  ex : ∀ v L, S.cur v L → v ≠ E.s → ∃ L', Dep E S (v, L) (L.parent, L')
  gen : ∀ v L, S.cur v L → v ≠ E.s → ∃ w, E.A L.parent v w ∧ L.dist = S.γ v L + w ∧ E.step L.parent v L.pact = some L.act ∧ E.shape L.parent L.pact ∧ L.parent ≠ v
  shp : ∀ v l, S.cur v l → E.shape v l.act
  ppot : ∀ v L, S.cur v L → v ≠ E.s → ∃ p, E.pot L.parent = some p
  tpot : ∀ v l, S.T v l → ∃ p, E.pot v = some p
  req : ∀ v L x l, S.cur v L → v ≠ E.s → Qd E S x l → E.key L.parent (S.γ v L) ≤ E.key x l.dist
  ord : ∀ v l v' l', Qd E S v l → Qd E S v' l' → Chain E S (v, l) (v', l') → E.klt v' l'.dist v l.dist

/-- every arc out of a popped label has been looked at -/
def ClosedAt (E : Env) (S : St) (u : Nat) (l : Lab) (v w : Nat) : Prop := ∀ a, E.step u v l.act = some a → S.cov v (l.dist + w) a

structure Inv (E : Env) (S : St) : Prop extends Base E S where
  closed : ∀ u l, S.T u l → ∀ v w, E.A u v w → v ≠ u → ClosedAt E S u l v w
  slots : ∀ v O, S.T v O → ∀ c k y l, Qd E S c k → ¬ (c = v ∧ k.dist = O.dist) → ¬ Dp E S (c, k) v O.dist → Qd E S y l → Dp E S (y, l) v O.dist →
    E.klt v O.dist c k.dist ∨ E.klt v O.dist y l.dist

structure Round (E : Env) (S : St) (u : Nat) (e : Lab) (arcs : List (Nat × Nat)) : Prop extends Base E S where
  top : S.T u e
  closed : ∀ u' l, S.T u' l → ¬ (u' = u ∧ l = e) → ∀ v w, E.A u' v w → v ≠ u' → ClosedAt E S u' l v w
  closedE : ∀ vw ∈ arcs, ClosedAt E S u e vw.1 vw.2
  free : ∀ v l, Qd E S v l → ¬ Chain E S (u, e) (v, l)
  kmin : ∀ v l, Qd E S v l → E.key u e.dist ≤ E.key v l.dist
  reqE : ∀ v L, S.cur v L → v ≠ E.s → E.key L.parent (S.γ v L) ≤ E.key u e.dist
  slots1 : ∀ v O, S.T v O → ((u = v ∧ e.dist = O.dist) ∨ Dp E S (u, e) v O.dist) →
    ∀ c k, Qd E S c k → ¬ (c = v ∧ k.dist = O.dist) → ¬ Dp E S (c, k) v O.dist → E.klt v O.dist c k.dist
  slots2 : ∀ v O, S.T v O → ¬ ((u = v ∧ e.dist = O.dist) ∨ Dp E S (u, e) v O.dist) → ∀ y l, Qd E S y l → Dp E S (y, l) v O.dist → E.klt v O.dist y l.dist

theorem Base.lt (hE : E.OK) (hb : Base E S) {x y : Nat × Lab} (h : Dep E S x y) : y.2.dist < x.2.dist := by
  obtain ⟨w, h1, h2, -, -⟩ := hb.gen x.1 x.2 h.cx h.ne
  have := hE.pos _ _ _ h1
  have := h.dist
  omega

theorem Base.chain_lt (hE : E.OK) (hb : Base E S) {x y : Nat × Lab} (h : Chain E S x y) : y.2.dist < x.2.dist := by
  induction h with
  | one h => exact hb.lt hE h
  | cons h _ ih => have := hb.lt hE h; omega

/-! ### Popping a label -/

theorem pop_cur {u : Nat} {e : Lab} (he : S.W u e) (v : Nat) (l : Lab) : (S.pop u e).cur v l ↔ S.cur v l := by
  simp only [St.cur, St.pop]
  constructor
  · rintro (⟨h, -⟩ | h | ⟨rfl, rfl⟩)
    · exact .inl h
    · exact .inr h
    · exact .inl he
  · rintro (h | h)
    · by_cases hx : v = u ∧ l = e
      · exact .inr (.inr hx)
      · exact .inl ⟨h, hx⟩
    · exact .inr (.inl h)

theorem pop_dep {u : Nat} {e : Lab} (he : S.W u e) (x y : Nat × Lab) : Dep E (S.pop u e) x y ↔ Dep E S x y := by
  constructor
  · intro h
    exact ⟨h.ne, (pop_cur he _ _).1 h.cx, h.par, (pop_cur he _ _).1 h.cy, h.dist, h.sub⟩
  · intro h
    exact ⟨h.ne, (pop_cur he _ _).2 h.cx, h.par, (pop_cur he _ _).2 h.cy, h.dist, h.sub⟩

theorem pop_chain {u : Nat} {e : Lab} (he : S.W u e) (x y : Nat × Lab) : Chain E (S.pop u e) x y ↔ Chain E S x y := by
  constructor
  · intro h
    induction h with
    | one h => exact .one ((pop_dep he _ _).1 h)
    | cons h _ ih => exact .cons ((pop_dep he _ _).1 h) ih
  · intro h
    induction h with
    | one h => exact .one ((pop_dep he _ _).2 h)
    | cons h _ ih => exact .cons ((pop_dep he _ _).2 h) ih

theorem pop_dp {u : Nat} {e : Lab} (he : S.W u e) (x : Nat × Lab) (v d : Nat) : Dp E (S.pop u e) x v d ↔ Dp E S x v d := by
  simp only [Dp, pop_chain he]

theorem pop_qd {u : Nat} {e : Lab} {v : Nat} {l : Lab} (h : Qd E (S.pop u e) v l) : Qd E S v l ∧ ¬ (v = u ∧ l = e) := ⟨⟨h.1.1, h.2⟩, h.1.2⟩

theorem pop_cov {u : Nat} {e : Lab} (he : S.W u e) (v d : Nat) (a : Active) : (S.pop u e).cov v d a ↔ S.cov v d a := by
  simp only [St.cov, pop_cur he]

theorem klt_irrefl {v d : Nat} : ¬ E.klt v d v d := by
  rintro (h | ⟨_, h⟩) <;> omega

theorem klt_trans {v d v1 d1 v2 d2 : Nat} (h : E.klt v d v1 d1) (h' : ¬ E.klt v2 d2 v1 d1) : E.klt v d v2 d2 := by
  unfold Env.klt at *
  rcases Nat.lt_trichotomy (E.key v1 d1) (E.key v2 d2) with h1 | h1 | h1
  · left; rcases h with h | ⟨h, -⟩ <;> omega
  · have h2 : v1 ≤ v2 := Nat.le_of_not_lt fun hlt => h' (.inr ⟨h1.symm, hlt⟩)
    rcases h with h | ⟨h, h3⟩
    · left; omega
    · right; exact ⟨by omega, by omega⟩
  · exact absurd (.inl h1) h'

theorem pop_round (hE : E.OK) (hi : Inv E S) {u : Nat} {e : Lab} (he : Qd E S u e) (hmin : ∀ v l, Qd E S v l → ¬ E.klt v l.dist u e.dist) :
    Round E (S.pop u e) u e [] := by
  have hw := he.1
  refine
    { src := fun l => (pop_cur hw _ _).trans (hi.src l)
      inc := fun v a b ha hb => hi.inc v a b ((pop_cur hw _ _).1 ha) ((pop_cur hw _ _).1 hb)
      disj := ?_, ex := ?_
      gen := fun v L h => hi.gen v L ((pop_cur hw _ _).1 h)
      shp := fun v l h => hi.shp v l ((pop_cur hw _ _).1 h)
      ppot := fun v l h => hi.ppot v l ((pop_cur hw _ _).1 h)
      tpot := ?_
      req := fun v L x l h hv hq => hi.req v L x l ((pop_cur hw _ _).1 h) hv (pop_qd hq).1
      ord := fun v l v' l' h1 h2 h3 => hi.ord v l v' l' (pop_qd h1).1 (pop_qd h2).1 ((pop_chain hw _ _).1 h3)
      top := .inr ⟨rfl, rfl⟩
      closed := ?_
      closedE := fun _ h => (nomatch h)
      free := ?_, kmin := ?_, reqE := ?_, slots1 := ?_, slots2 := ?_ }
  · rintro v l ⟨h1, h2⟩ (h | h)
    · exact hi.disj v l h1 h
    · exact h2 h
  · intro v L h hv
    obtain ⟨L', h'⟩ := hi.ex v L ((pop_cur hw _ _).1 h) hv
    exact ⟨L', (pop_dep hw _ _).2 h'⟩
  · rintro v l (h | ⟨rfl, rfl⟩)
    · exact hi.tpot v l h
    · exact he.2
  · rintro u' l (h | h) hne v w hA hvu a ha
    · exact (pop_cov hw _ _ _).2 (hi.closed u' l h v w hA hvu a ha)
    · exact absurd h hne
  · intro v l hq hc
    obtain ⟨h1, h2⟩ := pop_qd hq
    exact hmin v l h1 (hi.ord u e v l he h1 ((pop_chain hw _ _).1 hc))
  · intro v l hq
    have := hmin v l (pop_qd hq).1
    refine Nat.le_of_not_lt fun hlt => this (.inl hlt)
  · intro v L h hv
    exact hi.req v L u e ((pop_cur hw _ _).1 h) hv he
  · rintro v O hT hN c k hq hat hdp
    obtain ⟨h1, h2⟩ := pop_qd hq
    rw [pop_dp hw] at hdp hN
    have hmc := hmin c k h1
    by_cases hue : u = v ∧ e.dist = O.dist
    · obtain ⟨rfl, hd⟩ := hue
      rw [← hd]
      by_cases hlt : E.key u e.dist < E.key c k.dist
      · exact .inl hlt
      · have hkey : E.key u e.dist = E.key c k.dist := by
          have : ¬ E.key c k.dist < E.key u e.dist := fun h => hmc (.inl h)
          omega
        right
        refine ⟨hkey, ?_⟩
        rcases Nat.lt_trichotomy u c with h | h | h
        · exact h
        · subst h
          exfalso
          unfold Env.key at hkey
          exact hat ⟨rfl, by omega⟩
        · exact absurd (.inr ⟨hkey.symm, h⟩) hmc
    · have hN' := hN.resolve_left hue
      rcases hT with hT | ⟨rfl, rfl⟩
      · rcases hi.slots v O hT c k u e h1 hat hdp he hN' with h | h
        · exact h
        · exact klt_trans h hmc
      · exact absurd ⟨rfl, rfl⟩ hue
  · rintro v O hT hN y l hq hdp
    obtain ⟨h1, h2⟩ := pop_qd hq
    rw [pop_dp hw] at hdp hN
    have hmc := hmin y l h1
    have hue : ¬ (u = v ∧ e.dist = O.dist) := fun h => hN (.inl h)
    rcases hT with hT | ⟨rfl, rfl⟩
    · rcases hi.slots v O hT u e y l he hue (fun h => hN (.inr h)) h1 hdp with h | h
      · exact klt_trans h hmc
      · exact h
    · exact absurd ⟨rfl, rfl⟩ hue

/-! ### A new label -/

structure New (E : Env) (S : St) (u : Nat) (e : Lab) (h w : Nat) (R : Lab) : Prop where
  arc : E.A u h w
  ne : h ≠ u
  step : E.step u h e.act = some R.act
  dist : R.dist = e.dist + w
  parent : R.parent = u
  pact : R.pact = e.act
  best : ∀ o, S.cur h o → ¬ dom o R

section add
variable {u h w : Nat} {e R : Lab} {arcs : List (Nat × Nat)}

theorem New.not_cur (hn : New E S u e h w R) : ¬ S.cur h R := fun hc => hn.best R hc (dom.refl R)

theorem New.hs (hr : Round E S u e arcs) (hn : New E S u e h w R) : h ≠ E.s := by
  rintro rfl
  exact hn.best _ ((hr.src _).2 rfl) ⟨Nat.zero_le _, new_sub 0 _⟩

theorem add_cur (g v : Nat) (l : Lab) : (S.add h R g).cur v l ↔ (S.cur v l ∧ ¬ (v = h ∧ dom R l)) ∨ (v = h ∧ l = R) := by
  simp only [St.cur, St.add]
  constructor
  · rintro ((⟨h1, h2⟩ | h1) | ⟨h1, h2⟩)
    · exact .inl ⟨.inl h1, h2⟩
    · exact .inr h1
    · exact .inl ⟨.inr h1, h2⟩
  · rintro (⟨h1 | h1, h2⟩ | h1)
    · exact .inl (.inl ⟨h1, h2⟩)
    · exact .inr ⟨h1, h2⟩
    · exact .inl (.inr h1)

theorem add_cov (g v d : Nat) (a : Active) (hc : S.cov v d a) : (S.add h R g).cov v d a := by
  obtain ⟨X, h1, h2, h3⟩ := hc
  by_cases hX : v = h ∧ dom R X
  · exact ⟨R, (add_cur _ _ _).2 (.inr ⟨hX.1, rfl⟩), Nat.le_trans hX.2.1 h2, hX.2.2.trans h3⟩
  · exact ⟨X, (add_cur _ _ _).2 (.inl ⟨h1, hX⟩), h2, h3⟩

theorem add_γ (hn : New E S u e h w R) {g v : Nat} {l : Lab} (hc : S.cur v l) : (S.add h R g).γ v l = S.γ v l := by
  simp only [St.add]
  rw [if_neg]
  rintro ⟨rfl, rfl⟩
  exact hn.not_cur hc

theorem add_γ_new {g : Nat} : (S.add h R g).γ h R = g := by simp [St.add]

theorem key_le (hE : E.OK) (hn : New E S u e h w R) (hp : ∃ p, E.pot h = some p) : E.key u e.dist ≤ E.key h R.dist := by
  obtain ⟨p, hp⟩ := hp
  obtain ⟨q, hq, hle⟩ := hE.cons _ _ _ _ hn.arc hp
  unfold Env.key
  rw [hp, hq, hn.dist]
  simp; omega

theorem lt_new (hE : E.OK) (hn : New E S u e h w R) : e.dist < R.dist := by
  have := hE.pos _ _ _ hn.arc
  rw [hn.dist]; omega

/-- a removed label that others depend on has the distance of the new label -/
theorem same_dist (hE : E.OK) (hr : Round E S u e arcs) (hn : New E S u e h w R) {x : Nat × Lab} {X : Lab} (hd : Dep E S x (h, X)) (hX : R.dist ≤ X.dist) :
    X.dist = R.dist := by
  have hp := hr.ppot x.1 x.2 hd.cx hd.ne
  have hpar : h = x.2.parent := hd.par
  rw [← hpar] at hp
  have h1 := hr.reqE x.1 x.2 hd.cx hd.ne
  have h2 := key_le hE hn hp
  have h3 : X.dist = S.γ x.1 x.2 := hd.dist
  rw [← hpar, ← h3] at h1
  unfold Env.key at h1 h2
  omega

/-- dependencies after adding: old ones -/
theorem dep_old (hE : E.OK) (hr : Round E S u e arcs) (hn : New E S u e h w R) {x y : Nat × Lab} (hx : S.cur x.1 x.2)
    (hd : Dep E (S.add h R e.dist) x y) : Dep E S x y ∨ (y = (h, R) ∧ ∃ X, Dep E S x (h, X) ∧ X.dist = R.dist) := by
  have hg := hd.dist
  rw [add_γ hn hx] at hg
  rcases (add_cur _ _ _).1 hd.cy with ⟨h1, h2⟩ | ⟨h1, h2⟩
  · exact .inl ⟨hd.ne, hx, hd.par, h1, hg, hd.sub⟩
  · right
    refine ⟨Prod.ext h1 h2, ?_⟩
    obtain ⟨L', hL⟩ := hr.ex x.1 x.2 hx hd.ne
    have : h = x.2.parent := h1.symm.trans hd.par
    rw [← this] at hL
    have h3 : L'.dist = S.γ x.1 x.2 := hL.dist
    exact ⟨L', hL, by rw [h3, ← hg, h2]⟩

theorem dep_new (hr : Round E S u e arcs) (hn : New E S u e h w R) {y : Nat × Lab} (hd : Dep E (S.add h R e.dist) (h, R) y) : y = (u, e) := by
  have h1 : y.1 = u := hd.par.trans hn.parent
  have hg : y.2.dist = e.dist := by have := hd.dist; rwa [add_γ_new] at this
  rcases (add_cur _ _ _).1 hd.cy with ⟨h2, h3⟩ | ⟨h2, h3⟩
  · rw [h1] at h2
    have hs : Sub y.2.act e.act := by have := hd.sub; rwa [hn.pact] at this
    exact Prod.ext h1 (hr.inc u _ _ h2 (.inr hr.top) ⟨Nat.le_of_eq hg, hs⟩)
  · exact absurd (h2.symm.trans h1) hn.ne

theorem dep_new' (hr : Round E S u e arcs) (hn : New E S u e h w R) : Dep E (S.add h R e.dist) (h, R) (u, e) :=
  ⟨hn.hs hr, (add_cur _ _ _).2 (.inr ⟨rfl, rfl⟩), hn.parent.symm, (add_cur _ _ _).2 (.inl ⟨.inr hr.top, fun hx => hn.ne hx.1.symm⟩), add_γ_new.symm, by
    show Sub e.act R.pact; rw [hn.pact]; exact Sub.refl _⟩

/-- old dependencies of remaining labels -/
theorem dep_keep (hE : E.OK) (hr : Round E S u e arcs) (hn : New E S u e h w R) {x y : Nat × Lab} (hx : (S.add h R e.dist).cur x.1 x.2)
    (hd : Dep E S x y) : Dep E (S.add h R e.dist) x y ∨ (∃ X, y = (h, X) ∧ dom R X) ∧ Dep E (S.add h R e.dist) x (h, R) := by
  by_cases hy : y.1 = h ∧ dom R y.2
  · right
    obtain ⟨y1, y2⟩ := y
    obtain ⟨h1, h2⟩ := hy
    simp only at h1 h2
    subst h1
    refine ⟨⟨y2, rfl, h2⟩, hd.ne, hx, hd.par, (add_cur _ _ _).2 (.inr ⟨rfl, rfl⟩), ?_, h2.2.trans hd.sub⟩
    rw [add_γ hn hd.cx, ← hd.dist]
    exact (same_dist hE hr hn hd h2.1).symm
  · left
    exact ⟨hd.ne, hx, hd.par, (add_cur _ _ _).2 (.inl ⟨hd.cy, hy⟩), by rw [add_γ hn hd.cx]; exact hd.dist, hd.sub⟩

/-- chains from below are not changed -/
theorem chain_low (hE : E.OK) (hr : Round E S u e arcs) (hn : New E S u e h w R) {x y : Nat × Lab} (hx : x.2.dist ≤ e.dist) (hcx : S.cur x.1 x.2) :
    Chain E (S.add h R e.dist) x y ↔ Chain E S x y := by
  have hlt := lt_new hE hn
  constructor
  · intro hc
    induction hc with
    | one hd =>
      rcases dep_old hE hr hn hcx hd with h1 | ⟨rfl, X, hX, hXd⟩
      · exact .one h1
      · have := hr.lt hE hX
        simp only at this; omega
    | cons hd _ ih =>
      rcases dep_old hE hr hn hcx hd with h1 | ⟨rfl, X, hX, hXd⟩
      · have := hr.lt hE h1
        exact .cons h1 (ih (by omega) h1.cy)
      · have := hr.lt hE hX
        simp only at this; omega
  · intro hc
    clear hlt
    have hlt := lt_new hE hn
    have hk : ∀ z : Nat × Lab, z.2.dist ≤ e.dist → S.cur z.1 z.2 → (S.add h R e.dist).cur z.1 z.2 := fun z hz hcz =>
      (add_cur _ _ _).2 (.inl ⟨hcz, fun hx => by have := hx.2.1; omega⟩)
    induction hc with
    | @one x y hd =>
      have := hr.lt hE hd
      rcases dep_keep hE hr hn (hk _ hx hcx) hd with h1 | ⟨⟨X, rfl, hX⟩, -⟩
      · exact .one h1
      · have := hX.1; simp only at *; omega
    | @cons x y z hd _ ih =>
      have := hr.lt hE hd
      rcases dep_keep hE hr hn (hk _ hx hcx) hd with h1 | ⟨⟨X, rfl, hX⟩, -⟩
      · exact .cons h1 (ih (by omega) hd.cy)
      · have := hX.1; simp only at *; omega

theorem chain_new (hE : E.OK) (hr : Round E S u e arcs) (hn : New E S u e h w R) {y : Nat × Lab} (hc : Chain E (S.add h R e.dist) (h, R) y) :
    y = (u, e) ∨ Chain E S (u, e) y := by
  cases hc with
  | one hd => exact .inl (dep_new hr hn hd)
  | cons hd hc =>
    have := dep_new hr hn hd
    subst this
    exact .inr ((chain_low hE hr hn (Nat.le_refl _) (.inr hr.top)).1 hc)

theorem chain_old (hE : E.OK) (hr : Round E S u e arcs) (hn : New E S u e h w R) {x y : Nat × Lab} (hx : S.cur x.1 x.2)
    (hc : Chain E (S.add h R e.dist) x y) :
    Chain E S x y ∨ ((y = (h, R) ∨ Chain E (S.add h R e.dist) (h, R) y) ∧ ∃ X, Chain E S x (h, X) ∧ X.dist = R.dist) := by
  induction hc with
  | one hd =>
    rcases dep_old hE hr hn hx hd with h1 | ⟨h1, X, hX, hXd⟩
    · exact .inl (.one h1)
    · exact .inr ⟨.inl h1, X, .one hX, hXd⟩
  | cons hd hc ih =>
    rcases dep_old hE hr hn hx hd with h1 | ⟨rfl, X, hX, hXd⟩
    · rcases ih h1.cy with h2 | ⟨h2, X, hX, hXd⟩
      · exact .inl (.cons h1 h2)
      · exact .inr ⟨h2, X, .cons h1 hX, hXd⟩
    · exact .inr ⟨.inr hc, X, .one hX, hXd⟩

theorem chain_keep (hE : E.OK) (hr : Round E S u e arcs) (hn : New E S u e h w R) {x y : Nat × Lab} (hx : (S.add h R e.dist).cur x.1 x.2)
    (hc : Chain E S x y) : Chain E (S.add h R e.dist) x y ∨ Chain E (S.add h R e.dist) x (h, R) := by
  induction hc with
  | one hd =>
    rcases dep_keep hE hr hn hx hd with h1 | ⟨-, h1⟩
    · exact .inl (.one h1)
    · exact .inr (.one h1)
  | cons hd _ ih =>
    rcases dep_keep hE hr hn hx hd with h1 | ⟨-, h1⟩
    · rcases ih h1.cy with h2 | h2
      · exact .inl (.cons h1 h2)
      · exact .inr (.cons h1 h2)
    · exact .inr (.one h1)

theorem add_qd {g v : Nat} {l : Lab} (hq : Qd E (S.add h R g) v l) : Qd E S v l ∨ (v = h ∧ l = R) := by
  obtain ⟨⟨h1, h2⟩ | h1, hp⟩ := hq
  · exact .inl ⟨h1, hp⟩
  · exact .inr h1

theorem add_dp_new (hE : E.OK) (hr : Round E S u e arcs) (hn : New E S u e h w R) (v d : Nat) :
    Dp E (S.add h R e.dist) (h, R) v d ↔ (u = v ∧ e.dist = d) ∨ Dp E S (u, e) v d := by
  constructor
  · rintro ⟨L, hc, hd⟩
    rcases chain_new hE hr hn hc with h1 | h1
    · injection h1 with h1 h2
      subst h1 h2
      exact .inl ⟨rfl, hd⟩
    · exact .inr ⟨L, h1, hd⟩
  · rintro (⟨rfl, rfl⟩ | ⟨L, hc, hd⟩)
    · exact ⟨e, .one (dep_new' hr hn), rfl⟩
    · exact ⟨L, .cons (dep_new' hr hn) ((chain_low hE hr hn (Nat.le_refl _) (.inr hr.top)).2 hc), hd⟩

theorem add_dp_top (hE : E.OK) (hr : Round E S u e arcs) (hn : New E S u e h w R) (v d : Nat) :
    Dp E (S.add h R e.dist) (u, e) v d ↔ Dp E S (u, e) v d := by
  constructor
  · rintro ⟨L, hc, hd⟩; exact ⟨L, (chain_low hE hr hn (Nat.le_refl _) (.inr hr.top)).1 hc, hd⟩
  · rintro ⟨L, hc, hd⟩; exact ⟨L, (chain_low hE hr hn (Nat.le_refl _) (.inr hr.top)).2 hc, hd⟩

theorem add_round (hE : E.OK) (hr : Round E S u e arcs) (hn : New E S u e h w R) : Round E (S.add h R e.dist) u e ((h, w) :: arcs) := by
  have hs := hn.hs hr
  have hlt := lt_new hE hn
  have hnu : ∀ l, ¬ (u = h ∧ l) := fun l hx => hn.ne hx.1.symm
  have hT : ∀ {v l}, (S.add h R e.dist).T v l → S.T v l := fun hx => hx.1
  have hcu : ∀ l, (S.add h R e.dist).W u l → S.W u l := by
    rintro l (⟨h1, -⟩ | h1)
    · exact h1
    · exact absurd h1 (hnu _)
  have hfree : ∀ v l, Qd E (S.add h R e.dist) v l → ¬ Chain E S (u, e) (v, l) := by
    intro v l hq hc
    rcases add_qd hq with h1 | ⟨rfl, rfl⟩
    · exact hr.free v l h1 hc
    · have := hr.chain_lt hE hc
      simp only at this; omega
  have hk : ∀ v l, Qd E (S.add h R e.dist) v l → E.key u e.dist ≤ E.key v l.dist := by
    intro v l hq
    rcases add_qd hq with h1 | ⟨rfl, rfl⟩
    · exact hr.kmin v l h1
    · exact key_le hE hn hq.2
  have hrE : ∀ v L, (S.add h R e.dist).cur v L → v ≠ E.s → E.key L.parent ((S.add h R e.dist).γ v L) ≤ E.key u e.dist := by
    intro v L hc hv
    rcases (add_cur _ _ _).1 hc with ⟨h1, -⟩ | ⟨rfl, rfl⟩
    · rw [add_γ hn h1]; exact hr.reqE v L h1 hv
    · rw [add_γ_new, hn.parent]; exact Nat.le_refl _
  refine
    { src := ?_, inc := ?_, disj := ?_, ex := ?_, gen := ?_, shp := ?_, ppot := ?_
      tpot := fun v l hx => hr.tpot v l (hT hx)
      req := fun v L x l hc hv hq => Nat.le_trans (hrE v L hc hv) (hk x l hq)
      ord := ?_
      top := ⟨hr.top, hnu _⟩
      closed := fun u' l hx hne v w' hA hvu a ha => add_cov _ _ _ _ (hr.closed u' l (hT hx) hne v w' hA hvu a ha)
      closedE := ?_
      free := ?_
      kmin := hk
      reqE := hrE
      slots1 := ?_, slots2 := ?_ }
  · intro l
    rw [add_cur, ← hr.src l]
    constructor
    · rintro (⟨h1, -⟩ | ⟨h1, -⟩)
      · exact h1
      · exact absurd h1.symm hs
    · intro h1
      exact .inl ⟨h1, fun hx => hs hx.1.symm⟩
  · intro v a b ha hb hd
    rcases (add_cur _ _ _).1 ha with ⟨h1, h2⟩ | ⟨rfl, rfl⟩
    · rcases (add_cur _ _ _).1 hb with ⟨h3, h4⟩ | ⟨rfl, rfl⟩
      · exact hr.inc v a b h1 h3 hd
      · exact absurd hd (hn.best a h1)
    · rcases (add_cur _ _ _).1 hb with ⟨h3, h4⟩ | ⟨_, rfl⟩
      · exact absurd ⟨rfl, hd⟩ h4
      · rfl
  · rintro v l (⟨h1, -⟩ | ⟨rfl, rfl⟩) hx
    · exact hr.disj v l h1 (hT hx)
    · exact hn.not_cur (.inr (hT hx))
  · intro v L hc hv
    rcases (add_cur _ _ _).1 hc with ⟨h1, -⟩ | ⟨rfl, rfl⟩
    · obtain ⟨L', hL⟩ := hr.ex v L h1 hv
      rcases dep_keep hE hr hn hc hL with h2 | ⟨-, h2⟩
      · exact ⟨L', h2⟩
      · have : h = L.parent := h2.par
        rw [← this]
        exact ⟨R, h2⟩
    · rw [hn.parent]; exact ⟨e, dep_new' hr hn⟩
  · intro v L hc hv
    rcases (add_cur _ _ _).1 hc with ⟨h1, -⟩ | ⟨rfl, rfl⟩
    · rw [add_γ hn h1]; exact hr.gen v L h1 hv
    · rw [add_γ_new, hn.parent, hn.pact]
      exact ⟨w, hn.arc, hn.dist, hn.step, hr.shp u e (.inr hr.top), hn.ne.symm⟩
  · intro v l hc
    rcases (add_cur _ _ _).1 hc with ⟨h1, -⟩ | ⟨rfl, rfl⟩
    · exact hr.shp v l h1
    · exact hE.shape _ _ _ _ _ hn.arc (hr.shp u e (.inr hr.top)) hn.step
  · intro v L hc hv
    rcases (add_cur _ _ _).1 hc with ⟨h1, -⟩ | ⟨rfl, rfl⟩
    · exact hr.ppot v L h1 hv
    · rw [hn.parent]; exact hr.tpot u e hr.top
  · intro v l v' l' hq hq' hc
    have hnew : ¬ (v', l') = (u, e) := by
      intro hx
      injection hx with h1 h2
      subst h1 h2
      exact hr.disj _ _ (hcu _ hq'.1) hr.top
    rcases add_qd hq with h1 | ⟨rfl, rfl⟩
    · rcases chain_old hE hr hn (.inl h1.1) hc with h2 | ⟨h2 | h2, X, hX, hXd⟩
      · rcases add_qd hq' with h3 | ⟨rfl, rfl⟩
        · exact hr.ord v l v' l' h1 h3 h2
        · exact absurd h2.cy hn.not_cur
      · injection h2 with h3 h4
        subst h3 h4
        rw [← hXd]
        rcases hX.cy with hXW | hXT
        · exact hr.ord v l v' X h1 ⟨hXW, hq'.2⟩ hX
        · refine hr.slots2 v' X hXT ?_ v l h1 ⟨X, hX, rfl⟩
          rintro (⟨h3, -⟩ | ⟨L, h3, h4⟩)
          · exact hn.ne h3.symm
          · have := hr.chain_lt hE h3
            simp only at this; omega
      · rcases chain_new hE hr hn h2 with h3 | h3
        · exact absurd h3 hnew
        · exact absurd h3 (hfree _ _ hq')
    · rcases chain_new hE hr hn hc with h3 | h3
      · exact absurd h3 hnew
      · exact absurd h3 (hfree _ _ hq')
  · intro vw hvw
    rcases List.mem_cons.1 hvw with rfl | hvw
    · intro a ha
      have : a = R.act := by have := hn.step.symm.trans ha; injection this with this; exact this.symm
      subst this
      exact ⟨R, (add_cur _ _ _).2 (.inr ⟨rfl, rfl⟩), by rw [hn.dist]; exact Nat.le_refl _, Sub.refl _⟩
    · intro a ha
      exact add_cov _ _ _ _ (hr.closedE vw hvw a ha)
  · intro v l hq hc
    exact hfree v l hq ((chain_low hE hr hn (Nat.le_refl _) (.inr hr.top)).1 hc)
  · intro v O hO hN c k hq hat hdp
    rw [add_dp_top hE hr hn] at hN
    rcases add_qd hq with h1 | ⟨rfl, rfl⟩
    · refine hr.slots1 v O (hT hO) hN c k h1 hat ?_
      rintro ⟨L, hc, hd⟩
      rcases chain_keep hE hr hn (.inl hq.1) hc with h2 | h2
      · exact hdp ⟨L, h2, hd⟩
      · obtain ⟨L', h3, h4⟩ := (add_dp_new hE hr hn v O.dist).2 hN
        exact hdp ⟨L', h2.trans h3, h4⟩
    · exact absurd ((add_dp_new hE hr hn v O.dist).2 hN) hdp
  · intro v O hO hN y l hq hdp
    rw [add_dp_top hE hr hn] at hN
    rcases add_qd hq with h1 | ⟨rfl, rfl⟩
    · refine hr.slots2 v O (hT hO) hN y l h1 ?_
      obtain ⟨L, hc, hd⟩ := hdp
      rcases chain_old hE hr hn (.inl h1.1) hc with h2 | ⟨h2 | h2, X, hX, hXd⟩
      · exact ⟨L, h2, hd⟩
      · injection h2 with h3 h4
        subst h3 h4
        exact ⟨X, hX, by omega⟩
      · exact absurd ((add_dp_new hE hr hn v O.dist).1 ⟨L, h2, hd⟩) hN
    · exact absurd ((add_dp_new hE hr hn v O.dist).1 hdp) hN

end add

/-- nothing to add -/
theorem skip_round {u : Nat} {e : Lab} {arcs : List (Nat × Nat)} (hr : Round E S u e arcs) {v w : Nat} (h : ClosedAt E S u e v w) :
    Round E S u e ((v, w) :: arcs) :=
  { hr with
    closedE := fun vw hvw => by
      rcases List.mem_cons.1 hvw with rfl | hvw
      · exact h
      · exact hr.closedE vw hvw }

/-- the end of the round -/
theorem end_round {u : Nat} {e : Lab} {arcs : List (Nat × Nat)} (hr : Round E S u e arcs) (hall : ∀ v w, E.A u v w → v ≠ u → (v, w) ∈ arcs) : Inv E S :=
  { hr.toBase with
    closed := fun u' l hT v w hA hvu => by
      by_cases hx : u' = u ∧ l = e
      · obtain ⟨rfl, rfl⟩ := hx
        exact hr.closedE (v, w) (hall v w hA hvu)
      · exact hr.closed u' l hT hx v w hA hvu
    slots := fun v O hO c k y l hq hat hdp hq' hdp' => by
      by_cases hN : (u = v ∧ e.dist = O.dist) ∨ Dp E S (u, e) v O.dist
      · exact .inl (hr.slots1 v O hO hN c k hq hat hdp)
      · exact .inr (hr.slots2 v O hO hN y l hq' hdp') }

/-! ### Walks -/

/-- a walk that does not complete a forbidden path, with the active paths -/
inductive Run (E : Env) : Nat → Active → Nat → Active → Nat → Prop
  | nil {v a} : Run E v a v a 0
  | cons {u v t a b c w d} : E.A u v w → v ≠ u → E.shape u a → E.step u v a = some b → Run E v b t c d → Run E u a t c (w + d)

theorem Run.pot (hE : E.OK) {v t d : Nat} {a b : Active} (h : Run E v a t b d) (ht : E.pot t = some 0) : ∃ p, E.pot v = some p ∧ p ≤ d := by
  induction h with
  | nil => exact ⟨0, ht, Nat.le_refl _⟩
  | cons hA _ _ _ _ ih =>
    obtain ⟨p, h1, h2⟩ := ih ht
    obtain ⟨q, h3, h4⟩ := hE.cons _ _ _ _ hA h1
    exact ⟨q, h3, by omega⟩

/-- As long as the target is not popped, a label of a given walk is in the queue. -/
theorem frontier (hE : E.OK) (hi : Inv E S) {v t d c : Nat} {a b : Active} (h : Run E v a t b d) (ht : E.pot t = some 0) (hnt : ∀ l, ¬ S.T t l)
    (hc : S.cov v c a) : ∃ x l, Qd E S x l ∧ E.key x l.dist ≤ c + d := by
  induction h generalizing c with
  | @nil t a =>
    obtain ⟨X, hX, h1, h2⟩ := hc
    rcases hX with hX | hX
    · exact ⟨t, X, ⟨hX, _, ht⟩, by unfold Env.key; rw [ht]; simp; omega⟩
    · exact absurd hX (hnt X)
  | @cons u v t a b c' w d hA hvu hsh hst hrun ih =>
    obtain ⟨X, hX, h1, h2⟩ := hc
    rcases hX with hX | hX
    · obtain ⟨p, h3, h4⟩ := (Run.cons hA hvu hsh hst hrun).pot hE ht
      exact ⟨u, X, ⟨hX, p, h3⟩, by unfold Env.key; rw [h3]; simp; omega⟩
    · obtain ⟨a', h3, h4⟩ := hE.mono u v w X.act a b hA (hi.shp _ _ (.inr hX)) hsh h2 hst
      obtain ⟨Y, hY, h5, h6⟩ := hi.closed u X hX v w hA hvu a' h3
      obtain ⟨x, l, h7, h8⟩ := ih ht hnt (c := c + w) ⟨Y, hY, by omega, h6.trans h4⟩
      exact ⟨x, l, h7, by omega⟩

/-! ### The start -/

def start (s : Nat) : St := ⟨fun v l => v = s ∧ l = MData.source s, fun _ _ => False, fun _ _ => 0⟩

theorem start_inv (hE : E.OK) : Inv E (start E.s) := by
  have hcur : ∀ v l, (start E.s).cur v l ↔ v = E.s ∧ l = MData.source E.s := fun v l => by simp [St.cur, start]
  have hno : ∀ v l, (start E.s).cur v l → v ≠ E.s → False := fun v l h hv => hv ((hcur v l).1 h).1
  have hch : ∀ x y, ¬ Chain E (start E.s) x y := by
    intro x y hc
    cases hc with
    | one hd => exact hno _ _ hd.cx hd.ne
    | cons hd _ => exact hno _ _ hd.cx hd.ne
  refine
    { src := fun l => by rw [hcur]; simp
      inc := fun v a b ha hb _ => by rw [((hcur _ _).1 ha).2, ((hcur _ _).1 hb).2]
      disj := fun _ _ _ h => h
      ex := fun v L h hv => (hno v L h hv).elim
      gen := fun v L h hv => (hno v L h hv).elim
      shp := fun v l h => by obtain ⟨rfl, rfl⟩ := (hcur _ _).1 h; exact hE.src
      ppot := fun v L h hv => (hno v L h hv).elim
      tpot := fun _ _ h => h.elim
      req := fun v L _ _ h hv => (hno v L h hv).elim
      ord := fun _ _ _ _ _ _ h => absurd h (hch _ _)
      closed := fun _ _ h => h.elim
      slots := fun _ _ h => h.elim }

end MC
end Verif.Traffic
