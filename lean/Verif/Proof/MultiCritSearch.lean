import Mathlib.Data.List.Perm.Subperm
import Verif.Proof.MultiCritRun
/- The search with several labels per node ends and finds the cheapest walk that completes no forbidden path. -/
set_option linter.unusedSimpArgs false
set_option linter.unusedVariables false
namespace Verif.Traffic
namespace MC
open Active Spec CCH

/-! ### There are finitely many labels up to a distance -/

theorem lists_finite {α : Type} (L : List α) (hL : ∀ x, x ∈ L) (k : Nat) : ∃ M : List (List α), ∀ l, l.length = k → l ∈ M := by
  induction k with
  | zero => exact ⟨[[]], fun l hl => by simp [List.length_eq_zero_iff.1 hl]⟩
  | succ k ih =>
    obtain ⟨M, hM⟩ := ih
    refine ⟨L.flatMap fun x => M.map (x :: ·), fun l hl => ?_⟩
    cases l with
    | nil => simp at hl
    | cons x l => exact List.mem_flatMap.2 ⟨x, hL x, List.mem_map.2 ⟨l, hM l (by simpa using hl), rfl⟩⟩

theorem words_finite : ∃ L : List (BitVec 128), ∀ x, x ∈ L := by
  obtain ⟨N, hN⟩ : ∃ N, N = 2 ^ 128 := ⟨_, rfl⟩
  refine ⟨(List.range N).map (BitVec.ofNat 128), fun x => List.mem_map.2 ⟨x.toNat, ?_, by simp⟩⟩
  rw [List.mem_range, hN]
  exact x.isLt

theorem same_finite (a : Active) : ∃ L : List Active, ∀ x, Same a x → x ∈ L := by
  obtain ⟨L, hL⟩ := words_finite
  cases a with
  | one w =>
    refine ⟨L.map .one, fun x hx => ?_⟩
    cases x with
    | one y => exact List.mem_map.2 ⟨y, hL y, rfl⟩
    | more y => exact absurd hx (by simp [Same])
  | more ws =>
    obtain ⟨M, hM⟩ := lists_finite L hL ws.length
    refine ⟨M.map .more, fun x hx => ?_⟩
    cases x with
    | one y => exact absurd hx (by simp [Same])
    | more y => exact List.mem_map.2 ⟨y, hM y (by simpa [Same] using hx.symm), rfl⟩

theorem union_finite {α : Type} (Q : Nat → α → Prop) (n : Nat) (h : ∀ i, i < n → ∃ L : List α, ∀ x, Q i x → x ∈ L) :
    ∃ L : List (Nat × α), ∀ i x, i < n → Q i x → (i, x) ∈ L := by
  induction n with
  | zero => exact ⟨[], fun i x hi => by omega⟩
  | succ n ih =>
    obtain ⟨L, hL⟩ := ih (fun i hi => h i (by omega))
    obtain ⟨M, hM⟩ := h n (by omega)
    refine ⟨L ++ M.map (n, ·), fun i x hi hx => ?_⟩
    rcases Nat.lt_succ_iff_lt_or_eq.1 hi with hi | rfl
    · exact List.mem_append.2 (.inl (hL i x hi hx))
    · exact List.mem_append.2 (.inr (List.mem_map.2 ⟨x, hM x hx, rfl⟩))

/-- popped labels up to a distance -/
def Code (n : Nat) (b : Blocked) (C : Nat) (x : Nat × Nat × Active) : Prop := x.1 < n ∧ x.2.1 ≤ C ∧ Shape b x.1 x.2.2

theorem codes_finite (n : Nat) (b : Blocked) (C : Nat) : ∃ N, ∀ H : List (Nat × Nat × Active), H.Nodup → (∀ x ∈ H, Code n b C x) → H.length ≤ N := by
  obtain ⟨L, hL⟩ := union_finite (fun v (x : Nat × Active) => x.1 ≤ C ∧ Shape b v x.2) n (fun v hv => by
    obtain ⟨M, hM⟩ : ∃ M : List Active, ∀ a, Shape b v a → a ∈ M := by
      cases hc : b.counter[v]? with
      | none => exact ⟨[], fun a ⟨c, h1, _⟩ => by rw [hc] at h1; simp at h1⟩
      | some c =>
        obtain ⟨M, hM⟩ := same_finite (Active.new c)
        exact ⟨M, fun a ⟨c', h1, h2⟩ => by rw [hc] at h1; injection h1 with h1; subst h1; exact hM a h2⟩
    obtain ⟨M', hM'⟩ := union_finite (fun _ a => Shape b v a) (C + 1) (fun i _ => ⟨M, hM⟩)
    exact ⟨M', fun x hx => hM' x.1 x.2 (by have := hx.1; omega) hx.2⟩)
  refine ⟨L.length, fun H hn hc => ?_⟩
  refine (List.subperm_of_subset hn fun x hx => ?_).length_le
  obtain ⟨h1, h2, h3⟩ := hc x hx
  exact hL x.1 x.2 h1 ⟨h2, h3⟩

/-! ### The start -/

/-- data that may be initialised -/
structure MReady (n : Nat) (d : MData) : Prop where
  dist : ∃ f, TRep n Heap.new d.dist f
  pred : d.pred.length = n
  queue : ∃ m, IHeap.Rep n d.queue m

theorem MReady.new (n : Nat) : MReady n (MData.new n) := ⟨⟨_, TRep.new⟩, by simp [MData.new], ⟨_, IHeap.rep_new n⟩⟩

theorem CRep.ready {n : Nat} {pot : Nat → Option Nat} {d : MData} {S : St} {f : Nat → Heap Lab} (h : CRep n pot d S f) : MReady n d :=
  ⟨⟨f, h.dist⟩, h.pred, by obtain ⟨m, h1, _⟩ := h.queue; exact ⟨m, h1⟩⟩

variable {σ : Type} {g : FOGraph} {b : Blocked} {loc : Nat → Nat → Nat} {P : Potential σ} {R : σ → Prop} {s : Nat} {pot : Nat → Option Nat}

theorem init_spec (hC : Ctx g b loc P R s pot) {d : MData} (hd : MReady g.numNodes d) {c : σ} (hc : R c) (hs : s < g.numNodes) :
    ∃ d' c' f, MData.init P d c s = some (d', c') ∧ R c' ∧ CRep g.numNodes pot d' (start s) f := by
  obtain ⟨f0, h1⟩ := hd.dist
  obtain ⟨m, h2⟩ := hd.queue
  obtain ⟨q, h3, h4⟩ := IHeap.rep_clear h2
  obtain ⟨c', h5, h6⟩ := hC.get c s hc hs
  obtain ⟨hp, e1, e2, e3, e4⟩ := Heap.push_spec le_preorder (Heap.Rep.new (le := Lab.le)).inv (MData.source s)
  obtain ⟨dist', e5, e6⟩ := h1.reset.modify hs hp
  have hpl : s < d.pred.length := by rw [hd.pred]; exact hs
  have hw : ∀ l, l ∈ hp.data.take hp.split ↔ l = MData.source s := by
    intro l; rw [e3.mem_iff]; simp [Heap.new]
  have ht : ∀ l, l ∉ hp.popped := by
    intro l; rw [e4.mem_iff]; simp [Heap.new, Heap.popped]
  have hnd : hp.data.Nodup := by
    have : hp.data.Perm [MData.source s] := by
      rw [← List.take_append_drop hp.split hp.data]
      have e4' : hp.popped = [] := e4.eq_nil
      unfold Heap.popped at e4'
      rw [e4', List.append_nil]
      simpa [Heap.new] using e3
    rw [this.nodup_iff]; simp
  have hheap : ∀ v, v < g.numNodes → HRep (fupd (fun _ => Heap.new) s hp v) ((start s).W v) ((start s).T v) := by
    intro v hv
    by_cases hx : v = s
    · subst hx
      simp only [fupd, if_true]
      exact ⟨e2, hnd, fun l => by rw [hw]; simp [start], fun l => by simp [start, ht]⟩
    · rw [fupd_of_ne _ _ hx]
      exact ⟨(Heap.Rep.new (le := Lab.le)).inv, by simp [Heap.new], fun l => by simp [start, hx, Heap.new], fun l => by simp [start, Heap.new, Heap.popped]⟩
  have hnode : ∀ v l, (start s).cur v l → v < g.numNodes := by
    rintro v l (⟨rfl, _⟩ | h)
    · exact hs
    · exact h.elim
  have hfin : ∀ v l, (start s).cur v l → l.dist < INFINITY := by
    rintro v l (⟨_, rfl⟩ | h)
    · show 0 < INFINITY; decide
    · exact h.elim
  cases hps : pot s with
  | none =>
    refine ⟨⟨dist', d.pred.set s s, q⟩, c', _, ?_, h6, e6, hheap, by simpa using hd.pred, ⟨_, h4, ?_⟩, hnode, hfin⟩
    · rw [hps] at h5
      simp only [MData.init, h3, h5, e1, e5, upd_of_lt _ hpl, Option.bind_eq_bind, Option.bind_some, Option.pure_def]
    · intro v hv
      refine ⟨fun st h => by simp at h, fun _ l q' hl => ?_⟩
      obtain ⟨rfl, _⟩ : v = s ∧ l = MData.source s := hl
      rw [hps]; simp
  | some p =>
    have hlt := hC.lt _ _ hps
    have hINF : INFINITY < U32 := by decide
    have hadd : add32 p (MData.source s).dist = some (p + 0) := add32_of_lt (by show p + 0 < U32; omega)
    obtain ⟨q', k1, k2⟩ := IHeap.rep_push h4 (x := (⟨p + 0, s⟩ : QState)) hs rfl
    refine ⟨⟨dist', d.pred.set s s, q'⟩, c', _, ?_, h6, e6, hheap, by simpa using hd.pred, ⟨_, k2, ?_⟩, hnode, hfin⟩
    · rw [hps] at h5
      simp only [MData.init, h3, h5, e1, e5, hadd, k1, upd_of_lt _ hpl, Option.bind_eq_bind, Option.bind_some, Option.pure_def]
    · intro v hv
      by_cases hx : v = s
      · subst hx
        refine ⟨fun st h => ?_, fun h => by simp [fupd, HeapElem.idx] at h⟩
        have : (⟨p + 0, v⟩ : QState) = st := by simpa [fupd, HeapElem.idx] using h
        subst this
        refine ⟨rfl, p, MData.source v, hps, ⟨rfl, rfl⟩, ?_, rfl⟩
        rintro l ⟨_, rfl⟩
        exact Nat.le_refl _
      · refine ⟨fun st h => ?_, fun _ l q' hl => absurd hl.1 hx⟩
        have hx' : v ≠ HeapElem.idx (⟨p + 0, s⟩ : QState) := hx
        rw [fupd_of_ne _ _ hx'] at h; simp at h

/-- the source has no potential: nothing is found -/
theorem search_none (hC : Ctx g b loc P R s pot) {d : MData} {f : Nat → Heap Lab} (hd : CRep g.numNodes pot d (start s) f) (c : σ) (hp : pot s = none) (t fuel : Nat) :
    ∃ d', MData.search P g b t (fuel + 1) d c = some (d', c) ∧ CRep g.numNodes pot d' (start s) f := by
  obtain ⟨d', h1, h2⟩ := settle_none (P := P) (g := g) (b := b) hd (by
    rintro v l p ⟨rfl, _⟩
    rw [hp]; simp) c
  exact ⟨d', by simp only [MData.search, h1, Option.bind_eq_bind, Option.bind_some, Option.pure_def], h2⟩

/-- the state after the target was popped -/
structure Found (E : Env) (S : St) (t : Nat) (e : Lab) : Prop where
  inv : Inv E S
  round : ∃ arcs, Round E S t e arcs
  top : ∀ l, S.T t l ↔ l = e
  best : ∀ a C, Run E E.s (Active.new 0) t a C → e.dist ≤ C

theorem search_spec (hC : Ctx g b loc P R s pot) {t C B : Nat} {a0 : Active} (hrun : Run (env g b s pot) s (Active.new 0) t a0 C) (ht : pot t = some 0)
    (hB : ∀ u v w, g.Arc u v w → w ≤ B) (hCB : C + B < INFINITY) {N : Nat}
    (hN : ∀ H : List (Nat × Nat × Active), H.Nodup → (∀ x ∈ H, Code g.numNodes b C x) → H.length ≤ N) (fuel : Nat) {S : St} (hi : Inv (env g b s pot) S) {d : MData}
    {f : Nat → Heap Lab} (hd : CRep g.numNodes pot d S f) {c : σ} (hc : R c) {H : List (Nat × Nat × Active)} (hH : HistOK S H) (hnd : H.Nodup)
    (hcode : ∀ x ∈ H, Code g.numNodes b C x) (hnt : ∀ l, ¬ S.T t l) (hfuel : N < fuel + H.length) :
    ∃ d' c' S' f' e, MData.search P g b t fuel d c = some (d', c') ∧ R c' ∧ CRep g.numNodes pot d' S' f' ∧ Found (env g b s pot) S' t e := by
  induction fuel generalizing S d f c H with
  | zero => have := hN H hnd hcode; omega
  | succ fuel ih =>
    have hfr : ∀ a C, Run (env g b s pot) s (Active.new 0) t a C → ∃ x l, Qd (env g b s pot) S x l ∧ (env g b s pot).key x l.dist ≤ C := by
      intro a C hr
      have := frontier hC.ok hi hr ht hnt (c := 0) ⟨MData.source s, (hi.src _).2 rfl, Nat.le_refl _, Sub.refl _⟩
      simpa using this
    obtain ⟨u, e, d1, c1, S1, f1, arcs, e1, e2, e3, e4, e5, e6, e7, e8, e9, e10⟩ := settle_spec hC hi hd hc hH (hfr _ _ hrun) hB hCB
    have hkey : ∀ a C, Run (env g b s pot) s (Active.new 0) t a C → (env g b s pot).key u e.dist ≤ C := by
      intro a C hr
      obtain ⟨x, l, h1, h2⟩ := hfr a C hr
      exact Nat.le_trans (e8 x l h1) h2
    by_cases hut : u = t
    · subst hut
      refine ⟨d1, c1, S1, f1, e, ?_, e2, e5, e3, ⟨arcs, e4⟩, fun l => ⟨fun h => ?_, fun h => by rw [h]; exact e4.top⟩, fun a C hr => ?_⟩
      · simp only [MData.search, e1, if_true, Option.bind_eq_bind, Option.bind_some, Option.pure_def]
      · rcases e6 u l h with h | h
        · exact absurd h (hnt l)
        · exact h.2
      · have := hkey a C hr
        unfold Env.key at this
        omega
    · have hcode' : ∀ x ∈ (u, e.dist, e.act) :: H, Code g.numNodes b C x := by
        intro x hx
        rcases List.mem_cons.1 hx with rfl | hx
        · refine ⟨hd.node u e (.inl e7.1), ?_, hi.shp u e (.inl e7.1)⟩
          have := hkey _ _ hrun
          unfold Env.key at this
          show e.dist ≤ C
          omega
        · exact hcode x hx
      have hnd' : ((u, e.dist, e.act) :: H).Nodup := List.nodup_cons.2 ⟨e10, hnd⟩
      obtain ⟨d2, c2, S2, f2, e', k1, k2, k3, k4⟩ := ih e3 e5 e2 e9 hnd' hcode' (fun l h => by
        rcases e6 t l h with h | h
        · exact hnt l h
        · exact hut h.1.symm) (by simp only [List.length_cons]; omega)
      exact ⟨d2, c2, S2, f2, e', by simp only [MData.search, e1, if_neg hut, Option.bind_eq_bind, Option.bind_some]; exact k1, k2, k3, k4⟩

end MC
end Verif.Traffic
