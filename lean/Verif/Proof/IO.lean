import Verif.Model.IO
set_option linter.unusedSimpArgs false
set_option linter.unusedVariables false
namespace Verif
namespace Store
open Spec

/-! ### Records -/

/-- A type whose valid values survive being turned into bytes and back. -/
structure Rec.OK {α : Type} (r : Rec α) (valid : α → Prop) : Prop where
  pos : 0 < r.size
  len : ∀ x, (r.enc x).length = r.size
  inv : ∀ x, valid x → r.dec (r.enc x) = x

theorem leBytes_length (k n : Nat) : (leBytes k n).length = k := by
  induction k generalizing n with
  | zero => rfl
  | succ k ih => simp [leBytes, ih]

theorem ofLe_leBytes (k n : Nat) (h : n < 256 ^ k) : ofLe (leBytes k n) = n := by
  induction k generalizing n with
  | zero => simp at h; simp [leBytes, ofLe, h]
  | succ k ih =>
    have : n / 256 < 256 ^ k := by rw [Nat.pow_succ] at h; omega
    simp only [leBytes, ofLe, ih _ this]
    simp only [UInt8.toNat_ofNat']
    omega

theorem u32_ok : u32.OK (· < U32) := ⟨by decide, fun x => leBytes_length 4 x, fun x h => ofLe_leBytes 4 x h⟩

theorem u64_ok : u64.OK (· < 18446744073709551616) := ⟨by decide, fun x => leBytes_length 8 x, fun x h => ofLe_leBytes 8 x h⟩

theorem pair_ok {α β : Type} {a : Rec α} {b : Rec β} {va : α → Prop} {vb : β → Prop} (ha : a.OK va) (hb : b.OK vb) :
    (pair a b).OK (fun x => va x.1 ∧ vb x.2) := by
  refine ⟨?_, ?_, ?_⟩
  · have := ha.pos; simp only [pair]; omega
  · intro x; simp [pair, ha.len, hb.len]
  · rintro ⟨x, y⟩ ⟨h1, h2⟩
    simp only [pair]
    rw [List.take_left' (ha.len x), List.drop_left' (ha.len x), ha.inv x h1, hb.inv y h2]

variable {α : Type} {r : Rec α} {valid : α → Prop}

theorem dataBytes_length (h : r.OK valid) (xs : List α) : (dataBytes r xs).length = xs.length * r.size := by
  induction xs with
  | nil => simp [dataBytes]
  | cons x xs ih =>
    have e : dataBytes r (x :: xs) = r.enc x ++ dataBytes r xs := rfl
    rw [e, List.length_append, ih, h.len, List.length_cons, Nat.succ_mul]; omega

/-- any prefix of the bytes that consists of whole records stands for a prefix of the vector -/
theorem records_prefix (h : r.OK valid) (xs : List α) (hv : ∀ x ∈ xs, valid x) (n : Nat) (part rest : List UInt8)
    (he : dataBytes r xs = part ++ rest) (hl : part.length = n * r.size) : records r n part = xs.take n := by
  induction n generalizing xs part with
  | zero => simp [records]
  | succ n ih =>
    cases xs with
    | nil =>
      have : (part ++ rest).length = 0 := by rw [← he]; simp [dataBytes]
      rw [List.length_append, hl, Nat.succ_mul] at this
      have := h.pos; omega
    | cons x xs =>
      have e : dataBytes r (x :: xs) = r.enc x ++ dataBytes r xs := rfl
      rw [e] at he
      have hle : (r.enc x).length ≤ part.length := by rw [h.len, hl, Nat.succ_mul]; omega
      have h1 : part.take r.size = r.enc x := by
        have := congrArg (List.take r.size) he
        rw [List.take_left' (h.len x), List.take_append_of_le_length (by rw [← h.len x]; exact hle)] at this
        exact this.symm
      have h2 : dataBytes r xs = part.drop r.size ++ rest := by
        have := congrArg (List.drop r.size) he
        rw [List.drop_left' (h.len x), List.drop_append_of_le_length (by rw [← h.len x]; exact hle)] at this
        exact this
      simp only [records, List.take_succ_cons]
      rw [h1, h.inv x (hv x (by simp)), ih xs (fun y hy => hv y (by simp [hy])) _ h2 (by
        rw [List.length_drop, hl, Nat.succ_mul]; omega)]

theorem records_dataBytes (h : r.OK valid) (xs : List α) (hv : ∀ x ∈ xs, valid x) :
    records r xs.length (dataBytes r xs) = xs := by
  have := records_prefix h xs hv xs.length (dataBytes r xs) [] (by simp) (dataBytes_length h xs)
  rw [this, List.take_length]

theorem loadVec_file (h : r.OK valid) (xs : List α) (hv : ∀ x ∈ xs, valid x) {fs : FS} {p : Path}
    (hf : fs p = some (.file (dataBytes r xs))) : loadVec r fs p = .ok xs := by
  have hp := h.pos
  have hl := dataBytes_length h xs
  simp only [loadVec, readFile, hf, Out.bind]
  rw [if_neg (by omega), if_pos (by rw [hl, Nat.mul_mod_left]), hl, Nat.mul_div_cancel _ hp, records_dataBytes h xs hv]

theorem loadVec_prefix (h : r.OK valid) (xs : List α) (hv : ∀ x ∈ xs, valid x) {fs : FS} {p : Path} {part rest : List UInt8}
    (he : dataBytes r xs = part ++ rest) (hf : fs p = some (.file part)) :
    loadVec r fs p = .panic ∨ loadVec r fs p = .ok (xs.take (part.length / r.size)) := by
  have hp := h.pos
  simp only [loadVec, readFile, hf, Out.bind]
  rw [if_neg (by omega)]
  by_cases hm : part.length % r.size = 0
  · rw [if_pos hm]; right
    rw [records_prefix h xs hv _ part rest he]
    exact (Nat.div_mul_cancel (Nat.dvd_of_mod_eq_zero hm)).symm
  · rw [if_neg hm]; left; rfl

theorem loadVec_none {fs : FS} {p : Path} (hf : fs p = none) : loadVec r fs p = .err := by
  simp [loadVec, readFile, hf, Out.bind]

theorem Out.bind_ok {α β : Type} {x : Out α} {f : α → Out β} {b : β} : x.bind f = .ok b ↔ ∃ a, x = .ok a ∧ f a = .ok b := by
  cases x <;> simp [Out.bind]

theorem orPanic_ok {α : Type} {x : Option α} {a : α} : orPanic x = .ok a ↔ x = some a := by
  cases x <;> simp [orPanic]

/-! ### Steps -/

theorem put_put (fs : FS) (p : Path) (a b : Entry) : (fs.put p a).put p b = fs.put p b := by
  funext q; simp only [FS.put]; split <;> simp_all

theorem put_same (fs : FS) (p : Path) (a : Entry) : fs.put p a p = some a := by simp [FS.put]

theorem put_ne (fs : FS) {p q : Path} (a : Entry) (h : q ≠ p) : fs.put p a q = fs q := by simp [FS.put, h]

theorem runSteps_append (fs : FS) (a b : List Step) : runSteps fs (a ++ b) = (runSteps fs a).bind (fun fs => runSteps fs b) := by
  induction a generalizing fs with
  | nil => rfl
  | cons s a ih =>
    simp only [List.cons_append, runSteps]
    cases s.run fs with
    | none => rfl
    | some fs1 => simp [ih]

theorem create_run {fs fs' : FS} {p : Path} (h : (Step.create p).run fs = some fs') : fs' = fs.put p (.file []) := by
  simp only [Step.run] at h
  split at h
  · cases h
  · simpa using h.symm
  · split at h
    · simpa using h.symm
    · cases h

theorem append_run {fs fs' : FS} {p : Path} {bs : List UInt8} (h : (Step.append p bs).run (fs.put p (.file [])) = some fs') :
    fs' = fs.put p (.file bs) := by
  simp only [Step.run, put_same] at h
  simp only [put_put, List.nil_append] at h
  simpa using h.symm

theorem runSteps_writeTo {fs fs' : FS} {p : Path} {bs : List UInt8} (h : runSteps fs (writeTo p bs) = some fs') :
    fs' = fs.put p (.file bs) := by
  simp only [writeTo, runSteps, Option.bind_eq_some_iff] at h
  obtain ⟨fs1, h1, fs2, h2, h3⟩ := h
  cases create_run h1
  cases append_run h2
  simpa using h3.symm

theorem writeTo_succeeds {fs : FS} {p : Path} (bs : List UInt8) (h1 : fs p.dropLast = some .dir) (h2 : fs p ≠ some .dir) :
    runSteps fs (writeTo p bs) = some (fs.put p (.file bs)) := by
  have : (Step.create p).run fs = some (fs.put p (.file [])) := by
    simp only [Step.run]
    cases hp : fs p with
    | none => simp [h1]
    | some e => cases e with
      | dir => exact absurd hp h2
      | file _ => rfl
  simp only [writeTo, runSteps, this, Option.bind_some]
  simp [Step.run, put_same, put_put]

/-- the steps that store the files of an object -/
def saveSteps (dir : Path) (files : List (String × List UInt8)) : List Step :=
  files.flatMap (fun f => writeTo (dir ++ [f.1]) f.2)

theorem join_inj {dir : Path} {a b : String} : dir ++ [a] = dir ++ [b] ↔ a = b := by simp

theorem saveSteps_spec {dir : Path} {files : List (String × List UInt8)} (hnd : (files.map Prod.fst).Nodup) {fs fs' : FS}
    (h : runSteps fs (saveSteps dir files) = some fs') :
    (∀ f ∈ files, fs' (dir ++ [f.1]) = some (.file f.2)) ∧
    ∀ q, (∀ f ∈ files, q ≠ dir ++ [f.1]) → fs' q = fs q := by
  induction files generalizing fs with
  | nil => simp [saveSteps, runSteps] at h; subst h; simp
  | cons f files ih =>
    have e : saveSteps dir (f :: files) = writeTo (dir ++ [f.1]) f.2 ++ saveSteps dir files := rfl
    rw [e, runSteps_append, Option.bind_eq_some_iff] at h
    obtain ⟨fs1, h1, h2⟩ := h
    cases runSteps_writeTo h1
    simp only [List.map_cons, List.nodup_cons] at hnd
    obtain ⟨i1, i2⟩ := ih hnd.2 h2
    constructor
    · intro g hg
      rcases List.mem_cons.1 hg with rfl | hg
      · rw [i2, put_same]
        intro g' hg' he
        exact hnd.1 (List.mem_map.2 ⟨g', hg', (join_inj.1 he).symm⟩)
      · exact i1 g hg
    · intro q hq
      rw [i2 q (fun g hg => hq g (by simp [hg])), put_ne _ _ (hq f (by simp))]

theorem ensureDir_run {fs fs' : FS} {p : Path} (h : (Step.ensureDir p).run fs = some fs') :
    (fs' = fs ∨ (fs p = none ∧ fs' = fs.put p .dir)) := by
  simp only [Step.run] at h
  split at h
  · left; simpa using h.symm
  · rename_i hp
    split at h
    · right; exact ⟨hp, by simpa using h.symm⟩
    · cases h

theorem join_ne (dir : Path) (a : String) : dir ++ [a] ≠ dir := by
  intro h
  have := congrArg List.length h
  simp at this

theorem deconstruct_spec {dir : Path} {files : List (String × List UInt8)} (hnd : (files.map Prod.fst).Nodup) {fs fs' : FS}
    (h : runSteps fs (deconstruct dir files) = some fs') :
    (∀ f ∈ files, fs' (dir ++ [f.1]) = some (.file f.2)) ∧
    ∀ q, q ≠ dir → (∀ f ∈ files, q ≠ dir ++ [f.1]) → fs' q = fs q := by
  simp only [deconstruct, runSteps, Option.bind_eq_some_iff] at h
  obtain ⟨fs1, h1, h2⟩ := h
  obtain ⟨s1, s2⟩ := saveSteps_spec hnd h2
  refine ⟨s1, fun q hd hq => ?_⟩
  rw [s2 q hq]
  rcases ensureDir_run h1 with rfl | ⟨_, rfl⟩
  · rfl
  · rw [put_ne _ _ hd]

theorem saveSteps_succeeds {dir : Path} (files : List (String × List UInt8)) {fs : FS} (h1 : fs dir = some .dir)
    (h2 : ∀ f ∈ files, fs (dir ++ [f.1]) ≠ some .dir) : ∃ fs', runSteps fs (saveSteps dir files) = some fs' := by
  induction files generalizing fs with
  | nil => exact ⟨fs, rfl⟩
  | cons f files ih =>
    have e : saveSteps dir (f :: files) = writeTo (dir ++ [f.1]) f.2 ++ saveSteps dir files := rfl
    rw [e, runSteps_append, writeTo_succeeds f.2 (by simpa using h1) (h2 f (by simp))]
    simp only [Option.bind_some]
    apply ih
    · rw [put_ne _ _ (fun h => join_ne dir f.1 h.symm)]; exact h1
    · intro g hg
      by_cases he : dir ++ [g.1] = dir ++ [f.1]
      · rw [he, put_same]; simp
      · rw [put_ne _ _ he]; exact h2 g (by simp [hg])

theorem deconstruct_succeeds {dir : Path} (files : List (String × List UInt8)) {fs : FS}
    (h1 : fs dir = some .dir ∨ (fs dir = none ∧ fs dir.dropLast = some .dir))
    (h2 : ∀ f ∈ files, fs (dir ++ [f.1]) ≠ some .dir) : ∃ fs', runSteps fs (deconstruct dir files) = some fs' := by
  rcases h1 with h1 | ⟨h1, h3⟩
  · have : (Step.ensureDir dir).run fs = some fs := by simp [Step.run, h1]
    simp only [deconstruct, runSteps, this, Option.bind_some]
    exact saveSteps_succeeds files h1 h2
  · have : (Step.ensureDir dir).run fs = some (fs.put dir .dir) := by simp [Step.run, h1, h3]
    simp only [deconstruct, runSteps, this, Option.bind_some]
    refine saveSteps_succeeds files (put_same _ _ _) (fun f hf => ?_)
    rw [put_ne _ _ (join_ne _ _)]; exact h2 f hf

/-! ### Crashes -/

/-- an interrupted `write_to` leaves the old file, the new file, or a part of the new one -/
theorem crash_writeTo {p : Path} {bs : List UInt8} {ss : List Step} {fs fs' : FS} (h : CrashState (writeTo p bs ++ ss) fs fs') :
    fs' = fs ∨ (∃ part rest, bs = part ++ rest ∧ fs' = fs.put p (.file part)) ∨
      CrashState ss (fs.put p (.file bs)) fs' := by
  simp only [writeTo, List.cons_append, List.nil_append] at h
  cases h with
  | stop => exact .inl rfl
  | next h1 h2 =>
    cases create_run h1
    cases h2 with
    | stop => exact .inr (.inl ⟨[], bs, rfl, rfl⟩)
    | torn he h2 => exact .inr (.inl ⟨_, _, he, append_run h2⟩)
    | next h2 h3 =>
      cases append_run h2
      exact .inr (.inr h3)

theorem crash_nil {fs fs' : FS} (h : CrashState [] fs fs') : fs' = fs := by cases h; rfl

theorem crash_deconstruct {dir : Path} {files : List (String × List UInt8)} {fs fs' : FS}
    (h : CrashState (deconstruct dir files) fs fs') :
    ∃ fs1, (∀ q, q ≠ dir → fs1 q = fs q) ∧ CrashState (saveSteps dir files) fs1 fs' := by
  simp only [deconstruct] at h
  cases h with
  | stop => exact ⟨fs, fun _ _ => rfl, .stop _ _⟩
  | next h1 h2 =>
    refine ⟨_, ?_, h2⟩
    rcases ensureDir_run h1 with rfl | ⟨_, rfl⟩
    · intro _ _; rfl
    · intro q hq; rw [put_ne _ _ hq]

theorem take_eq_of_length {xs : List α} {k : Nat} (h : (xs.take k).length = xs.length) : xs.take k = xs := by
  rw [List.length_take] at h
  exact List.take_of_length_le (by omega)

/-- A graph storing interrupted in a directory without older files of the same names. -/
theorem crash_graph {g : FOGraph} (hg : FOGraph.new g.firstOut g.head g.weight = some g)
    (h1 : ∀ x ∈ g.firstOut, x < U32) (h2 : ∀ x ∈ g.head, x < U32) (h3 : ∀ x ∈ g.weight, x < U32) {dir : Path} {fs fs' : FS}
    (hempty : ∀ f ∈ graphFiles g, fs (dir ++ [f.1]) = none) (hc : CrashState (deconstruct dir (graphFiles g)) fs fs')
    {g' : FOGraph} (hl : loadGraph fs' dir = .ok g') : g' = g := by
  obtain ⟨fs1, ha, hc⟩ := crash_deconstruct hc
  have e : saveSteps dir (graphFiles g) = writeTo (dir ++ ["first_out"]) (dataBytes u32 g.firstOut) ++
      (writeTo (dir ++ ["head"]) (dataBytes u32 g.head) ++ (writeTo (dir ++ ["weights"]) (dataBytes u32 g.weight) ++ [])) := rfl
  rw [e] at hc
  have hx : ∀ n, n ∈ (graphFiles g).map Prod.fst → fs1 (dir ++ [n]) = none := by
    intro n hn
    obtain ⟨f, hf, rfl⟩ := List.mem_map.1 hn
    rw [ha _ (join_ne _ _)]; exact hempty f hf
  simp only [loadGraph, loadGraphWith, Out.bind_ok, orPanic_ok] at hl
  obtain ⟨fo, l1, head, l2, weight, l3, hn⟩ := hl
  have noHead : fs' (dir ++ ["head"]) = none → False := fun h => by rw [loadVec_none h] at l2; cases l2
  have noWeights : fs' (dir ++ ["weights"]) = none → False := fun h => by rw [loadVec_none h] at l3; cases l3
  have n1 : (dir ++ ["head"] : Path) ≠ dir ++ ["first_out"] := by simp
  have n2 : (dir ++ ["weights"] : Path) ≠ dir ++ ["first_out"] := by simp
  have n3 : (dir ++ ["weights"] : Path) ≠ dir ++ ["head"] := by simp
  have n4 : (dir ++ ["first_out"] : Path) ≠ dir ++ ["head"] := by simp
  have n5 : (dir ++ ["first_out"] : Path) ≠ dir ++ ["weights"] := by simp
  have n6 : (dir ++ ["head"] : Path) ≠ dir ++ ["weights"] := by simp
  have x1 := hx "head" (by simp [graphFiles])
  have x2 := hx "weights" (by simp [graphFiles])
  rcases crash_writeTo hc with rfl | ⟨_, _, _, rfl⟩ | hc
  · exact (noHead x1).elim
  · exact (noHead (by rw [put_ne _ _ n1]; exact x1)).elim
  · rcases crash_writeTo hc with rfl | ⟨_, _, _, rfl⟩ | hc
    · exact (noHead (by rw [put_ne _ _ n1]; exact x1)).elim
    · exact (noWeights (by rw [put_ne _ _ n3, put_ne _ _ n2]; exact x2)).elim
    · rcases crash_writeTo hc with rfl | ⟨part, rest, he, rfl⟩ | hc
      · exact (noWeights (by rw [put_ne _ _ n3, put_ne _ _ n2]; exact x2)).elim
      · rw [loadVec_file u32_ok g.firstOut h1 (by rw [put_ne _ _ n5, put_ne _ _ n4, put_same])] at l1
        rw [loadVec_file u32_ok g.head h2 (by rw [put_ne _ _ n6, put_same])] at l2
        cases l1; cases l2
        rcases loadVec_prefix u32_ok g.weight h3 he (fs := ((fs1.put (dir ++ ["first_out"]) (.file (dataBytes u32 g.firstOut))).put
            (dir ++ ["head"]) (.file (dataBytes u32 g.head))).put (dir ++ ["weights"]) (.file part))
            (p := dir ++ ["weights"]) (put_same _ _ _) with hp | hp
        · rw [hp] at l3; cases l3
        · rw [hp] at l3
          cases l3
          have hlen : (g.weight.take (part.length / u32.size)).length = g.weight.length := by
            simp only [FOGraph.new] at hn hg
            split at hn
            · rename_i hh
              split at hg
              · rename_i hh2
                rw [hh.2.2.2.2, hh2.2.2.2.2]
              · cases hg
            · cases hn
          rw [take_eq_of_length hlen, hg] at hn
          simpa using hn.symm
      · cases crash_nil hc
        rw [loadVec_file u32_ok g.firstOut h1 (by rw [put_ne _ _ n5, put_ne _ _ n4, put_same])] at l1
        rw [loadVec_file u32_ok g.head h2 (by rw [put_ne _ _ n6, put_same])] at l2
        rw [loadVec_file u32_ok g.weight h3 (by rw [put_same])] at l3
        cases l1; cases l2; cases l3
        rw [hg] at hn
        simpa using hn.symm

end Store
end Verif
