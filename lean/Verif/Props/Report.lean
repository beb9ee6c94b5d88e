import Verif.Proof.Report
import Verif.Proof.ReportDup
/-
C68: the printed report is the tree of the scopes of the program.
-/
namespace Verif

open Spec Rep

/-- A program that uses the interface as intended, with plain reports only directly within captures,
runs through.  The printed object is the tree of its scopes, and each capture gives back exactly what
was reported in it, whatever is blocked, captured or nested around it.  Missing: contexts and
collections directly within a capture, see `C68_capture_panics`. -/
theorem C68_report_tree_partial {V : Type} (allow : Bool) (p : List (Act V)) (h : Act.Program false p) :
    session allow (opsAll p) = some ((Act.capturesAll p).map some, some (byKey (Act.entriesAll p))) :=
  (session_out allow p ⟨fits_mono_all p _ h.1, h.2⟩).1 h

/-- Every program that is as intended but opens a context or a collection directly within a capture
panics, although it is as intended. -/
theorem C68_capture_panics {V : Type} (allow : Bool) (p : List (Act V)) (h : Act.Program true p) (h' : ¬ Act.Program false p) :
    session allow (opsAll p) = none :=
  (session_out allow p h).2 h'

/-- A key that is reported twice in the same object is not lost silently: the program panics, unless overriding is allowed. -/
theorem C68_duplicate_panics {V : Type} (p : List (Act V)) (h : Act.FitsAll true .object p) (hd : ¬ ((Act.entriesAll p).map Prod.fst).Nodup) :
    session false (opsAll p) = none := by
  have := acts_dup p [] [] [] [] h List.Pairwise.nil (by simpa [keys] using hd) (by simp [keys])
  simp [session, Reporter.new, this]

/-- If overriding is allowed (feature `report-allow-override`), the last report under each key is printed, each key once and in order. -/
theorem C68_override {V : Type} (l : List (String × V)) :
    ∃ m, session true (opsAll (l.map (fun e => Act.report e.1 e.2))) = some ([], some m) ∧ m.Pairwise (fun a b => a.1 < b.1) ∧
      ∀ k j, (k, j) ∈ m ↔ ∃ A v B, l = A ++ (k, v) :: B ∧ k ∉ B.map Prod.fst ∧ j = .val v := by
  obtain ⟨m, h1, h2, h3⟩ := reports_over l [] [] List.Pairwise.nil
  refine ⟨m, ?_, h2, fun k j => by rw [h3]; simp⟩
  simp [session, Reporter.new, h1, Sess.finish]

/-- Without `enable_reporting` (or on another thread) no call panics, whatever the program does, nothing is
printed, and all captures are empty-handed. -/
theorem C68_disabled {V : Type} (allow : Bool) (os : List (Op V)) (rep : List (Option (Obj V))) :
    ∃ n : Nat, Sess.run allow ⟨none, rep⟩ os = some ⟨none, rep ++ List.replicate n none⟩ ∧
      Sess.finish (⟨none, rep ++ List.replicate n none⟩ : Sess V) = some none := by
  induction os generalizing rep with
  | nil => exact ⟨0, by simp [run_nil], rfl⟩
  | cons o os ih =>
    cases o
    case reported =>
      obtain ⟨n, h1, h2⟩ := ih (rep ++ [none])
      refine ⟨n + 1, ?_, rfl⟩
      simpa [run_cons, Sess.step, List.replicate_succ] using h1
    all_goals
      obtain ⟨n, h1, h2⟩ := ih rep
      refine ⟨n, ?_, rfl⟩
      simpa [run_cons, Sess.step] using h1

namespace ReportEx

/-- A run of an experiment: a header, a list of two queries, of which the second one uses a captured
and a blocked part, and a context. -/
def prog : List (Act Nat) :=
  [.report "program" 1,
   .collection "algo_runs" [
     .item [.report "from" 3, .report "to" 4, .report "answer" 5],
     .item [.report "from" 6, .captured [.report "pops" 7, .blocked [.item [], .context "x" [.captured [.report "y" 1]]]],
            .report "pops" 8]],
   .context "build" [.report "time" 9, .context "inner" []]]

example : Act.Program false prog := by
  simp [prog, Act.Program, Act.FitsAll, Act.Fits, Act.entriesAll, Act.entries]

example : Act.Program true [Act.captured [.report "pops" 7, .context "phase" [.report "time" 1]]] ∧
    ¬ Act.Program false [(Act.captured [.report "pops" 7, .context "phase" [.report "time" 1]] : Act Nat)] := by
  simp [Act.Program, Act.FitsAll, Act.Fits, Act.entriesAll, Act.entries]

example : Act.FitsAll true .object ([.report "a" 1, .context "a" [.report "b" 2]] : List (Act Nat)) ∧
    ¬ ((Act.entriesAll ([.report "a" 1, .context "a" [.report "b" 2]] : List (Act Nat))).map Prod.fst).Nodup := by
  simp [Act.FitsAll, Act.Fits, Act.entriesAll, Act.entries]

end ReportEx

end Verif
