import Verif.Model.Graph
/-
Model of `engine/src/algo/metric_merging.rs`. The tasks of one round run concurrently: `pick` chooses, for each point in time, which
task makes the next step. A step contains at most one access to shared data (`min_final_key`, or the locked queue).
-/
namespace Verif.Merging

/-- `u64::MAX` -/
def MAX64 : Nat := 18446744073709551615

/-- `u64` addition -/
def add64 (a b : Nat) : Option Nat := if a + b ≤ MAX64 then some (a + b) else none

/-- a queue entry: sum so far, number of arcs checked, two indices of groups -/
structure Entry where
  key : Nat
  checked : Nat
  i : Nat
  j : Nat
deriving DecidableEq, Repr

/-- the derived order of tuples -/
def Entry.le (a b : Entry) : Bool :=
  decide (a.key < b.key ∨ a.key = b.key ∧ (a.checked < b.checked ∨ a.checked = b.checked ∧ (a.i < b.i ∨ a.i = b.i ∧ a.j ≤ b.j)))

/-- `BinaryHeap::peek` with reversed order: a smallest entry. The heap is the list of its entries. -/
def peek : List Entry → Option Entry
  | [] => none
  | e :: q => some (q.foldl (fun a b => if a.le b then a else b) e)

/-- `merged[idx].iter().map(|&idx| metrics[idx][edge_idx]).min().unwrap()` (`metric_merging.rs:84`) -/
def groupMin (metrics merged : List (List Nat)) (g e : Nat) : Option Nat := do
  let group ← merged[g]?
  let ws ← group.mapM (fun i => do
    let metric ← metrics[i]?
    metric[e]?)
  ws.min?

/-- a task: its entry, and whether it has left the loop (and `fetch_min`, if any) -/
structure Task where
  entry : Entry
  pushing : Bool
deriving DecidableEq, Repr

/-- One step of a task that has not left the loop (`metric_merging.rs:80-91`): `fetch_min` at the end, or one round of the loop,
which begins with a load. `none` is overflow or panic. Returns the task and the new `min_final_key`. -/
def taskStep (metrics merged : List (List Nat)) (m minFinal : Nat) (t : Task) : Option (Task × Nat) :=
  if m ≤ t.entry.checked then some (⟨t.entry, true⟩, min minFinal t.entry.key)
  else if minFinal < t.entry.key then some (⟨t.entry, true⟩, minFinal)
  else do
    let w1 ← groupMin metrics merged t.entry.i t.entry.checked
    let w2 ← groupMin metrics merged t.entry.j t.entry.checked
    let d := (w1 - w2) + (w2 - w1)
    let key ← add64 t.entry.key (d * d)
    if 2147483648 ≤ t.entry.checked + 1 then none
    else return (⟨{ t.entry with key := key, checked := t.entry.checked + 1 }, false⟩, minFinal)

/-- The `rayon::scope` of one round (`metric_merging.rs:71-95`): `tasks` have not ended yet. -/
def round (pick : Nat → Nat) (metrics merged : List (List Nat)) (m : Nat) :
    Nat → Nat → List Task → Nat → List Entry → Option (List Entry × Nat)
  | 0, _, _, _, _ => none
  | fuel + 1, clock, tasks, minFinal, queue =>
    if tasks.isEmpty then some (queue, clock)
    else do
      let k := pick clock % tasks.length
      let t ← tasks[k]?
      if t.pushing then round pick metrics merged m fuel (clock + 1) (tasks.eraseIdx k) minFinal (queue ++ [t.entry])
      else
        let (t, minFinal) ← taskStep metrics merged m minFinal t
        round pick metrics merged m fuel (clock + 1) (tasks.set k t) minFinal queue

/-- the loop that fills `to_compute` (`metric_merging.rs:57-67`); result: `to_compute`, queue, `min_final_key` -/
def drain (m : Nat) : Nat → List Entry → List Entry → List Entry × List Entry × Nat
  | 0, q, tc => (tc, q, MAX64)
  | fuel + 1, q, tc =>
    match peek q with
    | none => (tc, q, MAX64)
    | some e => if m ≤ e.checked then (tc, q, e.key) else drain m fuel (q.erase e) (tc ++ [e])

/-- the entries pushed after a merge (`metric_merging.rs:45-55`) -/
def newEntries (merged : List (List Nat)) (i : Nat) : List Entry :=
  merged.zipIdx.filterMap (fun p =>
    if p.2 = i ∨ p.1.isEmpty then none
    else if i < p.2 then some ⟨0, 0, i, p.2⟩ else some ⟨0, 0, p.2, i⟩)

/-- joining the groups of the popped entry (`metric_merging.rs:37-55`) -/
def mergeEntry (merged : List (List Nat)) (queue : List Entry) (e : Entry) : Option (List (List Nat) × List Entry) := do
  let tmp ← merged[e.j]?
  let merged ← upd merged e.j []
  let a ← merged[e.i]?
  let merged ← upd merged e.i (a ++ tmp)
  let queue := queue.erase e
  let queue := queue.filter (fun x => x.i ≠ e.i && x.i ≠ e.j && x.j ≠ e.i && x.j ≠ e.j)
  return (merged, queue ++ newEntries merged e.i)

/-- the main loop (`metric_merging.rs:28-97`) -/
def loop (pick : Nat → Nat) (metrics : List (List Nat)) (m target : Nat) :
    Nat → Nat → List (List Nat) → List Entry → Nat → Option (List (List Nat))
  | 0, _, _, _, _ => none
  | fuel + 1, clock, merged, queue, remaining =>
    if remaining ≤ target then some merged
    else match peek queue with
      | none => some merged
      | some e =>
        if m ≤ e.checked then do
          let (merged, queue) ← mergeEntry merged queue e
          loop pick metrics m target fuel clock merged queue (remaining - 1)
        else do
          let (tc, queue, minFinal) := drain m (queue.length + 1) queue []
          let (queue, clock) ← round pick metrics merged m (tc.length * (m + 2) + 1) clock (tc.map (⟨·, false⟩)) minFinal queue
          loop pick metrics m target fuel clock merged queue remaining

/-- all pairs (`metric_merging.rs:20-26`) -/
def allPairs (n : Nat) : List Entry :=
  (List.range n).flatMap (fun i => ((List.range n).filter (fun j => i < j)).map (fun j => ⟨0, 0, i, j⟩))

/-- `merge` (`metric_merging.rs:9-102`). There are at most `2 n` rounds (theorem). -/
def merge (pick : Nat → Nat) (metrics : List (List Nat)) (target : Nat) : Option (List (List Nat)) := do
  let first ← metrics[0]?
  let m := first.length
  if metrics.any (fun x => x.length ≠ m) then none
  else
    let merged ← loop pick metrics m target (2 * metrics.length + 2) 0 ((List.range metrics.length).map (fun i => [i])) (allPairs metrics.length) metrics.length
    return merged.filter (fun g => !g.isEmpty)

end Verif.Merging
