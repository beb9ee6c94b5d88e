/-
Model of the structured reporting of results, `engine/src/report.rs`.

A JSON value is an opaque value of type `V`.  A `BTreeMap` is the list of its entries in the order of
the keys (`insert`).  The guards are zero sized and call one function of the reporter when they are
created and one when they are dropped, so a program is a list of such calls (`Op`).  The thread local
`Option<Reporter>` is the `Option` in `Sess.reporter`: `none` before `enable_reporting` and on other
threads.
-/
import Verif.Spec.Report

namespace Verif.Rep

open Spec

/-- `ReportingValue`, `report.rs` l.22-26: `Collection`, `Object`, `Value` are `Json.list`, `Json.obj`,
`Json.val`. -/
abbrev RVal (V : Type) := Spec.Json V

/-- `BTreeMap<&'static str, ReportingValue>`: entries in the order of the keys.  (Rust compares the
UTF-8 bytes, Lean the code points; both give the same order.) -/
abbrev Obj (V : Type) := List (String × RVal V)

/-- `BTreeMap::insert`: the new map and whether the key was there before (`prev.is_some()`). -/
def insert {V : Type} (k : String) (v : RVal V) : Obj V → Obj V × Bool
  | [] => ([(k, v)], false)
  | (k', v') :: m =>
    if k < k' then ((k, v) :: (k', v') :: m, false)
    else if k = k' then ((k, v) :: m, true)
    else
      let (m, prev) := insert k v m
      ((k', v') :: m, prev)

/-- `BTreeMap::insert` followed by `assert!(prev.is_none())`, which is compiled out by the feature
`report-allow-override` (`allow`), `report.rs` l.183-186 and l.214-221. -/
def insertChecked {V : Type} (allow : Bool) (k : String) (v : RVal V) (m : Obj V) : Option (Obj V) :=
  let (m, prev) := insert k v m
  if !allow && prev then none else some m

/-- `ContextStackItem`, `report.rs` l.41-47. -/
inductive Item (V : Type) where
  | key (k : String)
  | coll (l : List (RVal V))
  | obj (m : Obj V)
  | capture (m : Obj V)
  | throwaway

/-- `CurrentReportingContext`, `report.rs` l.49-54. -/
inductive Cur (V : Type) where
  | coll (l : List (RVal V))
  | obj (m : Obj V)
  | capture (m : Obj V)
  | throwaway

/-- `Reporter`, `report.rs` l.56-59.  The top of the stack is the head of the list. -/
structure Reporter (V : Type) where
  current : Cur V
  stack : List (Item V)

/-- `Reporter::default`, `report.rs` l.61-68. -/
def Reporter.new {V : Type} : Reporter V := ⟨.obj [], []⟩

/-- `create_object_under_key`, `report.rs` l.71-89.  `swap` leaves an empty map of the same variant
in `self.current`. -/
def Reporter.createObject {V : Type} (r : Reporter V) (k : String) : Option (Reporter V) :=
  match r.current with
  | .obj m => some ⟨.obj [], .key k :: .obj m :: r.stack⟩
  | .capture m => some ⟨.capture [], .key k :: .capture m :: r.stack⟩
  | .coll _ => none
  | .throwaway => some r

/-- `create_collection_under_key`, `report.rs` l.91-112. -/
def Reporter.createCollection {V : Type} (r : Reporter V) (k : String) : Option (Reporter V) :=
  match r.current with
  | .obj m => some ⟨.coll [], .key k :: .obj m :: r.stack⟩
  | .capture m => some ⟨.coll [], .key k :: .capture m :: r.stack⟩
  | .coll _ => none
  | .throwaway => some r

/-- `create_collection_item`, `report.rs` l.114-127. -/
def Reporter.createItem {V : Type} (r : Reporter V) : Option (Reporter V) :=
  match r.current with
  | .obj _ => none
  | .capture _ => none
  | .coll l => some ⟨.obj [], .coll l :: r.stack⟩
  | .throwaway => some r

/-- The variant of `ContextStackItem` that saves the current context, used by `block_reporting` and
`capture_reporting`, `report.rs` l.129-180. -/
def Cur.save {V : Type} : Cur V → Item V
  | .coll l => .coll l
  | .obj m => .obj m
  | .capture m => .capture m
  | .throwaway => .throwaway

/-- `block_reporting`, `report.rs` l.129-154. -/
def Reporter.block {V : Type} (r : Reporter V) : Reporter V := ⟨.throwaway, r.current.save :: r.stack⟩

/-- `capture_reporting`, `report.rs` l.156-181. -/
def Reporter.capture {V : Type} (r : Reporter V) : Reporter V := ⟨.capture [], r.current.save :: r.stack⟩

/-- `Reporter::report`, `report.rs` l.183-196. -/
def Reporter.report {V : Type} (allow : Bool) (r : Reporter V) (k : String) (v : V) : Option (Reporter V) :=
  match r.current with
  | .obj m => do return ⟨.obj (← insertChecked allow k (.val v) m), r.stack⟩
  | .capture m => do return ⟨.capture (← insertChecked allow k (.val v) m), r.stack⟩
  | .coll _ => none
  | .throwaway => some r

/-- `pop_context`, `report.rs` l.198-249. -/
def Reporter.pop {V : Type} (allow : Bool) (r : Reporter V) : Option (Reporter V) :=
  match r.current with
  | .throwaway => some r
  | cur =>
    match r.stack with
    | .key k :: .obj m :: stack =>
      match cur with
      | .obj o => do return ⟨.obj (← insertChecked allow k (.obj o) m), stack⟩
      | .coll l => do return ⟨.obj (← insertChecked allow k (.list l) m), stack⟩
      | .throwaway => some ⟨.obj m, stack⟩
      | .capture _ => none
    | .coll l :: stack =>
      match cur with
      | .obj o => some ⟨.coll (l ++ [.obj o]), stack⟩
      | _ => none
    | _ => none

/-- `unblock_or_drop_capture`, `report.rs` l.251-270. -/
def Reporter.restore {V : Type} (r : Reporter V) : Option (Reporter V) :=
  match r.current with
  | .obj _ => none
  | .coll _ => none
  | _ =>
    match r.stack with
    | [] => none
    | .key _ :: _ => none
    | .coll l :: stack => some ⟨.coll l, stack⟩
    | .obj m :: stack => some ⟨.obj m, stack⟩
    | .capture m :: stack => some ⟨.capture m, stack⟩
    | .throwaway :: stack => some ⟨.throwaway, stack⟩

/-- The calls a program can make: creating and dropping the guards, `report.rs` l.276-378. -/
inductive Op (V : Type) where
  /-- `push_context`, l.285-288 -/
  | pushContext (k : String)
  /-- `push_collection_context`, l.299-302 -/
  | pushCollection (k : String)
  /-- `CollectionContextGuard::push_collection_item`, l.304-309 -/
  | pushItem
  /-- drop of `ContextGuard`, `CollectionContextGuard`, `CollectionItemContextGuard` -/
  | pop
  /-- `block_reporting`, l.325-328 -/
  | block
  /-- `capture_reporting`, l.344-347 -/
  | capture
  /-- `CaptureReportingContextGuard::reported`, l.350-363 -/
  | reported
  /-- drop of `BlockedReportingContextGuard`, `CaptureReportingContextGuard` -/
  | restore
  /-- `report`, `report_silent`, l.367-376 -/
  | report (k : String) (v : V)

/-- The thread local reporter and the results of all calls of `reported` so far. -/
structure Sess (V : Type) where
  reporter : Option (Reporter V)
  reported : List (Option (Obj V))

/-- One call, see `Op`; `none` is a panic. -/
def Sess.step {V : Type} (allow : Bool) (s : Sess V) (op : Op V) : Option (Sess V) :=
  match s.reporter with
  | none =>
    match op with
    | .reported => some ⟨none, s.reported ++ [none]⟩
    | _ => some s
  | some r =>
    match op with
    | .pushContext k => do return ⟨some (← r.createObject k), s.reported⟩
    | .pushCollection k => do return ⟨some (← r.createCollection k), s.reported⟩
    | .pushItem => do return ⟨some (← r.createItem), s.reported⟩
    | .pop => do return ⟨some (← r.pop allow), s.reported⟩
    | .block => some ⟨some r.block, s.reported⟩
    | .capture => some ⟨some r.capture, s.reported⟩
    | .reported =>
      match r.current with
      | .capture m => some ⟨some ⟨.capture [], r.stack⟩, s.reported ++ [some m]⟩
      | _ => none
    | .restore => do return ⟨some (← r.restore), s.reported⟩
    | .report k v => do return ⟨some (← r.report allow k v), s.reported⟩

/-- A whole run. -/
def Sess.run {V : Type} (allow : Bool) (s : Sess V) (ops : List (Op V)) : Option (Sess V) :=
  ops.foldlM (Sess.step allow) s

/-- Drop of `ReportingGuard`: the object that is printed, `report.rs` l.383-397. -/
def Sess.finish {V : Type} (s : Sess V) : Option (Option (Obj V)) :=
  match s.reporter with
  | none => some none
  | some r =>
    match r.stack with
    | [] =>
      match r.current with
      | .obj m => some (some m)
      | _ => none
    | _ => none

mutual
/-- The calls an action makes; each guard is dropped at the end of its scope, `report.rs` l.273-378.
A captured scope calls `reported` at its end and then drops the guard (`reported` takes `self`). -/
def ops {V : Type} : Act V → List (Op V)
  | .report k v => [.report k v]
  | .context k b => .pushContext k :: (opsAll b ++ [.pop])
  | .collection k b => .pushCollection k :: (opsAll b ++ [.pop])
  | .item b => .pushItem :: (opsAll b ++ [.pop])
  | .blocked b => .block :: (opsAll b ++ [.restore])
  | .captured b => .capture :: (opsAll b ++ [.reported, .restore])
/-- The calls of a list of actions. -/
def opsAll {V : Type} : List (Act V) → List (Op V)
  | [] => []
  | a :: l => ops a ++ opsAll l
end

/-- `enable_reporting`, the calls in between and the drop of the guard, `report.rs` l.410-428 (the
first reports about the build and the machine are part of `ops`): the results of all captures and the
printed object. -/
def session {V : Type} (allow : Bool) (ops : List (Op V)) : Option (List (Option (Obj V)) × Option (Obj V)) := do
  let s ← Sess.run allow ⟨some Reporter.new, []⟩ ops
  let o ← s.finish
  return (s.reported, o)

end Verif.Rep
