/-
Model of the estimation of link speeds from GPS traces, `engine/src/link_speed_estimates/`.

The floating point operations are parameters (`Floats`): nothing is assumed about them.  Release builds:
`u32` and `u64` arithmetic wraps around, debug assertions are left out.  The outputs of a state are a
lazy iterator in the code and a list here.
-/
namespace Verif.LinkSpeed

/-- The operations on `f32` and `f64` the code uses.  Casts of floats to integers saturate, so the results of
`toU32` and `toU64` are below `2^32` and `2^64`; nothing depends on that here. -/
structure Floats (F32 F64 : Type) where
  of32 : F32 → F64
  to32 : F64 → F32
  sub32 : F32 → F32 → F32
  ofNat : Nat → F64
  add : F64 → F64 → F64
  sub : F64 → F64 → F64
  mul : F64 → F64 → F64
  div : F64 → F64 → F64
  toU32 : F64 → Nat
  toU64 : F64 → Nat
  /-- the literal `3.6` -/
  kmh : F64
  /-- start value of `Iterator::sum` -/
  zero : F64

/-- `LinkData`, `link_speed_estimates/mod.rs` l.16-21. -/
structure Link where
  id : Nat
  length : Nat
  speed : Nat
  deriving DecidableEq

/-- `TraceData`, `link_speed_estimates/mod.rs` l.9-14. -/
structure Trace (F32 : Type) where
  time : Nat
  link : Nat
  frac : F32

/-- `LinkSpeedData`, `link_speed_estimates/mod.rs` l.29-35. -/
structure Estimate (F32 : Type) where
  link : Nat
  entered : Nat
  quality : F32
  velocity : F32

/-- `Event`, `event_iterator.rs` l.3-7. -/
inductive Event (F32 : Type) where
  | link (l : Link)
  | trace (t : Trace F32)

/-- `EventIterator`, `event_iterator.rs` l.15-22; `pollTraces` is `iterator_to_poll == Traces`. -/
structure Events (F32 : Type) where
  links : List Link
  traces : List (Trace F32)
  pollTraces : Bool
  nextLink : Option Link
  nextTrace : Trace F32
  done : Bool

/-- `EventIterator::new`, `event_iterator.rs` l.24-41; `none` is `Err`. -/
def Events.new {F32 : Type} (links : List Link) (traces : List (Trace F32)) : Option (Events F32) :=
  match links, traces with
  | l :: links, t :: traces => some ⟨links, traces, false, some l, t, false⟩
  | _, _ => none

/-- `EventIterator::next`, `event_iterator.rs` l.46-87.  Outer `none`: panic of `unwrap`. -/
def Events.next {F32 : Type} (e : Events F32) : Option (Option (Event F32) × Events F32) :=
  if e.done then some (none, e)
  else if e.pollTraces then
    match e.traces with
    | t :: traces =>
      some (some (.trace e.nextTrace), { e with traces := traces, pollTraces := e.nextTrace.link == t.link, nextTrace := t })
    | [] => some (some (.trace e.nextTrace), { e with done := true })
  else
    match e.nextLink with
    | none => none
    | some l =>
      some (some (.link l), { e with pollTraces := l.id == e.nextTrace.link, nextLink := e.links.head?, links := e.links.tail })

/-- Polling the events until the end. -/
def Events.collect {F32 : Type} : Nat → Events F32 → Option (List (Event F32))
  | 0, _ => none
  | fuel + 1, e => do
    match ← e.next with
    | (none, _) => return []
    | (some ev, e) => return ev :: (← e.collect fuel)

/-- The five states of the estimator and the initial one, `link_speed_estimator.rs` l.6-255. -/
inductive St (F32 F64 : Type) where
  /-- `Init`, l.12-13 -/
  | init
  /-- `InitialLink`, l.28-31 -/
  | initialLink (l : Link)
  /-- `InitialLinkWithTrace`, l.47-51 -/
  | initialTrace (l : Link) (t : Trace F32)
  /-- `IntermediateLinkAfterInitial`, l.96-101 -/
  | afterInitial (l : Link) (t : Trace F32) (inter : List Link)
  /-- `LinkWithEntryTimestampAndTrace`, l.176-182 -/
  | withEntry (l : Link) (entry : Nat) (last : Trace F32) (quality : F64)
  /-- `IntermediateLink`, l.217-221 -/
  | inter (l : Link) (entry : Nat) (last : Trace F32) (quality : F64) (inter : List Link)

/-- Wrapping subtraction of `u64` (release builds). -/
def sub64 (a b : Nat) : Nat := (a + 18446744073709551616 - b) % 18446744073709551616

/-- Wrapping addition of `u64`. -/
def add64 (a b : Nat) : Nat := (a + b) % 18446744073709551616

/-- Wrapping subtraction of `u32`. -/
def sub32w (a b : Nat) : Nat := (a + 4294967296 - b) % 4294967296

/-- Wrapping addition of `u32`. -/
def add32w (a b : Nat) : Nat := (a + b) % 4294967296

section
variable {F32 F64 : Type} (F : Floats F32 F64)

/-- `free_flow_traversal_time`, `mod.rs` l.23-27. -/
def freeFlow (l : Link) : F64 := F.div (F.mul (F.ofNat l.length) F.kmh) (F.ofNat l.speed)

/-- The `scan` over the links without traces, `link_speed_estimator.rs` l.144-155 and l.268-279. -/
def scanInter (factor : F64) (total : Nat) : Nat → List Link → List (Estimate F32)
  | _, [] => []
  | entry, l :: ls =>
    let velocity := F.mul (F.ofNat l.speed) factor
    let travel := F.toU64 (F.div (F.mul (F.ofNat l.length) F.kmh) velocity)
    ⟨l.id, entry, F.to32 (F.div (F.ofNat l.length) (F.ofNat total)), F.to32 velocity⟩ ::
      scanInter factor total (add64 entry travel) ls

/-- `IntermediateLinkAfterInitial::on_trace`, `link_speed_estimator.rs` l.108-170, for the last link `link` and
the links `inter` between. -/
def traceAfterInitial (first : Link) (t0 : Trace F32) (inter : List Link) (link : Link) (t : Trace F32) :
    St F32 F64 × List (Estimate F32) :=
  let deltaT := sub64 t.time t0.time
  let fracAfter := F.sub (F.ofNat 1) (F.of32 t0.frac)
  let lenAfter := F.toU32 (F.mul fracAfter (F.ofNat first.length))
  let ffAfter := F.mul (freeFlow F first) fracAfter
  let lenBeforeInitial := sub32w first.length lenAfter
  let interLen := (inter.map Link.length).foldl add32w 0
  let interFF := (inter.map (freeFlow F)).foldl F.add F.zero
  let lenBefore := F.toU32 (F.mul (F.of32 t.frac) (F.ofNat link.length))
  let ffBefore := F.mul (freeFlow F link) (F.of32 t.frac)
  let total := add32w (add32w lenAfter interLen) lenBefore
  let totalFF := F.add (F.add ffAfter interFF) ffBefore
  let factor := F.div totalFF (F.ofNat deltaT)
  let v := F.mul (F.ofNat first.speed) factor
  let timeBefore := F.toU64 (F.div (F.mul (F.ofNat lenBeforeInitial) F.kmh) v)
  let nextEntry := add64 (F.toU64 (F.div (F.mul (F.ofNat lenAfter) F.kmh) v)) t0.time
  let entered := sub64 t0.time timeBefore
  let quality := F.to32 (F.mul (F.div (F.ofNat lenAfter) (F.ofNat total)) fracAfter)
  let out := ⟨first.id, entered, quality, F.to32 v⟩ :: scanInter F factor total nextEntry inter
  let entry := sub64 t.time (F.toU64 (F.div (F.mul (F.ofNat lenBefore) F.kmh) (F.mul (F.ofNat link.speed) factor)))
  let q := F.mul (F.div (F.ofNat lenBefore) (F.ofNat total)) (F.of32 t.frac)
  (.withEntry link entry t q, out)

/-- `IntermediateLink::on_trace`, `link_speed_estimator.rs` l.229-293. -/
def traceInter (l : Link) (entry : Nat) (last : Trace F32) (quality : F64) (inter : List Link) (link : Link) (t : Trace F32) :
    St F32 F64 × List (Estimate F32) :=
  let deltaT := sub64 t.time last.time
  let fracAfter := F.sub (F.ofNat 1) (F.of32 last.frac)
  let lenAfter := F.toU32 (F.mul fracAfter (F.ofNat l.length))
  let ffAfter := F.mul (freeFlow F l) fracAfter
  let interLen := (inter.map Link.length).foldl add32w 0
  let interFF := (inter.map (freeFlow F)).foldl F.add F.zero
  let lenBefore := F.toU32 (F.mul (F.of32 t.frac) (F.ofNat link.length))
  let ffBefore := F.mul (freeFlow F link) (F.of32 t.frac)
  let total := add32w (add32w lenAfter interLen) lenBefore
  let totalFF := F.add (F.add ffAfter interFF) ffBefore
  let factor := F.div totalFF (F.ofNat deltaT)
  let v := F.mul (F.ofNat l.speed) factor
  let timeAfter := F.toU64 (F.div (F.mul (F.ofNat lenAfter) F.kmh) v)
  let nextEntry := add64 last.time timeAfter
  let deltaLink := add64 (sub64 last.time entry) timeAfter
  let linkV := F.div (F.ofNat l.length) (F.ofNat deltaLink)
  let q := F.to32 (F.add (F.mul (F.div (F.ofNat lenAfter) (F.ofNat total)) fracAfter) quality)
  let out := ⟨l.id, entry, q, F.to32 (F.mul linkV F.kmh)⟩ :: scanInter F factor total nextEntry inter
  let newEntry := sub64 t.time (F.toU64 (F.div (F.mul (F.ofNat lenBefore) F.kmh) (F.mul (F.ofNat link.speed) factor)))
  let newQ := F.mul (F.div (F.ofNat lenBefore) (F.ofNat total)) (F.of32 t.frac)
  (.withEntry link newEntry t newQ, out)

/-- `on_link` of all states; `none` is a panic. -/
def onLink (s : St F32 F64) (l : Link) : Option (St F32 F64 × List (Estimate F32)) :=
  match s with
  | .init => some (.initialLink l, [])
  | .initialLink _ => none
  | .initialTrace l0 t => if l0.id = l.id then none else some (.afterInitial l0 t [l], [])
  | .afterInitial l0 t ls => some (.afterInitial l0 t (ls ++ [l]), [])
  | .withEntry l0 e t q => some (.inter l0 e t q [l], [])
  | .inter l0 e t q ls => some (.inter l0 e t q (ls ++ [l]), [])

/-- `on_trace` of all states; `none` is a panic. -/
def onTrace (s : St F32 F64) (t : Trace F32) : Option (St F32 F64 × List (Estimate F32)) :=
  match s with
  | .init => none
  | .initialLink l => if l.id = t.link then some (.initialTrace l t, []) else none
  | .initialTrace l t0 =>
    if t.link = t0.link ∧ t.link = l.id then
      let deltaT := sub64 t.time t0.time
      let deltaF := F.sub (F.of32 t.frac) (F.of32 t0.frac)
      let pre := F.toU64 (F.div (F.mul (F.ofNat deltaT) (F.of32 t0.frac)) deltaF)
      some (.withEntry l (sub64 t0.time pre) t deltaF, [])
    else none
  | .afterInitial l0 t0 ls =>
    match ls.getLast? with
    | none => none
    | some l => if l.id = t.link then some (traceAfterInitial F l0 t0 ls.dropLast l t) else none
  | .withEntry l e last q =>
    if l.id = t.link then some (.withEntry l e t (F.add q (F.of32 (F.sub32 t.frac last.frac))), []) else none
  | .inter l0 e last q ls =>
    match ls.getLast? with
    | none => none
    | some l => if l.id = t.link then some (traceInter F l0 e last q ls.dropLast l t) else none

/-- `on_done` of all states, `link_speed_estimator.rs` l.203-214 and the panics of the others. -/
def onDone (s : St F32 F64) : Option (List (Estimate F32)) :=
  match s with
  | .withEntry l e last q =>
    let deltaT := sub64 last.time e
    let deltaS := F.mul (F.of32 last.frac) (F.ofNat l.length)
    let velocity := F.div deltaS (F.ofNat deltaT)
    some [⟨l.id, e, F.to32 q, F.to32 (F.mul velocity F.kmh)⟩]
  | _ => none

/-- The loop of `LinkSpeedEstimator::next`, collected, `link_speed_estimator.rs` l.317-342. -/
def run : St F32 F64 → List (Event F32) → Option (List (Estimate F32))
  | s, [] => onDone F s
  | s, .link l :: evs => do
    let (s, out) ← onLink s l
    return out ++ (← run s evs)
  | s, .trace t :: evs => do
    let (s, out) ← onTrace F s t
    return out ++ (← run s evs)

/-- `estimate_iter` with all its outputs, `mod.rs` l.37-43: `some none` is `Err`, `none` a panic. -/
def estimate (links : List Link) (traces : List (Trace F32)) : Option (Option (List (Estimate F32))) :=
  match Events.new links traces with
  | none => some none
  | some e => do
    let evs ← e.collect (links.length + traces.length + 2)
    return some (← run F .init evs)

end

end Verif.LinkSpeed
