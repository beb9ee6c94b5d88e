/-
A small file system: what the operating system is assumed to do. Paths are lists of names.
-/
namespace Verif.Spec

abbrev Path := List String

inductive Entry
  | file (bytes : List UInt8)
  | dir
deriving DecidableEq

/-- The contents of the disk. -/
abbrev FS := Path → Option Entry

/-- The disk with one entry replaced. -/
def FS.put (fs : FS) (p : Path) (e : Entry) : FS := fun q => if q = p then some e else fs q

/-- The effects a program has on the disk. -/
inductive Step
  /-- `if !p.exists() { create_dir(p)? }` -/
  | ensureDir (p : Path)
  /-- `File::create(p)?`: an existing file becomes empty -/
  | create (p : Path)
  /-- `write_all(bytes)?` at the end of the file just created -/
  | append (p : Path) (bytes : List UInt8)

/-- A step that succeeds; `none` is an I/O error. -/
def Step.run (fs : FS) : Step → Option FS
  | .ensureDir p =>
    match fs p with
    | some _ => some fs
    | none => if fs p.dropLast = some .dir then some (fs.put p .dir) else none
  | .create p =>
    match fs p with
    | some .dir => none
    | some (.file _) => some (fs.put p (.file []))
    | none => if fs p.dropLast = some .dir then some (fs.put p (.file [])) else none
  | .append p bytes =>
    match fs p with
    | some (.file old) => some (fs.put p (.file (old ++ bytes)))
    | _ => none

/-- The steps of a program, one after the other. -/
def runSteps (fs : FS) : List Step → Option FS
  | [] => some fs
  | s :: ss => (s.run fs).bind (fun fs => runSteps fs ss)

/-- `CrashState steps fs fs'`: the program performing `steps` on `fs` can be interrupted (a crash, a full disk) such that it
leaves `fs'` behind: between any two steps, and with any part of the bytes of a `write_all` on disk. -/
inductive CrashState : List Step → FS → FS → Prop
  | stop (steps : List Step) (fs : FS) : CrashState steps fs fs
  | torn {p : Path} {bytes part rest : List UInt8} {ss : List Step} {fs fs' : FS} : bytes = part ++ rest →
      (Step.append p part).run fs = some fs' → CrashState (.append p bytes :: ss) fs fs'
  | next {s : Step} {ss : List Step} {fs fs1 fs' : FS} : s.run fs = some fs1 → CrashState ss fs1 fs' →
      CrashState (s :: ss) fs fs'

/-- The outcome of a call: a value, an `Err`, or a panic. -/
inductive Out (α : Type)
  | ok (a : α)
  | err
  | panic
deriving DecidableEq

def Out.bind {α β : Type} : Out α → (α → Out β) → Out β
  | .ok a, f => f a
  | .err, _ => .err
  | .panic, _ => .panic

end Verif.Spec
