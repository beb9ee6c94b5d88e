/-
What a program reports, independent of the code of the reporter.

A program with scopes is a list of `Act`s.  A scope ends where it began (`RAII`), so it is a tree.
The report of a program is the tree of its scopes without those whose reports are blocked or captured.
-/
namespace Verif.Spec

/-- What a program does with the reporting interface. -/
inductive Act (V : Type) where
  /-- report a value under a key -/
  | report (k : String) (v : V)
  /-- a scope whose reports form an object under a key -/
  | context (k : String) (body : List (Act V))
  /-- a scope whose items form a list under a key -/
  | collection (k : String) (body : List (Act V))
  /-- an item of a list, an object again -/
  | item (body : List (Act V))
  /-- a scope whose reports are thrown away -/
  | blocked (body : List (Act V))
  /-- a scope whose reports are given back to the program at its end -/
  | captured (body : List (Act V))

/-- A value of the report. -/
inductive Json (V : Type) where
  | list (l : List (Json V))
  | obj (m : List (String × Json V))
  | val (v : V)

/-- Entries in the order of their keys. -/
def byKey {α : Type} (l : List (String × α)) : List (String × α) :=
  l.mergeSort (fun a b => decide (a.1 ≤ b.1))

mutual
/-- The entries an action adds to the object of its scope. -/
def Act.entries {V : Type} : Act V → List (String × Json V)
  | .report k v => [(k, .val v)]
  | .context k b => [(k, .obj (byKey (Act.entriesAll b)))]
  | .collection k b => [(k, .list (Act.items b))]
  | .item _ => []
  | .blocked _ => []
  | .captured _ => []
/-- The entries of a list of actions. -/
def Act.entriesAll {V : Type} : List (Act V) → List (String × Json V)
  | [] => []
  | a :: l => a.entries ++ Act.entriesAll l
/-- The item an action adds to the list of its scope. -/
def Act.itemOf {V : Type} : Act V → List (Json V)
  | .item b => [.obj (byKey (Act.entriesAll b))]
  | _ => []
/-- The items of a list of actions. -/
def Act.items {V : Type} : List (Act V) → List (Json V)
  | [] => []
  | a :: l => a.itemOf ++ Act.items l
end

mutual
/-- What the captures within an action give back, in the order in which they end. -/
def Act.captures {V : Type} : Act V → List (List (String × Json V))
  | .report _ _ => []
  | .context _ b => Act.capturesAll b
  | .collection _ b => Act.capturesAll b
  | .item b => Act.capturesAll b
  | .blocked b => Act.capturesAll b
  | .captured b => Act.capturesAll b ++ [byKey (Act.entriesAll b)]
/-- The captures of a list of actions. -/
def Act.capturesAll {V : Type} : List (Act V) → List (List (String × Json V))
  | [] => []
  | a :: l => a.captures ++ Act.capturesAll l
end

/-- Where an action takes place: directly in an object, in a list, in a capture, or in a blocked
scope (also deeper). -/
inductive Place where
  | object | list | capture | blocked
  deriving DecidableEq

mutual
/-- The action makes sense at this place.  Flag `nested`: contexts and collections are allowed
directly within a capture. -/
def Act.Fits {V : Type} (nested : Bool) : Place → Act V → Prop
  | .list, .report _ _ => False
  | _, .report _ _ => True
  | .object, .context _ b => Act.FitsAll nested .object b ∧ ((Act.entriesAll b).map Prod.fst).Nodup
  | .capture, .context _ b =>
    nested = true ∧ Act.FitsAll nested .object b ∧ ((Act.entriesAll b).map Prod.fst).Nodup
  | .list, .context _ _ => False
  | .blocked, .context _ b => Act.FitsAll nested .blocked b
  | .object, .collection _ b => Act.FitsAll nested .list b
  | .capture, .collection _ b => nested = true ∧ Act.FitsAll nested .list b
  | .list, .collection _ _ => False
  | .blocked, .collection _ b => Act.FitsAll nested .blocked b
  | .list, .item b => Act.FitsAll nested .object b ∧ ((Act.entriesAll b).map Prod.fst).Nodup
  | .blocked, .item b => Act.FitsAll nested .blocked b
  | _, .item _ => False
  | _, .blocked b => Act.FitsAll nested .blocked b
  | _, .captured b => Act.FitsAll nested .capture b ∧ ((Act.entriesAll b).map Prod.fst).Nodup
/-- All actions make sense at this place. -/
def Act.FitsAll {V : Type} (nested : Bool) : Place → List (Act V) → Prop
  | _, [] => True
  | p, a :: l => Act.Fits nested p a ∧ Act.FitsAll nested p l
end

/-- A program that uses the interface as intended: no key twice in one object, items only in lists. -/
def Act.Program {V : Type} (nested : Bool) (p : List (Act V)) : Prop :=
  Act.FitsAll nested .object p ∧ ((Act.entriesAll p).map Prod.fst).Nodup

end Verif.Spec
