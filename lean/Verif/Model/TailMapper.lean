import Verif.Model.BitVec
/- Model of `engine/src/datastr/graph/link_id_to_tail_mapper.rs`. `binary_search` is a parameter `bs`. -/
namespace Verif.Tail
open Spec Bits

/-- `struct LinkIdToTailMapper` (`link_id_to_tail_mapper.rs:9-12`) -/
structure Mapper where
  map : RankMap
  degZero : List Nat
deriving DecidableEq, Repr

/-- one round of the first loop of `new` (`link_id_to_tail_mapper.rs:28-36`); state: bits, indices of nodes of degree zero, counter -/
def newStep (g : FOGraph) (st : Bits.BitVec × List Nat × Nat) (node : Nat) : Option (Bits.BitVec × List Nat × Nat) := do
  let deg ← g.degree node
  if deg = 0 then return (st.1, st.2.1 ++ [st.2.2], st.2.2)
  else
    let b ← st.1.set st.2.2
    let c ← add32 st.2.2 deg
    return (b, st.2.1, c)

/-- `new` (`link_id_to_tail_mapper.rs:18-53`), without the debug assertions (which check the claim of C48). Adding a degree of
zero cannot overflow. -/
def Mapper.new (g : FOGraph) : Option Mapper := do
  let st ← (List.range g.numNodes).foldlM (newStep g) (Bits.BitVec.new (g.numArcs + 1), [], 0)
  let m ← RankMap.new st.1
  return ⟨m, st.2.1⟩

/-- the inner loop of `link_id_to_tail` (`link_id_to_tail_mapper.rs:59-61`) -/
def skipEqual (l : List Nat) (x : Nat) : Nat → Nat → Nat
  | 0, i => i
  | fuel + 1, i => if l[i]? = some x then skipEqual l x fuel (i + 1) else i

/-- the number of entries up to `e` (`link_id_to_tail_mapper.rs:57-65`) -/
def zerosBelow (bs : List Nat → Nat → Lookup) (l : List Nat) (e : Nat) : Nat :=
  match bs l e with
  | .ok i => skipEqual l e l.length i
  | .err i => i

/-- `LinkIdToTailMapper::link_id_to_tail` (`link_id_to_tail_mapper.rs:56-67`) -/
def Mapper.tail (bs : List Nat → Nat → Lookup) (m : Mapper) (e : Nat) : Option Nat := do
  let r ← m.map.atOrNextLower e
  add32 r (zerosBelow bs m.degZero e)

/-- the loop of the function `link_id_to_tail` (`link_id_to_tail_mapper.rs:74-76`); indexing panics at the end -/
def lastEqual (l : List Nat) (x : Nat) : Nat → Nat → Option Nat
  | 0, _ => none
  | fuel + 1, i => do
    let y ← l[i + 1]?
    if y = x then lastEqual l x fuel (i + 1) else return i

/-- the function `link_id_to_tail` (`link_id_to_tail_mapper.rs:70-80`) with its debug assertion -/
def tailOf (bs : List Nat → Nat → Lookup) (firstOut : List Nat) (e : Nat) : Option Nat := do
  let last ← firstOut.getLast?
  if last ≤ e then none
  else match bs firstOut e with
    | .ok i => lastEqual firstOut e firstOut.length i
    | .err i => if i = 0 then none else return i - 1

end Verif.Tail
