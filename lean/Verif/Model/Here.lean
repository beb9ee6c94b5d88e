import Verif.Model.BitVec
/- Model of the import of HERE data (`conversion/src/here/mod.rs`) and of the mapping between link ids (`conversion/src/here/link_id_mapper.rs`).
Ids are natural numbers (the code casts `i64` to `usize`). Lengths and speeds are not modelled: the weight of a link in a direction is a
parameter. Coordinates stay the integers of the input. -/
namespace Verif.Here
open Spec Bits

/-- `LinkDirection` (`link_id_mapper.rs:5-8`) -/
inductive Dir where
  | fromRef
  | toRef
deriving DecidableEq, Repr

/-- `RdfLinkDirection` (`here/mod.rs:29-34`) -/
inductive Travel where
  | fromRef
  | toRef
  | both
deriving DecidableEq, Repr

/-- `RdfLink` (`here/mod.rs:55-60`) -/
structure Link where
  id : Nat
  ref : Nat
  nonref : Nat
deriving DecidableEq, Repr

/-- `RdfNavLink` (`here/mod.rs:62-70`), id and direction -/
structure Nav where
  id : Nat
  dir : Travel
deriving DecidableEq, Repr

/-- `RdfNode` (`here/mod.rs:102-108`) -/
structure Node where
  id : Nat
  lat : Int
  lon : Int
deriving DecidableEq, Repr

/-- what `RdfDataSource` gives (`here/mod.rs:149-154`) and the corners of the region -/
structure Input where
  nodes : List Node
  links : List Link
  navs : List Nav
  lo : Int × Int
  hi : Int × Int

/-- `included` (`here/mod.rs:157`) -/
def Input.included (i : Input) (x : Node) : Bool := decide (i.lo.1 ≤ x.lat) && decide (x.lat ≤ i.hi.1) && decide (i.lo.2 ≤ x.lon) && decide (x.lon ≤ i.hi.2)

/-- `BitVec::new` and `set` for all given ids (`here/mod.rs:163-166`, `179-182`, `192-195`, `207-216`) -/
def bits (size : Nat) (ids : List Nat) : Option Bits.BitVec := (Bits.BitVec.new size).run (ids.map .insert)

/-- `iter().max().unwrap()` -/
def maxOf : List Nat → Option Nat
  | [] => none
  | x :: xs => some (xs.foldl max x)

/-- the filter for links (`here/mod.rs:176`) -/
def keepLinks (b : Bits.BitVec) : List Link → Option (List Link)
  | [] => some []
  | l :: ls => do
    let k ← (do if ← b.get l.ref then b.get l.nonref else some false)
    let rest ← keepLinks b ls
    return if k then l :: rest else rest

/-- `retain` (`here/mod.rs:190`) -/
def keepNavs (b : Bits.BitVec) : List Nav → Option (List Nav)
  | [] => some []
  | l :: ls => do
    let k ← b.get l.id
    let rest ← keepNavs b ls
    return if k then l :: rest else rest

/-- the nav links by rank (`here/mod.rs:199-204`); the array has `size` entries -/
def sortNavs (m : RankMap) (size : Nat) : List Nav → (Nat → Travel) → Option (Nat → Travel)
  | [], f => some f
  | l :: ls, f => do
    let r ← m.get l.id
    let r ← r
    if r < size then sortNavs m size ls (fupd f r l.dir) else none

/-- the ids of nodes that are set (`here/mod.rs:211-216`) -/
def nodeIds (m : RankMap) : List Link → Option (List Nat)
  | [] => some []
  | l :: ls => do
    let r ← m.get l.id
    let rest ← nodeIds m ls
    return if r.isSome then l.ref :: l.nonref :: rest else rest

/-- An arc of the graph, with rank and direction of the link. -/
structure Arc where
  tail : Nat
  head : Nat
  weight : Nat
  rank : Nat
  dir : Dir
deriving DecidableEq, Repr

/-- the directions in the order of the code (`here/mod.rs:303-335`) -/
def Travel.dirs : Travel → List Dir
  | .fromRef => [.fromRef]
  | .toRef => [.toRef]
  | .both => [.fromRef, .toRef]

/-- The arcs for a link (`here/mod.rs:228-236` and `288-301`); `wt l d`: the weight, `size`: number of entries of `nav`. -/
def arcsOf (wt : Link → Dir → Nat) (lm nm : RankMap) (nav : Nat → Travel) (size : Nat) (l : Link) : Option (List Arc) := do
  match ← lm.get l.id with
  | none => some []
  | some r =>
    if r < size then
      let a ← nm.at' l.ref
      let b ← nm.at' l.nonref
      some ((nav r).dirs.map (fun d => match d with
        | .fromRef => ⟨a, b, wt l .fromRef, r, .fromRef⟩
        | .toRef => ⟨b, a, wt l .toRef, r, .toRef⟩))
    else none

/-- The arcs in the order in which both loops over the links meet them (`here/mod.rs:226-237`, `287-337`). -/
def allArcs (wt : Link → Dir → Nat) (lm nm : RankMap) (nav : Nat → Travel) (size : Nat) : List Link → Option (List Arc)
  | [] => some []
  | l :: ls => do
    let a ← arcsOf wt lm nm nav size l
    let rest ← allArcs wt lm nm nav size ls
    return a ++ rest

/-- counting degrees (`here/mod.rs:228-235`), `n + 1` entries -/
def count (n : Nat) : List Arc → (Nat → Nat) → Option (Nat → Nat)
  | [], d => some d
  | a :: as, d => if a.tail < n + 1 then count n as (fupd d a.tail (d a.tail + 1)) else none

/-- prefix sums (`here/mod.rs:242-246`) -/
def pre (d : Nat → Nat) : Nat → Nat
  | 0 => 0
  | v + 1 => pre d v + d v

/-- the arrays that are filled (`here/mod.rs:247`, `278-282`); `table r d`: `here_rank_to_link_id[r]`, component `d` -/
structure Fill where
  next : Nat → Nat
  head : Nat → Nat
  weight : Nat → Nat
  table : Nat → Dir → Option Nat

def Fill.put (s : Fill) (r : Nat) (d : Dir) (e : Nat) : Nat → Dir → Option Nat := fun r' d' => if r' = r ∧ d' = d then some e else s.table r' d'

/-- Inserting arcs (`here/mod.rs:303-335`): `n + 1` entries of `first_out`, `m` arcs, `k` entries of the table; `InRangeOption::some` panics for the
largest `u32`. -/
def fill (n m k : Nat) : List Arc → Fill → Option Fill
  | [], s => some s
  | a :: as, s =>
    let e := s.next a.tail
    if a.tail < n + 1 ∧ e < m ∧ a.rank < k ∧ e < U32 - 1 then
      fill n m k as ⟨fupd s.next a.tail (e + 1), fupd s.head e a.head, fupd s.weight e a.weight, s.put a.rank a.dir e⟩
    else none

/-- the nodes by rank (`here/mod.rs:263-276`), `n` entries -/
def sortNodes (m : RankMap) (n : Nat) : List Node → (Nat → Int × Int) → Option (Nat → Int × Int)
  | [], f => some f
  | x :: xs, f => do
    match ← m.get x.id with
    | none => sortNodes m n xs f
    | some r => if r < n then sortNodes m n xs (fupd f r (x.lat, x.lon)) else none

/-- `HereData` (`here/mod.rs:139-147`) -/
structure Data where
  firstOut : List Nat
  head : List Nat
  weight : List Nat
  coords : List (Int × Int)
  mapping : RankMap
  table : List (Option Nat × Option Nat)

/-- `read_graph` (`here/mod.rs:156-357`) -/
def readGraph (wt : Link → Dir → Nat) (i : Input) : Option Data := do
  let maxNode ← maxOf (i.nodes.map (·.id))
  let inBox ← bits (maxNode + 1) ((i.nodes.filter i.included).map (·.id))
  let links ← keepLinks inBox i.links
  let maxLink ← maxOf (links.map (·.id) ++ i.navs.map (·.id))
  let present ← bits (maxLink + 1) (links.map (·.id))
  let maxUsed ← maxOf (links.flatMap (fun l => [l.ref, l.nonref]))
  let navs ← keepNavs present i.navs
  let lm ← (← bits (maxLink + 1) (navs.map (·.id))) |> RankMap.new
  let nav ← sortNavs lm (navs.length + 1) navs (fun _ => .both)
  let ids ← nodeIds lm links
  let nm ← (← bits (maxUsed + 1) ids) |> RankMap.new
  let n := nm.len
  let arcs ← allArcs wt lm nm nav (navs.length + 1) links
  let d ← count n arcs (fun _ => 0)
  let m := pre d (n + 1)
  let c ← sortNodes nm n i.nodes (fun _ => (0, 0))
  let s ← fill n m links.length arcs ⟨pre d, fun _ => 0, fun _ => 0, fun _ _ => none⟩
  return ⟨0 :: (List.range n).map s.next, (List.range m).map s.head, (List.range m).map s.weight, (List.range n).map c, lm,
    (List.range links.length).map (fun r => (s.table r .fromRef, s.table r .toRef))⟩

/-- `LinkIdMapper` (`link_id_mapper.rs:10-14`) -/
structure Mapper where
  mapping : InvMap
  table : List (Option Nat × Option Nat)
  ranks : List Nat

/-- setting the rank for an arc, if there is one (`link_id_mapper.rs:24-26`, `27-29`) -/
def setRank (l : List Nat) (r : Nat) : Option Nat → Option (List Nat)
  | none => some l
  | some e => upd l e r

/-- the loop of `LinkIdMapper::new` (`link_id_mapper.rs:23-30`) -/
def setRanks : Nat → List (Option Nat × Option Nat) → List Nat → Option (List Nat)
  | _, [], l => some l
  | r, (a, b) :: ts, l => do
    let l ← setRank l r a
    let l ← setRank l r b
    setRanks (r + 1) ts l

/-- `LinkIdMapper::new` (`link_id_mapper.rs:17-36`) -/
def Mapper.new (mapping : InvMap) (table : List (Option Nat × Option Nat)) (m : Nat) : Option Mapper := do
  let ranks ← setRanks 0 table (List.replicate m 0)
  return ⟨mapping, table, ranks⟩

/-- `here_to_local_link_id` (`link_id_mapper.rs:38-44`) -/
def Mapper.toLocal (M : Mapper) (id : Nat) (d : Dir) : Option (Option Nat) := do
  match ← M.mapping.map.get id with
  | none => some none
  | some r =>
    let p ← M.table[r]?
    match d with
    | .fromRef => some p.1
    | .toRef => some p.2

/-- `local_to_here_link_id` (`link_id_mapper.rs:46-56`); `debug`: with debug assertions; `bs`: the binary search of `inverse` -/
def Mapper.toHere (debug : Bool) (bs : List Nat → Nat → Lookup) (M : Mapper) (e : Nat) : Option (Nat × Dir) := do
  let r ← M.ranks[e]?
  let id ← M.mapping.inverse bs r
  let p ← M.table[r]?
  if p.1 = some e then some (id, .fromRef)
  else if debug && p.1 != some e then none
  else some (id, .toRef)

end Verif.Here
