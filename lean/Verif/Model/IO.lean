import Verif.Spec.FileSystem
import Verif.Model.CCH
import Verif.Model.BitVec
/-
Model of `engine/src/io.rs` and of the types that are stored and loaded with it. The memory representation of a record is
little endian, as on all machines the code is used on.
-/
namespace Verif
namespace Store
open Spec

/-- A `Copy` type of a fixed size: `mem::size_of`, and the bytes in memory. -/
structure Rec (α : Type) where
  size : Nat
  enc : α → List UInt8
  dec : List UInt8 → α

/-- the `k` lowest bytes of a number -/
def leBytes : Nat → Nat → List UInt8
  | 0, _ => []
  | k + 1, n => UInt8.ofNat (n % 256) :: leBytes k (n / 256)

def ofLe : List UInt8 → Nat
  | [] => 0
  | b :: bs => b.toNat + 256 * ofLe bs

/-- `u32`, and with the same bytes `f32` as its bit pattern and `InRangeOption<u32>` with its sentinel -/
def u32 : Rec Nat := ⟨4, leBytes 4, ofLe⟩

/-- `u64` -/
def u64 : Rec Nat := ⟨8, leBytes 8, ofLe⟩

/-- a pair of two types with the same alignment and without padding, like `(InRangeOption<EdgeId>, InRangeOption<EdgeId>)` -/
def pair {α β : Type} (a : Rec α) (b : Rec β) : Rec (α × β) :=
  ⟨a.size + b.size, fun x => a.enc x.1 ++ b.enc x.2, fun bs => (a.dec (bs.take a.size), b.dec (bs.drop a.size))⟩

/-- `DataBytes` for slices, vectors and boxes (`io.rs:48-73`) -/
def dataBytes {α : Type} (r : Rec α) (xs : List α) : List UInt8 := xs.flatMap r.enc

/-- `Store::write_to` (`io.rs:97-99`) -/
def writeTo (p : Path) (bytes : List UInt8) : List Step := [.create p, .append p bytes]

/-- the records that `n` times `size` bytes stand for -/
def records {α : Type} (r : Rec α) : Nat → List UInt8 → List α
  | 0, _ => []
  | n + 1, bs => r.dec (bs.take r.size) :: records r n (bs.drop r.size)

/-- `metadata(p)?` and `File::open(p)?` (`io.rs:114-115`). Loading a directory is an error here (the code may also panic
on its size first). -/
def readFile (fs : FS) (p : Path) : Out (List UInt8) :=
  match fs p with
  | some (.file bytes) => .ok bytes
  | _ => .err

/-- `Load::load_from` for `Vec<T>` and `Box<[T]>` (`io.rs:113-140`): the length assertion, then the records are read.
`% 0` panics. The file does not change between asking for its length and reading it. -/
def loadVec {α : Type} (r : Rec α) (fs : FS) (p : Path) : Out (List α) :=
  (readFile fs p).bind (fun bytes =>
    if r.size = 0 then .panic
    else if bytes.length % r.size = 0 then .ok (records r (bytes.length / r.size) bytes)
    else .panic)

/-- `Load::load_from` for `BitVec` (`rank_select_map.rs:114-118`, `io.rs:113-122`): the object has `num_bytes * 8` bits;
the bytes of its words must be as many as there are in the file. -/
def loadBitVec (fs : FS) (p : Path) : Out Bits.BitVec :=
  (readFile fs p).bind (fun bytes =>
    let new := Bits.BitVec.new (bytes.length * 8)
    if bytes.length = new.data.length * 8 then .ok ⟨records u64 new.data.length bytes, new.size⟩ else .panic)

/-- `DataBytes` for `BitVec` (`rank_select_map.rs:102-106`) -/
def bitVecBytes (b : Bits.BitVec) : List UInt8 := dataBytes u64 b.data

/-- `Deconstruct::deconstruct_to` (`io.rs:150-156`) for an object whose `save_each` stores the given files -/
def deconstruct (dir : Path) (files : List (String × List UInt8)) : List Step :=
  .ensureDir dir :: files.flatMap (fun f => writeTo (dir ++ [f.1]) f.2)

/-- a panic inside `reconstruct_with` -/
def orPanic {α : Type} : Option α → Out α
  | some a => .ok a
  | none => .panic

/-- `Deconstruct for NodeOrder` (`node_order.rs:97-101`) -/
def orderFiles (o : NodeOrder) : List (String × List UInt8) := [("ranks", dataBytes u32 o.ranks)]

/-- `Reconstruct for NodeOrder` (`node_order.rs:103-107`) -/
def loadOrder (fs : FS) (dir : Path) : Out NodeOrder :=
  (loadVec u32 fs (dir ++ ["ranks"])).bind (fun ranks => orPanic (NodeOrder.fromRanks ranks))

/-- `Deconstruct for FirstOutGraph` (`first_out_graph.rs:82-95`) -/
def graphFiles (g : FOGraph) : List (String × List UInt8) :=
  [("first_out", dataBytes u32 g.firstOut), ("head", dataBytes u32 g.head), ("weights", dataBytes u32 g.weight)]

/-- `Reconstruct for FirstOutGraph` (`first_out_graph.rs:97-106`). `WeightedGraphReconstructor` (l.193-199) is the same with
the name of the weights chosen by the caller. -/
def loadGraphWith (weights : String) (fs : FS) (dir : Path) : Out FOGraph :=
  (loadVec u32 fs (dir ++ ["first_out"])).bind (fun fo =>
    (loadVec u32 fs (dir ++ ["head"])).bind (fun head =>
      (loadVec u32 fs (dir ++ [weights])).bind (fun weight => orPanic (FOGraph.new fo head weight))))

def loadGraph (fs : FS) (dir : Path) : Out FOGraph := loadGraphWith "weights" fs dir

/-- `Deconstruct for CCH` (`customizable_contraction_hierarchy/mod.rs:43-49`) -/
def cchFiles (c : CCH.Cch) : List (String × List UInt8) :=
  [("cch_first_out", dataBytes u32 c.firstOut), ("cch_head", dataBytes u32 c.head)]

/-- `UnweightedFirstOutGraph::new` (`first_out_graph.rs:384-391`); as in `CCH.toGraph` the third
array is not part of it and repeats the heads -/
def newUnweighted (fo head : List Nat) : Option FOGraph := FOGraph.new fo head head

/-- `ReconstructPrepared<CCH> for CCHReconstrctor` (`mod.rs:53-61`): the order comes from the same directory -/
def loadCch (orig : FOGraph) (fs : FS) (dir : Path) : Out CCH.Cch :=
  (loadOrder fs dir).bind (fun order =>
    (loadVec u32 fs (dir ++ ["cch_head"])).bind (fun head =>
      (loadVec u32 fs (dir ++ ["cch_first_out"])).bind (fun fo =>
        (orPanic (newUnweighted fo head)).bind (fun g =>
          if g.numNodes = orig.numNodes then orPanic (CCH.newFrom orig order g) else .panic))))

end Store
end Verif
