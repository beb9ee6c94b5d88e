import Verif.Model.Here
/- What a user expects of an imported road network. -/
namespace Verif.Spec
open Here

/-- where a drive along the link begins -/
def driveFrom (l : Here.Link) : Dir → Nat
  | .fromRef => l.ref
  | .toRef => l.nonref

/-- where it ends -/
def driveTo (l : Here.Link) : Dir → Nat
  | .fromRef => l.nonref
  | .toRef => l.ref

/-- the directions in which one may drive -/
def Allowed : Travel → Dir → Prop
  | .both, _ => True
  | .fromRef, d => d = .fromRef
  | .toRef, d => d = .toRef

/-- The node is in the region. -/
def InRegion (i : Input) (id : Nat) : Prop := ∃ x ∈ i.nodes, x.id = id ∧ i.lo.1 ≤ x.lat ∧ x.lat ≤ i.hi.1 ∧ i.lo.2 ≤ x.lon ∧ x.lon ≤ i.hi.2

/-- The link is of the region. -/
def InnerLink (i : Input) (l : Here.Link) : Prop := l ∈ i.links ∧ InRegion i l.ref ∧ InRegion i l.nonref

/-- One may drive along the link in this direction. -/
def Drivable (i : Input) (l : Here.Link) (d : Dir) : Prop := InnerLink i l ∧ ∃ v ∈ i.navs, v.id = l.id ∧ Allowed v.dir d

/-- a node at the end of a link that can be driven -/
def UsedNode (i : Input) (x : Nat) : Prop := ∃ l d, Drivable i l d ∧ (x = l.ref ∨ x = l.nonref)

/-- What is expected of the input: ids are unique, links join existing nodes, some link is in the region, and there is not more than `u32` can count. -/
structure HereOK (i : Input) : Prop where
  nodes : (i.nodes.map (·.id)).Nodup
  links : (i.links.map (·.id)).Nodup
  navs : (i.navs.map (·.id)).Nodup
  ends : ∀ l ∈ i.links, (∃ x ∈ i.nodes, x.id = l.ref) ∧ ∃ x ∈ i.nodes, x.id = l.nonref
  some : ∃ l, InnerLink i l
  small : 2 * i.links.length < U32

/-- `e` is an arc of the graph from `u` to `v` with weight `w`. -/
def IsArc (g : Data) (e u v w : Nat) : Prop :=
  ∃ a b, g.firstOut[u]? = some a ∧ g.firstOut[u + 1]? = some b ∧ a ≤ e ∧ e < b ∧ g.head[e]? = some v ∧ g.weight[e]? = some w

/-- The graph is an adjacency array with `n` nodes. -/
structure AdjacencyArray (g : Data) (n : Nat) : Prop where
  len : g.firstOut.length = n + 1
  first : g.firstOut[0]? = some 0
  last : g.firstOut[n]? = some g.head.length
  mono : ∀ (v a b : Nat), g.firstOut[v]? = some a → g.firstOut[v + 1]? = some b → a ≤ b
  weight : g.weight.length = g.head.length
  heads : ∀ v ∈ g.head, v < n

/-- The nodes of the graph are the ends of the links that can be driven, each once, with its coordinates. -/
structure Places (i : Input) (g : Data) (n : Nat) (loc : Nat → Nat) : Prop where
  lt : ∀ x, UsedNode i x → loc x < n
  inj : ∀ x y, UsedNode i x → UsedNode i y → loc x = loc y → x = y
  onto : ∀ v, v < n → ∃ x, UsedNode i x ∧ loc x = v
  coords : ∀ x ∈ i.nodes, UsedNode i x.id → g.coords[loc x.id]? = some (x.lat, x.lon)

end Verif.Spec
