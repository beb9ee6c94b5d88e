import Verif.Spec.Graph
/- Vocabulary for alternative routes: routes given by their nodes and by the ids of their edges, and how much of a route is new. -/
namespace Verif.Spec

/-- `Route firstOut head ns es`: the edges `es` lead from node to node along `ns`; the edges of node `u` have the ids `firstOut[u]..firstOut[u+1]`. -/
inductive Route (firstOut head : List Nat) : List Nat → List Nat → Prop
  | single (u : Nat) : Route firstOut head [u] []
  | cons {u v a b e : Nat} {ns es : List Nat} : firstOut[u]? = some a → firstOut[u + 1]? = some b → a ≤ e → e < b → head[e]? = some v →
      Route firstOut head (v :: ns) es → Route firstOut head (u :: v :: ns) (e :: es)

/-- the total weight of edges -/
def lenOf (weight : List Nat) (es : List Nat) : Nat := (es.map (fun e => weight.getD e 0)).sum

/-- the total weight of those edges that are not among the edges `used` -/
def newLen (weight : List Nat) (used es : List Nat) : Nat := lenOf weight (es.filter (fun e => !used.contains e))

end Verif.Spec
