/- Specification of reachability, and of servers that answer queries one after the other. -/
namespace Verif.Spec

/-- One can get from `u` to `t` along links. -/
inductive Leads (links : Nat → List Nat) : Nat → Nat → Prop
  | here (u : Nat) : Leads links u u
  | go {u v t : Nat} : v ∈ links u → Leads links v t → Leads links u t

/-- At least `k` numbers have the property. -/
def AtLeast (k : Nat) (p : Nat → Prop) : Prop := ∃ l : List Nat, l.Nodup ∧ k ≤ l.length ∧ ∀ x ∈ l, p x

/-- A query server: a query changes its state, gives an answer (`none`: not reachable), and something to unpack paths with. -/
structure AnyServer (State Query Answer Paths : Type) where
  ask : State → Query → Option ((Option Answer × Paths) × State)

/-- The server never panics and always gives the answers `ans`, in the states `ok`. -/
def AnyServer.Answers {State Query Answer Paths : Type} (s : AnyServer State Query Answer Paths) (ok : State → Prop) (valid : Query → Prop)
    (ans : Query → Option Answer) : Prop :=
  ∀ st q, ok st → valid q → ∃ p st', s.ask st q = some ((ans q, p), st') ∧ ok st'

/-- The answers of a server to queries one after the other. -/
def AnyServer.asks {State Query Answer Paths : Type} (s : AnyServer State Query Answer Paths) : State → List Query → Option (List (Option Answer))
  | _, [] => some []
  | st, q :: qs => do
    let r ← s.ask st q
    let rest ← s.asks r.2 qs
    return r.1.1 :: rest

end Verif.Spec
