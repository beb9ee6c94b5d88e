import Verif.Proof.Disconnected
set_option linter.unusedVariables false
/- C85: the check for disconnected targets. -/
namespace Verif
open Disc Spec

/-- **C85.** The check for disconnected targets says "not connected" exactly if the source does not lead to the target and at most 200 nodes lead to
the target. This holds for all graphs, all sequences of checks one after the other, never panics, and never needs a stack of more than 201 calls,
no matter how large the graph is. -/
theorem C85_check (n m : Nat) (links : Nat → Option (List Nat)) (f : Nat → List Nat) (hl : ∀ v, v < n → links v = some (f v))
    (hh : ∀ v h, v < n → h ∈ f v → h < n) (hm : ((List.range n).map fun v => (f v).length).sum = m) (hm' : m < U32) (depth : Nat) (hd : 201 ≤ depth)
    (qs : List (Nat × Nat)) (hq : ∀ q ∈ qs, q.1 < n ∧ q.2 < n) :
    ∃ c rs, Catch.new n m links = some c ∧ c.checks depth qs = some rs ∧
      List.Forall₂ (fun q r => r = true ↔ Leads f q.1 q.2 ∨ AtLeast 201 fun u => u < n ∧ Leads f u q.2) qs rs := by
  obtain ⟨g, h1, h2⟩ := reversed_ok hl hh hm hm'
  refine ⟨⟨g, Bits.FastClear.new n⟩, ?_⟩
  have key : ∀ (qs : List (Nat × Nat)), (∀ q ∈ qs, q.1 < n ∧ q.2 < n) → ∀ b, VisOK n b → ∃ rs, Catch.checks depth ⟨g, b⟩ qs = some rs ∧
      List.Forall₂ (fun q r => r = true ↔ Leads f q.1 q.2 ∨ AtLeast 201 fun u => u < n ∧ Leads f u q.2) qs rs := by
    intro qs
    induction qs with
    | nil => intro _ b _; exact ⟨[], rfl, .nil⟩
    | cons q qs ih =>
      intro hq b hb
      obtain ⟨r, b', k1, k2, k3⟩ := check_ok h2 hh hb hd (hq q (by simp)).1 (hq q (by simp)).2
      obtain ⟨rs, l1, l2⟩ := ih (fun x hx => hq x (by simp [hx])) b' k2
      refine ⟨r :: rs, ?_, .cons k3 l2⟩
      rw [Catch.checks]
      simp only [k1, l1, Option.bind_eq_bind, Option.bind_some, Option.pure_def]
  obtain ⟨rs, l1, l2⟩ := key qs hq _ (new_vis n)
  exact ⟨rs, by simp [Catch.new, h1], l1, l2⟩

/-- **C85.** A server behind the check gives the answers of that server, over any sequence of queries, if that server answers "not reachable" for
targets that cannot be reached. The server itself is only asked if the source leads to the target or at least 201 nodes lead to the target: nothing is
assumed about it for other queries. -/
theorem C85_query {S Q A P : Type} (n m : Nat) (links : Nat → Option (List Nat)) (f : Nat → List Nat) (hl : ∀ v, v < n → links v = some (f v))
    (hh : ∀ v h, v < n → h ∈ f v → h < n) (hm : ((List.range n).map fun v => (f v).length).sum = m) (hm' : m < U32) (depth : Nat) (hd : 201 ≤ depth)
    (server : AnyServer S Q A P) (ends : Q → Nat × Nat) (ok : S → Prop) (ans : Q → Option A)
    (hans : server.Answers ok (fun q => Leads f (ends q).1 (ends q).2 ∨ AtLeast 201 fun u => u < n ∧ Leads f u (ends q).2) ans)
    (hnone : ∀ q, ¬ Leads f (ends q).1 (ends q).2 → ans q = none)
    (s : S) (hs : ok s) (qs : List Q) (hq : ∀ q ∈ qs, (ends q).1 < n ∧ (ends q).2 < n) :
    ∃ c, Catch.new n m links = some c ∧ (wrap ends depth server).asks (s, c) qs = some (qs.map ans) := by
  obtain ⟨g, h1, h2⟩ := reversed_ok hl hh hm hm'
  refine ⟨⟨g, Bits.FastClear.new n⟩, by simp [Catch.new, h1], ?_⟩
  have key : ∀ (qs : List Q), (∀ q ∈ qs, (ends q).1 < n ∧ (ends q).2 < n) → ∀ b s, VisOK n b → ok s →
      (wrap ends depth server).asks (s, ⟨g, b⟩) qs = some (qs.map ans) := by
    intro qs
    induction qs with
    | nil => intro _ b s _ _; rfl
    | cons q qs ih =>
      intro hq b s hb hs
      obtain ⟨r, b', k1, k2, k3⟩ := check_ok h2 hh hb hd (hq q (by simp)).1 (hq q (by simp)).2
      have hq' : ∀ x ∈ qs, (ends x).1 < n ∧ (ends x).2 < n := fun x hx => hq x (by simp [hx])
      rw [AnyServer.asks]
      cases r with
      | false =>
        have l1 := ih hq' b' s k2 hs
        have l2 : ans q = none := hnone q fun h => by simp at k3; exact k3.1 h
        simp only [wrap, k1, Option.bind_eq_bind, Option.bind_some, Option.pure_def, Bool.false_eq_true, if_false, List.map_cons, l2]
        simp only [wrap, Option.bind_eq_bind, Option.pure_def] at l1
        rw [l1]; rfl
      | true =>
        obtain ⟨p, s', a1, a2⟩ := hans s q hs (k3.1 rfl)
        have l1 := ih hq' b' s' k2 a2
        simp only [wrap, k1, a1, Option.bind_eq_bind, Option.bind_some, Option.pure_def, if_true, List.map_cons]
        simp only [wrap, Option.bind_eq_bind, Option.pure_def] at l1
        rw [l1]; rfl
  exact key qs hq _ s (new_vis n) hs

/-- **C85.** If the source does not lead to the target and at most 200 nodes do, then the answer is "not reachable" after any earlier checks, the server
behind the check is left as it was whatever it is, and the path unpacked is empty. -/
theorem C85_disconnected {S Q A P N : Type} (n m : Nat) (links : Nat → Option (List Nat)) (f : Nat → List Nat) (hl : ∀ v, v < n → links v = some (f v))
    (hh : ∀ v h, v < n → h ∈ f v → h < n) (hm : ((List.range n).map fun v => (f v).length).sum = m) (hm' : m < U32) (depth : Nat) (hd : 201 ≤ depth)
    (server : AnyServer S Q A P) (unpack : P → Option (List N)) (ends : Q → Nat × Nat) (s : S) (q : Q) (hq : (ends q).1 < n ∧ (ends q).2 < n)
    (h1 : ¬ Leads f (ends q).1 (ends q).2) (h2 : ¬ AtLeast 201 fun u => u < n ∧ Leads f u (ends q).2) :
    ∃ c p c', Catch.new n m links = some c ∧ (wrap ends depth server).ask (s, c) q = some ((none, p), (s, c')) ∧ pathOf unpack p = some [] := by
  obtain ⟨g, r1, r2⟩ := reversed_ok hl hh hm hm'
  obtain ⟨r, b', k1, k2, k3⟩ := check_ok r2 hh (new_vis n) hd hq.1 hq.2
  refine ⟨⟨g, Bits.FastClear.new n⟩, none, ⟨g, b'⟩, by simp [Catch.new, r1], ?_, rfl⟩
  cases r with
  | true => exact absurd (k3.1 rfl) (by simp [h1, h2])
  | false => simp only [wrap, k1, Option.bind_eq_bind, Option.bind_some, Option.pure_def, Bool.false_eq_true, if_false]

namespace DisconnectedExample

/-- `0 → 1 → 2`, `1 → 0`, `3 ⇄ 4`, and node `5` alone -/
def f : Nat → List Nat
  | 0 => [1]
  | 1 => [2, 0]
  | 3 => [4]
  | 4 => [3]
  | _ => []

example : (Catch.new 6 5 (fun v => some (f v))).bind (fun c => c.checks 201 [(0, 2), (2, 0), (0, 4), (4, 4), (3, 4), (5, 0)]) =
    some [true, false, false, true, true, false] := by decide +kernel

/-- the hypotheses of the theorem are met -/
example := C85_check 6 5 (fun v => some (f v)) f (fun _ _ => rfl)
  (by intro v h hv hm
      have : v = 0 ∨ v = 1 ∨ v = 2 ∨ v = 3 ∨ v = 4 ∨ v = 5 := by omega
      rcases this with rfl | rfl | rfl | rfl | rfl | rfl <;> simp [f] at hm <;> omega)
  (by decide) (by decide) 201 (by decide) [(0, 2), (2, 0), (0, 4), (4, 4), (3, 4), (5, 0)] (by decide)

/-- a chain `0 → 1 → … → 209` and the node `210` alone -/
def chain (v : Nat) : List Nat := if v < 209 then [v + 1] else []

/-- The check only looks at some nodes: for the far end of the chain it says that it may be reached from node `210`, for node `200` as well, but not
for node `199`. -/
example : (Catch.new 211 209 (fun v => some (chain v))).bind (fun c => c.checks 201 [(210, 209), (210, 200), (210, 199), (0, 199)]) =
    some [true, true, false, true] := by decide +kernel

/-- 201 calls on the stack can be necessary. -/
example : (Catch.new 211 209 (fun v => some (chain v))).bind (fun c => c.checks 200 [(210, 209)]) = none := by decide +kernel

/-- A server which panics if asked for some targets that cannot be reached. -/
def server : AnyServer Nat (Nat × Nat) Nat Unit where
  ask s q := if q.1 = 5 ∨ (q.1 < 3 ∧ 3 ≤ q.2) then none else some ((some (q.2 - q.1), ()), s + 1)

example : (Catch.new 6 5 (fun v => some (f v))).bind (fun c => (wrap id 201 server).asks (0, c) [(0, 2), (0, 4), (5, 2), (3, 4)]) =
    some [some 2, none, none, some 1] := by decide +kernel

/-- The pairs which are connected. -/
def connected : List (Nat × Nat) := [(0, 0), (0, 1), (0, 2), (1, 0), (1, 1), (1, 2), (2, 2), (3, 3), (3, 4), (4, 3), (4, 4), (5, 5)]

/-- A server with a table which counts how often it was asked. -/
def table : AnyServer Nat (Nat × Nat) Nat Unit where
  ask s q := some ((if q ∈ connected then some (q.1 + q.2) else none, ()), s + 1)

/-- The hypotheses on the server are met. -/
example (qs : List (Nat × Nat)) (hq : ∀ q ∈ qs, q.1 < 6 ∧ q.2 < 6) :=
  C85_query 6 5 (fun v => some (f v)) f (fun _ _ => rfl)
  (by intro v h hv hm
      have : v = 0 ∨ v = 1 ∨ v = 2 ∨ v = 3 ∨ v = 4 ∨ v = 5 := by omega
      rcases this with rfl | rfl | rfl | rfl | rfl | rfl <;> simp [f] at hm <;> omega)
  (by decide) (by decide) 201 (by decide) table id (fun _ => True) (fun q => if q ∈ connected then some (q.1 + q.2) else none)
  (fun st q _ _ => ⟨(), st + 1, rfl, trivial⟩)
  (by rintro ⟨a, b⟩ h
      rw [if_neg]
      intro hm
      apply h
      simp [connected] at hm
      have l01 : Leads f 0 1 := .go (v := 1) (by simp [f]) (.here _)
      have l12 : Leads f 1 2 := .go (v := 2) (by simp [f]) (.here _)
      have l10 : Leads f 1 0 := .go (v := 0) (by simp [f]) (.here _)
      have l02 : Leads f 0 2 := .go (v := 1) (by simp [f]) l12
      have l34 : Leads f 3 4 := .go (v := 4) (by simp [f]) (.here _)
      have l43 : Leads f 4 3 := .go (v := 3) (by simp [f]) (.here _)
      rcases hm with ⟨rfl, rfl⟩ | ⟨rfl, rfl⟩ | ⟨rfl, rfl⟩ | ⟨rfl, rfl⟩ | ⟨rfl, rfl⟩ | ⟨rfl, rfl⟩ | ⟨rfl, rfl⟩ | ⟨rfl, rfl⟩ | ⟨rfl, rfl⟩ | ⟨rfl, rfl⟩ | ⟨rfl, rfl⟩ | ⟨rfl, rfl⟩ <;>
        first | exact .here _ | assumption)
  0 trivial qs hq

end DisconnectedExample
end Verif
