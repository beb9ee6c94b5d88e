/-
Shared conventions of the model.

* `u32`/`usize` values are `Nat`.
* A Rust panic (failed assertion, index out of bounds, arithmetic overflow in a checked build,
  `unwrap` on `None`) is `none`.
-/
namespace Verif

/-- `2^32`: the number of `u32` values. -/
def U32 : Nat := 4294967296

/-- `engine/src/datastr/graph.rs:25` `pub const INFINITY: Weight = u32::MAX / 2;` -/
def INFINITY : Nat := 2147483647

/-- `u32` addition; `none` stands for overflow (a panic in debug builds, a wrap-around in release builds).
A theorem that shows `some` therefore shows that neither happens. -/
def add32 (a b : Nat) : Option Nat :=
  if a + b < U32 then some (a + b) else none

/-- `v[i] = x` on a `Vec`: `none` is the out-of-bounds panic. -/
def upd {α : Type _} (l : List α) (i : Nat) (x : α) : Option (List α) :=
  if i < l.length then some (l.set i x) else none

/-- Pointwise update of a function; used by specifications. -/
def fupd {α : Type _} (f : Nat → α) (i : Nat) (x : α) : Nat → α :=
  fun j => if j = i then x else f j

theorem add32_eq_some {a b c : Nat} : add32 a b = some c ↔ a + b < U32 ∧ c = a + b := by
  unfold add32; split
  · simp_all [eq_comm]
  · simp; omega

theorem add32_of_lt {a b : Nat} (h : a + b < U32) : add32 a b = some (a + b) := by
  simp [add32, h]

theorem upd_eq_some {α : Type _} {l l' : List α} {i : Nat} {x : α} :
    upd l i x = some l' ↔ i < l.length ∧ l' = l.set i x := by
  unfold upd; split
  · simp_all [eq_comm]
  · simp; omega

theorem upd_of_lt {α : Type _} {l : List α} {i : Nat} (x : α) (h : i < l.length) :
    upd l i x = some (l.set i x) := by simp [upd, h]

@[simp] theorem fupd_same {α : Type _} (f : Nat → α) (i : Nat) (x : α) : fupd f i x i = x := by
  simp [fupd]

theorem fupd_of_ne {α : Type _} (f : Nat → α) {i j : Nat} (x : α) (h : j ≠ i) : fupd f i x j = f j := by
  simp [fupd, h]

end Verif
