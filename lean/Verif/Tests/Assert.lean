import Verif.Lower.Reflect
import Verif.Core.NumbersProperties
/-
Model of the test package: `/repo/packages/test/Assert.pen`, `/repo/packages/test/State.pen`,
`/repo/packages/test/ffi/src/lib.rs`.

Values are those of the reflection model (`Verif/Lower/Reflect.lean`): values of the language without lists and
maps. Equality and texts of values (`Any'Equal`, `Any'Debug`, `/repo/packages/reflect/Any.pen`) are those that C66
proves of the compiled functions.
-/
namespace Verif.Tests.Assert

open Verif.Lower (Data bytes)
open Verif.Core

/-- The `==` instruction on numbers. -/
def sameNumber (a b : UInt64) : Bool := Numbers.equal a.toBitVec b.toBitVec

section
-- `Any'Debug`.
variable (debug : Data → List UInt8)

/-- `formatValues`: packages/test/Assert.pen:18-20. -/
def formatValues (x y : Data) : List UInt8 :=
  bytes "(found: " ++ debug x ++ bytes ") (expected: " ++ debug y ++ bytes ")"

/-- `Equal`: packages/test/Assert.pen:6-16. -/
def assertEqual (x y : Data) : Data :=
  match x.equal sameNumber y with
  | some b => if b then .none else .error (.string (bytes "values are not equal " ++ formatValues debug x y))
  | none => .error (.string (bytes "values are not comparable " ++ formatValues debug x y))

/-- `True`: packages/test/Assert.pen:23-29. -/
def assertTrue (x : Bool) : Data := if x then .none else .error (.string (bytes "condition is false"))

/-- `Error`: packages/test/Assert.pen:32-38. -/
def assertError (x : Data) : Data :=
  match x with
  | .error _ => .none
  | x => .error (.string (bytes "error expected (found: " ++ debug x ++ bytes ")"))

/-- `Fail`: packages/test/Assert.pen:42-44. -/
def fail : Data := .error (.string (bytes "assertion failed"))
end

/-! ### States -/

variable {α : Type}

/-- What tests do with a state: `Get`, `Set` and, at the end of `Run`, `_pen_test_state_freeze`:
packages/test/State.pen. -/
inductive Operation (α : Type) where
  | get
  | set (x : α)
  | freeze

/-- A state: `StateInnerInner`, packages/test/ffi/src/lib.rs:16-19. -/
structure State (α : Type) where
  cell : α
  frozen : Bool

/-- A thread: its value of a `get` that is between its two exchanges, what it still does, and what it got. -/
structure Thread (α : Type) where
  pending : Option α
  operations : List (Operation α)
  got : List α

/-- One atomic step of a thread: packages/test/ffi/src/lib.rs:36-54. A `get` is two exchanges of the cell's contents:
with the default value, and with what it was. -/
def step (default : α) (s : State α) (t : Thread α) : State α × Thread α :=
  match t.pending with
  | some v => ({ s with cell := v }, ⟨none, t.operations, t.got ++ [v]⟩)
  | none =>
    match t.operations with
    | [] => (s, t)
    | .get :: os => ({ s with cell := default }, ⟨some s.cell, os, t.got⟩)
    | .set x :: os => ({ s with cell := x }, ⟨none, os, t.got⟩)
    | .freeze :: os => ({ s with frozen := true }, ⟨none, os, t.got⟩)

/-- A step of the `i`-th thread. -/
def stepOf (default : α) (c : State α × List (Thread α)) (i : Nat) : State α × List (Thread α) :=
  match c.2[i]? with
  | some t => ((step default c.1 t).1, c.2.set i (step default c.1 t).2)
  | none => c

/-- Steps of threads in an order: `_pen_test_state_new` (packages/test/ffi/src/lib.rs:21-33) is the start. -/
def schedule (default : α) (threads : List (List (Operation α))) (order : List Nat) : State α × List (Thread α) :=
  order.foldl (stepOf default) (⟨default, false⟩, threads.map fun os => ⟨none, os, []⟩)

end Verif.Tests.Assert
