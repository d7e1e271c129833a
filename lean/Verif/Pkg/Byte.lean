/-!
# Byte slices and views of strings

Model of `packages/core/ffi/src/string/byte.rs`, `packages/core/ffi/src/string.rs:6-12`,
`packages/core/ffi/src/view.rs` and `packages/core/String/Byte/View.pen`.

Strings are lists of bytes.  Numbers are the extended rationals below: every `f64` is one of
them, and the arithmetic is exact (it is for integers below 2^53; rounding is not modelled).
A result of `none` is a Rust panic (an index out of range or a subtraction below zero: with
overflow checks off the subtraction wraps and the slice is then out of range).
-/
namespace Verif.Pkg

abbrev Bytes := List UInt8

/-- A Pen `number` (an `f64`), `lib/ffi/src/number.rs`.  Negative zero is identified with zero,
rounding is not modelled. -/
inductive Num
  | nan
  | negInf
  | posInf
  | fin (q : Rat)
  deriving DecidableEq, Repr

namespace Num

/-- A natural number as a Pen number. -/
def nat (n : Nat) : Num := .fin ((n : Int) : Rat)

/-- An integer as a Pen number. -/
def int (n : Int) : Num := .fin (n : Rat)

/-- `f64` addition. -/
def add : Num → Num → Num
  | .nan, _ => .nan
  | _, .nan => .nan
  | .posInf, .negInf => .nan
  | .negInf, .posInf => .nan
  | .posInf, _ => .posInf
  | _, .posInf => .posInf
  | .negInf, _ => .negInf
  | _, .negInf => .negInf
  | .fin a, .fin b => .fin (a + b)

/-- `f64` negation. -/
def neg : Num → Num
  | .nan => .nan
  | .posInf => .negInf
  | .negInf => .posInf
  | .fin a => .fin (-a)

/-- `f64` subtraction. -/
def sub (a b : Num) : Num := add a (neg b)

/-- The comparison `<` of `f64`: false when a side is not a number. -/
def lt : Num → Num → Bool
  | .nan, _ => false
  | _, .nan => false
  | .negInf, .negInf => false
  | .negInf, _ => true
  | _, .negInf => false
  | .posInf, _ => false
  | _, .posInf => true
  | .fin a, .fin b => a < b

/-- `Number'Minimum`, `packages/core/Number.pen` (`Minimum`). -/
def minimum (a b : Num) : Num :=
  if a = .nan ∨ b = .nan then .nan else if lt a b then a else b

/-- Rust's `f64::min`: the other operand when one is not a number. -/
def rustMin (a b : Num) : Num :=
  match a, b with
  | .nan, b => b
  | a, .nan => a
  | a, b => if lt b a then b else a

/-- The largest `usize`. -/
def usizeMax : Nat := 2 ^ 64 - 1

/-- Rust's `as usize` on `f64`: truncates, saturates, and gives zero for NaN. -/
def toUsize : Num → Nat
  | .nan => 0
  | .negInf => 0
  | .posInf => usizeMax
  | .fin q => min q.floor.toNat usizeMax

end Num

/-- Rust's `&s[a..b]`: panics unless `a <= b <= s.len()`. -/
def range (s : Bytes) (a b : Nat) : Option Bytes :=
  if a ≤ b ∧ b ≤ s.length then some ((s.drop a).take (b - a)) else none

/-- `_pen_core_byte_length`, `packages/core/ffi/src/string/byte.rs:1-4`. -/
def byteLength (s : Bytes) : Num := .nat s.length

/-- `_pen_core_byte_slice`, `packages/core/ffi/src/string/byte.rs:6-20`
(`Byte'Slice`, `packages/core/String/Byte.pen`). -/
def byteSlice (s : Bytes) (start fin : Num) : Option Bytes :=
  let a := start.toUsize
  let b := (Num.rustMin fin (byteLength s)).toUsize
  if a > b ∨ a > s.length ∨ b = 0 then some []
  else if a = 0 then none
  else range s (a - 1) b

/-- `_pen_core_string_starts_with`, `packages/core/ffi/src/string.rs:6-12`. -/
def startsWith (s p : Bytes) : Bool :=
  decide (s.length ≥ p.length) && (s.take p.length == p)

/-- `type View`, `packages/core/String/Byte/View.pen:10-15`. -/
structure View where
  value : Bytes
  start : Num
  fin : Num
  deriving DecidableEq, Repr

namespace View

/-- `New`, `packages/core/String/Byte/View.pen:17-24`. -/
def new (s : Bytes) : View := { value := s, start := .nat 1, fin := byteLength s }

/-- `Length`, `packages/core/String/Byte/View.pen:46-49`. -/
def length (v : View) : Num := (v.fin.sub v.start).add (.nat 1)

/-- `Slice`, `packages/core/String/Byte/View.pen:56-65`. -/
def slice (v : View) (start fin : Num) : View :=
  let e := Num.minimum ((v.start.add fin).sub (.nat 1)) v.fin
  { value := v.value
    start := Num.minimum ((v.start.add start).sub (.nat 1)) (e.add (.nat 1))
    fin := e }

/-- `Seek`, `packages/core/String/Byte/View.pen:51-54`. -/
def seek (v : View) (n : Num) : View := slice v (n.add (.nat 1)) .posInf

/-- `_pen_core_view_starts_with`, `packages/core/ffi/src/view.rs:1-13`
(`StartsWith`, `packages/core/String/Byte/View.pen:41-44`). -/
def startsWith (v : View) (p : Bytes) : Option Bool :=
  let a := v.start.toUsize
  if a = 0 then none
  else (range v.value (a - 1) (min (a - 1 + p.length) v.fin.toUsize)).map (· == p)

/-- `_pen_core_view_to_string`, `packages/core/ffi/src/view.rs:15-22`
(`ToString`, `packages/core/String/Byte/View.pen:67-70`). -/
def toString (v : View) : Option Bytes :=
  let a := v.start.toUsize
  if a = 0 then none else range v.value (a - 1) v.fin.toUsize

end View

end Verif.Pkg
