import Verif.Core.Rounding
/-
Model of numbers and of the modules `Bit` and `Number` of the core package: `/repo/packages/core/Bit.pen`,
`/repo/packages/core/ffi/src/bit.rs`, `/repo/packages/core/Number.pen`, `/repo/packages/core/ffi/src/number.rs`.

A number is a 64-bit pattern: `ffi::Number` (`/repo/lib/ffi/src/number.rs:1-6`) is an `f64`, and the functions of
`bit.rs` use its pattern. The instructions on `f64` are modelled as IEEE 754 defines them, rounding to nearest,
ties to even. Which of the patterns that are not numbers (NaN) arithmetic results in is not determined by the
standard; the model uses the one of `f64::NAN`, and no theorem depends on that.
-/
namespace Verif.Core.Numbers

/-- A number of the language: the pattern of an `f64`. -/
abbrev Number := BitVec 64

/-- The code of the magnitude: the pattern without the sign. -/
def code (x : Number) : Nat := x.toNat % 2 ^ 63

/-- The code of infinity. -/
def infinityCode : Nat := 2047 * 2 ^ 52

/-- `f64::is_nan`, `_pen_core_is_nan`: packages/core/ffi/src/number.rs:42-45. -/
def isNan (x : Number) : Bool := infinityCode < code x

def isFinite (x : Number) : Bool := code x < infinityCode

/-- How many units of `2 ^ -1074` a number is. Infinities count as `2 ^ 1024`. -/
def units (x : Number) : Int := if x.msb then -(magnitude 52 (code x)) else magnitude 52 (code x)

/-- One in these units. -/
def one : Nat := 2 ^ 1074

/-- `f64::NAN`, `_pen_core_nan`: packages/core/ffi/src/number.rs:47-50. -/
def nan : Number := 0x7FF8000000000000#64

/-- `f64::INFINITY`, `_pen_core_infinity`: packages/core/ffi/src/number.rs:37-40. -/
def infinity : Number := 0x7FF0000000000000#64

/-- The pattern of a sign and the code of a magnitude. -/
def pattern (negative : Bool) (code : Nat) : Number := BitVec.ofNat 64 ((if negative then 2 ^ 63 else 0) + code)

/-- The number a number of units is rounded to. -/
def ofUnits (n : Int) : Number := pattern (n < 0) (min (roundCode 52 n.natAbs) infinityCode)

/-- The `+` instruction: lib/mir-fmm/src/expression.rs:516-518. -/
def add (x y : Number) : Number :=
  if isNan x || isNan y then nan
  else if !isFinite x then (if !isFinite y && x.msb != y.msb then nan else x)
  else if !isFinite y then y
  else if units x + units y = 0 then pattern (x.msb && y.msb) 0
  else ofUnits (units x + units y)

/-- The `<` instruction on numbers: lib/mir-fmm/src/expression.rs:552. -/
def less (x y : Number) : Bool := !isNan x && !isNan y && decide (units x < units y)

/-- The `>` instruction on numbers: lib/mir-fmm/src/expression.rs:546-548. -/
def greater (x y : Number) : Bool := less y x

/-- The `==` instruction on numbers: lib/mir-fmm/src/expression.rs:544. -/
def equal (x y : Number) : Bool := !isNan x && !isNan y && decide (units x = units y)

/-- The cast `as u64` of Rust: it truncates and saturates. -/
def toU64 (x : Number) : BitVec 64 :=
  if isNan x then 0 else BitVec.ofNat 64 (min (units x / one).toNat (2 ^ 64 - 1))

/-- The cast `as f64` of Rust from `u64`. -/
def fromU64 (x : BitVec 64) : Number := ofUnits (x.toNat * one)

/-- A number literal of an integer. -/
def literal (n : Int) : Number := ofUnits (n * one)

/-! ### Bit.pen -/

/-- `And`: packages/core/Bit.pen:17-19, packages/core/ffi/src/bit.rs:3-6. -/
def bitAnd (x y : Number) : Number := x &&& y

/-- `Or`: packages/core/Bit.pen:22-24, packages/core/ffi/src/bit.rs:8-11. -/
def bitOr (x y : Number) : Number := x ||| y

/-- `Xor`: packages/core/Bit.pen:27-29, packages/core/ffi/src/bit.rs:13-16. -/
def bitXor (x y : Number) : Number := x ^^^ y

/-- `Not`: packages/core/Bit.pen:32-34, packages/core/ffi/src/bit.rs:18-21. -/
def bitNot (x : Number) : Number := ~~~x

/-- `LeftShift`: packages/core/Bit.pen:37-39, packages/core/ffi/src/bit.rs:23-26. The library is built by
`cargo build --release` (packages/core/pen-ffi.sh:22), where the shift instruction takes the count modulo 64. -/
def leftShift (x count : Number) : Number := x <<< ((toU64 count).toNat % 64)

/-- `RightShift`: packages/core/Bit.pen:42-44, packages/core/ffi/src/bit.rs:28-31. -/
def rightShift (x count : Number) : Number := x >>> ((toU64 count).toNat % 64)

/-- `ToInteger64`: packages/core/Bit.pen:47-49, packages/core/ffi/src/bit.rs:33-36. -/
def toInteger64 (x : Number) : Number := toU64 x

/-- `FromInteger64`: packages/core/Bit.pen:52-54, packages/core/ffi/src/bit.rs:38-41. -/
def fromInteger64 (x : Number) : Number := fromU64 x

/-! ### Number.pen -/

/-- `Maximum`: packages/core/Number.pen:61-69. -/
def maximum (x y : Number) : Number :=
  if isNan x || isNan y then nan else if greater x y then x else y

/-- `Minimum`: packages/core/Number.pen:72-80. -/
def minimum (x y : Number) : Number :=
  if isNan x || isNan y then nan else if less x y then x else y

/-- The node of the list `Range(minimum, maximum)`: none, or its first element and the arguments of the call that
its rest is: packages/core/Number.pen:98-104. The list literal evaluates that call when the rest is looked at. -/
def rangeNode : Number × Number → Option (Number × (Number × Number))
  | (minimum, maximum) =>
    if greater minimum maximum then none else some (minimum, (add minimum (literal 1), maximum))

/-- `Sequence`: packages/core/Number.pen:117-119. -/
def sequenceNode (maximum : Number) : Option (Number × (Number × Number)) := rangeNode (literal 1, maximum)

/-- `sumRecursive` on the elements of a list: packages/core/Number.pen:136-142. -/
def sumRecursive : List Number → Number → Number
  | [], sum => sum
  | x :: xs, sum => sumRecursive xs (add sum x)

/-- `Sum`: packages/core/Number.pen:132-134. -/
def sum (xs : List Number) : Number := sumRecursive xs (literal 0)

end Verif.Core.Numbers
