/-
Model of string literals: the lexical grammar, the formatter's output and the compilation of
escape sequences to bytes.

Modelled code
* `lib/parse/src/parser.rs:791-823` (`raw_string_literal`)
* `lib/ast-hir/src/string.rs:4-22` (`compile`)
* `lib/format/src/lib.rs:652` (`Expression::String`)

Strings are lists of bytes.  The code parses and replaces in UTF-8 encoded strings; all the
patterns are ASCII, so that this is the same on the level of bytes.
-/

namespace Verif.Parse

/-- `\` -/
abbrev bBackslash : UInt8 := 92
/-- `"` -/
abbrev bQuote : UInt8 := 34
/-- `n` -/
abbrev bN : UInt8 := 110
/-- `r` -/
abbrev bR : UInt8 := 114
/-- `t` -/
abbrev bT : UInt8 := 116
/-- `x` -/
abbrev bX : UInt8 := 120

/-- `one_of("0123456789abcdefABCDEF")` (`lib/parse/src/parser.rs:771-773`) and the character class
`[0-9a-fA-F]` (`lib/ast-hir/src/string.rs:5`). -/
def isHex (b : UInt8) : Bool :=
  (48 ≤ b && b ≤ 57) || (97 ≤ b && b ≤ 102) || (65 ≤ b && b ≤ 70)

/-- The value of a hexadecimal digit. -/
def hexDigit (b : UInt8) : UInt8 :=
  if b ≤ 57 then b - 48 else if b ≤ 70 then b - 55 else b - 87

/-- `u8::from_str_radix(…, 16)` of two digits, `lib/ast-hir/src/string.rs:18`. -/
def hexValue (h l : UInt8) : UInt8 := 16 * hexDigit h + hexDigit l

/-- `alt((…))`, `lib/parse/src/parser.rs:798-806`: a character or an escape sequence, and what
follows. -/
def literalPiece : List UInt8 → Option (List UInt8 × List UInt8)
  | [] => none
  | b :: rest =>
    if b = bQuote then none
    else if b = bBackslash then
      match rest with
      | [] => none
      | e :: rest' =>
        if e = bBackslash ∨ e = bQuote ∨ e = bN ∨ e = bR ∨ e = bT then some ([b, e], rest')
        else if e = bX then
          match rest' with
          | h :: l :: rest'' =>
            if isHex h && isHex l then some ([b, e, h, l], rest'') else none
          | _ => none
        else none
    else some ([b], rest)

/-- `many0(…)`, `lib/parse/src/parser.rs:798`.  The bound on the number of iterations is the length
of the input; every iteration consumes input. -/
def literalPieces : Nat → List UInt8 → List UInt8 × List UInt8
  | 0, s => ([], s)
  | n + 1, s =>
    match literalPiece s with
    | some (t, r) => (t ++ (literalPieces n r).1, (literalPieces n r).2)
    | none => ([], s)

def literalBody (s : List UInt8) : List UInt8 × List UInt8 := literalPieces s.length s

/-- `raw_string_literal`, `lib/parse/src/parser.rs:791-823`: the text between the quotes and what
follows the literal; `none` for a parse error. -/
def parseLiteral : List UInt8 → Option (List UInt8 × List UInt8)
  | [] => none
  | b :: s =>
    if b = bQuote then
      match (literalBody s).2 with
      | e :: rest => if e = bQuote then some ((literalBody s).1, rest) else none
      | [] => none
    else none

/-- `str::replace` of a pattern of two bytes by one byte: non-overlapping matches from left to
right. -/
def replace2 (a b c : UInt8) : List UInt8 → List UInt8
  | x :: y :: r => if x = a ∧ y = b then c :: replace2 a b c r else x :: replace2 a b c (y :: r)
  | [x] => [x]
  | [] => []

/-- `HEX_CHARACTER_REGEX.replace_all(…)`, `lib/ast-hir/src/string.rs:4-5, 8-21`. -/
def replaceHex : List UInt8 → List UInt8
  | x :: y :: h :: l :: r =>
    if x = bBackslash ∧ y = bX ∧ isHex h = true ∧ isHex l = true then hexValue h l :: replaceHex r
    else x :: replaceHex (y :: h :: l :: r)
  | s => s

/-- `lib/ast-hir/src/string.rs:7-22` (`compile`). -/
def compileString (s : List UInt8) : List UInt8 :=
  replaceHex
    (replace2 bBackslash bT 9
      (replace2 bBackslash bR 13
        (replace2 bBackslash bN 10
          (replace2 bBackslash bQuote bQuote
            (replace2 bBackslash bBackslash bBackslash s)))))

/-- `builder.strings(["\"", string.value(), "\""])`, `lib/format/src/lib.rs:652`. -/
def formatString (text : List UInt8) : List UInt8 := bQuote :: text ++ [bQuote]

end Verif.Parse
