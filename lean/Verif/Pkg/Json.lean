import Verif.Pkg.Byte
/-!
# JSON

Model of `packages/json/Encode.pen`, `packages/json/Decode.pen`, `packages/json/Value.pen` and of
the UTF-8 checks of `packages/core/ffi/src/string/utf8.rs`.

The decoder's views are modelled by the bytes they show (`c43_view_seek`, `c43_view_starts_with`
and `c43_view_to_string` prove that views behave this way).  The conversions between numbers and
text (Rust's `f64::to_string` and `str::parse::<f64>`) are parameters.  Error messages are not
modelled.
-/
namespace Verif.Pkg

/-! ## UTF-8 -/

/-- A continuation byte in a range. -/
def inRange (lo hi b : UInt8) : Bool := decide (lo ≤ b) && decide (b ≤ hi)

/-- Rust's `str::from_utf8(s).is_ok()`: the well-formed byte sequences of the Unicode standard,
table 3-7. -/
def validUtf8 : Bytes → Bool
  | [] => true
  | a :: r =>
    if a < 0x80 then validUtf8 r
    else match r with
      | b :: r =>
        if inRange 0xC2 0xDF a && inRange 0x80 0xBF b then validUtf8 r
        else match r with
          | c :: r =>
            if ((a == 0xE0 && inRange 0xA0 0xBF b) || (inRange 0xE1 0xEC a && inRange 0x80 0xBF b) ||
                (a == 0xED && inRange 0x80 0x9F b) || (inRange 0xEE 0xEF a && inRange 0x80 0xBF b)) &&
                inRange 0x80 0xBF c then validUtf8 r
            else match r with
              | d :: r =>
                if ((a == 0xF0 && inRange 0x90 0xBF b) || (inRange 0xF1 0xF3 a && inRange 0x80 0xBF b) ||
                    (a == 0xF4 && inRange 0x80 0x8F b)) && inRange 0x80 0xBF c && inRange 0x80 0xBF d then
                  validUtf8 r
                else false
              | [] => false
          | [] => false
      | [] => false

/-- `_pen_core_utf8_replace`, `packages/core/ffi/src/string/utf8.rs` (`Utf8'Replace`), for a
pattern of one ASCII byte and an ASCII replacement: a string that is not UTF-8 is returned as it
is. -/
def replaceByte (a : UInt8) (r s : Bytes) : Bytes :=
  if validUtf8 s then s.flatMap (fun b => if b = a then r else [b]) else s

/-! ## Values -/

/-- `type Value`, `type Raw`, `packages/json/Value.pen:1-8`.  `N` is the type of numbers.  Maps are
lists of entries in the order in which they are iterated. -/
inductive Json (N : Type) where
  | bool (b : Bool)
  | null
  | num (n : N)
  | str (s : Bytes)
  | arr (vs : List (Json N))
  | obj (es : List (Bytes × Json N))

def bQuote : UInt8 := 34
def bBackslash : UInt8 := 92
def bComma : UInt8 := 44
def bColon : UInt8 := 58
def bDot : UInt8 := 46
def bMinus : UInt8 := 45
def bZero : UInt8 := 48
def bOpenArray : UInt8 := 91
def bCloseArray : UInt8 := 93
def bOpenObject : UInt8 := 123
def bCloseObject : UInt8 := 125
def sTrue : Bytes := [116, 114, 117, 101]
def sFalse : Bytes := [102, 97, 108, 115, 101]
def sNull : Bytes := [110, 117, 108, 108]

namespace Json

/-! ## Encoding -/

/-- The body of `string`, `packages/json/Encode.pen:38-40`. -/
def escape (s : Bytes) : Bytes :=
  replaceByte bQuote [bBackslash, bQuote] (replaceByte bBackslash [bBackslash, bBackslash] s)

/-- `string`, `packages/json/Encode.pen:37-43`. -/
def encodeString (s : Bytes) : Bytes := [bQuote] ++ escape s ++ [bQuote]

section
variable {N : Type} (enc : N → Bytes)

mutual
/-- `Encode`, `value`, `packages/json/Encode.pen:14-35`; the list of strings is concatenated. -/
def encode : Json N → Bytes
  | .num n => enc n
  | .bool b => if b then sTrue else sFalse
  | .null => sNull
  | .str s => encodeString s
  | .arr vs => [bOpenArray] ++ encodeElements true vs ++ [bCloseArray]
  | .obj es => [bOpenObject] ++ encodeEntries true es ++ [bCloseObject]
/-- The comprehension of `array`, `packages/json/Encode.pen:45-56`. -/
def encodeElements : Bool → List (Json N) → Bytes
  | _, [] => []
  | first, v :: vs => (if first then [] else [bComma]) ++ encode v ++ encodeElements false vs
/-- The comprehension of `object`, `packages/json/Encode.pen:58-69`. -/
def encodeEntries : Bool → List (Bytes × Json N) → Bytes
  | _, [] => []
  | first, (k, v) :: es =>
    (if first then [] else [bComma]) ++ encodeString k ++ [bColon] ++ encode v ++ encodeEntries false es
end
end

/-! ## Decoding -/

/-- A result of a parser: a value and the rest of the input, an error, or no result within the
given recursion depth (`deep`). -/
inductive Res (α : Type)
  | ok (a : α) (rest : Bytes)
  | err
  | deep

/-- `blank`, `packages/json/Decode.pen` (`blank`). -/
def blank : Bytes → Bytes
  | b :: r => if b = 32 ∨ b = 9 ∨ b = 10 then blank r else b :: r
  | [] => []

/-- `raw`, `packages/json/Decode.pen` (`raw`). -/
def raw : Bytes → Bytes → Option Bytes
  | s, [] => some s
  | b :: s, p :: ps => if b = p then raw s ps else none
  | [], _ :: _ => none

/-- `token`, `packages/json/Decode.pen` (`token`). -/
def token (s p : Bytes) : Option Bytes := raw (blank s) p

/-- `View'StartsWith` on the bytes a view shows. -/
def starts (s : Bytes) (b : UInt8) : Bool := s.head? == some b

/-- `stringCharacters`, `stringCharacter`, `packages/json/Decode.pen` (`stringCharacters`). -/
def stringCharacters : Bytes → Option (Bytes × Bytes)
  | [] => none
  | b :: r =>
    if b = bQuote then some ([], b :: r)
    else match r with
      | c :: r' =>
        if b = bBackslash ∧ c = bQuote then (stringCharacters r').map (fun x => (bQuote :: x.1, x.2))
        else (stringCharacters (c :: r')).map (fun x => (b :: x.1, x.2))
      | [] => none

/-- `string`, `packages/json/Decode.pen` (`string`). -/
def string (s : Bytes) : Option (Bytes × Bytes) :=
  match token s [bQuote] with
  | none => none
  | some r => match stringCharacters r with
    | none => none
    | some (cs, r) => match raw r [bQuote] with
      | none => none
      | some r => some (cs, r)

/-- `nonZeroDigit`, `packages/json/Decode.pen` (`nonZeroDigit`). -/
def isNonZeroDigit (b : UInt8) : Bool := inRange 49 57 b

/-- `digit`, `packages/json/Decode.pen` (`digit`). -/
def isDigit (b : UInt8) : Bool := isNonZeroDigit b || b == bZero

/-- `digits`, `packages/json/Decode.pen` (`digits`). -/
def digits : Bytes → Bytes
  | b :: r => if isDigit b then digits r else b :: r
  | [] => []

/-- `integer`, `packages/json/Decode.pen` (`integer`). -/
def integer : Bytes → Option Bytes
  | b :: r => if isNonZeroDigit b then some (digits r) else if b = bZero then some r else none
  | [] => none

/-- The part of `number` that moves the view, `packages/json/Decode.pen` (`number`). -/
def numberEnd (s : Bytes) : Option Bytes :=
  match integer ((token s [bMinus]).getD s) with
  | none => none
  | some r => match raw r [bDot] with
    | some r => some (digits r)
    | none => some r

section
variable {N : Type} (dec : Bytes → N)

/-- `number`, `packages/json/Decode.pen` (`number`): the text from the start to the end of the
number is converted. -/
def number (s : Bytes) : Res (Json N) :=
  match numberEnd s with
  | none => .err
  | some r => .ok (.num (dec (s.take (s.length - r.length)))) r

/-- `entriesToMap`, `packages/json/Decode.pen` (`entriesToMap`): an entry is overridden by a later
entry of the same key. -/
def entriesToMap : List (Bytes × Json N) → List (Bytes × Json N)
  | [] => []
  | (k, v) :: es => if (entriesToMap es).any (fun e => e.1 == k) then entriesToMap es else (k, v) :: entriesToMap es

mutual
/-- `value`, `packages/json/Decode.pen` (`value`, `null`, `booleanTrue`, `booleanFalse`, `string`,
`array`, `object`).  The first argument bounds the recursion depth. -/
def value : Nat → Bytes → Res (Json N)
  | 0, _ => .deep
  | fuel + 1, s =>
    let s := blank s
    if starts s 110 then
      match token s sNull with
      | some r => .ok .null r
      | none => .err
    else if starts s 116 then
      match token s sTrue with
      | some r => .ok (.bool true) r
      | none => .err
    else if starts s 102 then
      match token s sFalse with
      | some r => .ok (.bool false) r
      | none => .err
    else if starts s bQuote then
      match string s with
      | some (cs, r) => .ok (.str cs) r
      | none => .err
    else if starts s bOpenArray then
      match token s [bOpenArray] with
      | none => .err
      | some r => match arrayElements fuel r with
        | .deep => .deep
        | .err => .err
        | .ok vs r => match token r [bCloseArray] with
          | none => .err
          | some r => .ok (.arr vs) r
    else if starts s bOpenObject then
      match token s [bOpenObject] with
      | none => .err
      | some r => match objectEntries fuel r with
        | .deep => .deep
        | .err => .err
        | .ok es r => match token r [bCloseObject] with
          | none => .err
          | some r => .ok (.obj (entriesToMap es)) r
    else number dec s
/-- `arrayElements`, `packages/json/Decode.pen` (`arrayElements`). -/
def arrayElements : Nat → Bytes → Res (List (Json N))
  | 0, _ => .deep
  | fuel + 1, s =>
    match value fuel s with
    | .deep => .deep
    | .err => .ok [] s
    | .ok v r => match token r [bComma] with
      | none => .ok [v] r
      | some r => match arrayElements fuel r with
        | .deep => .deep
        | .err => .err
        | .ok [] _ => .err
        | .ok (w :: ws) r => .ok (v :: w :: ws) r
/-- `objectEntries`, `packages/json/Decode.pen` (`objectEntries`). -/
def objectEntries : Nat → Bytes → Res (List (Bytes × Json N))
  | 0, _ => .deep
  | fuel + 1, s =>
    match string s with
    | none => .ok [] s
    | some (k, r) => match token r [bColon] with
      | none => .err
      | some r => match value fuel r with
        | .deep => .deep
        | .err => .err
        | .ok v r => match token r [bComma] with
          | none => .ok [(k, v)] r
          | some r => match objectEntries fuel r with
            | .deep => .deep
            | .err => .err
            | .ok [] _ => .err
            | .ok (e :: es) r => .ok ((k, v) :: e :: es) r
end

/-- What `Decode` returns. -/
inductive Decoded (N : Type)
  | value (v : Json N)
  | error

/-- `Decode`, `packages/json/Decode.pen` (`Decode`), with a recursion bound that is never reached
(`decode_not_deep`). -/
def decode (s : Bytes) : Decoded N :=
  match value dec (2 * s.length + 2) s with
  | .ok v r => if (blank r).length = 0 then .value v else .error
  | _ => .error
end

end Json

end Verif.Pkg
