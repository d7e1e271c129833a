import Verif.Pkg.Byte

/-!
# Strings of characters

Model of `packages/core/ffi/src/string/utf8.rs`, `packages/core/String/Utf8.pen`, `packages/core/ffi/src/string/builder.rs`,
`packages/core/String.pen`, `packages/core/ffi/src/character.rs` and `packages/core/Character.pen`.

Strings are lists of bytes, numbers are those of `Verif.Pkg.Byte`. Functions of Rust's `str` are modelled on bytes as they are
documented. Characters are Unicode scalar values (Lean's `Char`), and UTF-8 is `String.utf8EncodeChar`. Not modelled:
conversion to lower and upper case, and trimming white space, which depend on tables of characters.
A result of `none` where a string is expected is a Rust panic.
-/
namespace Verif.Pkg.Utf8

/-! ### Rust -/

/-- UTF-8. -/
def encode (cs : List Char) : Bytes := cs.flatMap String.utf8EncodeChar

/-- `decode`, with a bound on the number of characters. -/
def decodeN : Nat → Bytes → Option (List Char)
  | _, [] => some []
  | 0, _ => none
  | n + 1, s => match s.toByteArray.utf8DecodeChar? 0 with
    | some c => (decodeN n (s.drop c.utf8Size)).map (c :: ·)
    | none => none

/-- `str::from_utf8` and `chars`. -/
def decode (s : Bytes) : Option (List Char) := decodeN s.length s

/-- `str::find`: the first index at which a pattern is. -/
def findBytes (p : Bytes) : Bytes → Option Nat
  | [] => if p = [] then some 0 else none
  | b :: s => if p.isPrefixOf (b :: s) then some 0 else (findBytes p s).map (· + 1)

/-- `char_indices`: characters with the indices of their first bytes. -/
def charIndices : Nat → List Char → List (Nat × Char)
  | _, [] => []
  | i, c :: cs => (i, c) :: charIndices (i + c.utf8Size) cs

/-- `str::is_char_boundary`. -/
def isBoundary (s : Bytes) (i : Nat) : Prop := i = s.length ∨ ∃ b, s[i]? = some b ∧ b.IsUTF8FirstByte

instance (s : Bytes) (i : Nat) : Decidable (isBoundary s i) :=
  if h : i = s.length then isTrue (Or.inl h)
  else match hb : s[i]? with
    | none => isFalse (by rintro (h' | ⟨b, h', _⟩); exact h h'; rw [hb] at h'; cases h')
    | some b => if hf : b.IsUTF8FirstByte then isTrue (Or.inr ⟨b, hb, hf⟩)
      else isFalse (by rintro (h' | ⟨b', h', hf'⟩); exact h h'; rw [hb] at h'; cases h'; exact hf hf')

/-- `&s[a..b]` of a `str`, which panics unless both are boundaries of characters. -/
def strRange (s : Bytes) (a b : Nat) : Option Bytes :=
  if isBoundary s a ∧ isBoundary s b then range s a b else none

/-- `split` by a pattern that is not empty, with a bound on the number of parts. -/
def splitN (p : Bytes) : Nat → Bytes → List Bytes
  | 0, s => [s]
  | n + 1, s => match findBytes p s with
    | none => [s]
    | some i => s.take i :: splitN p n (s.drop (i + p.length))

/-- `str::split`. An empty pattern is between all characters, at the beginning and at the end. -/
def strSplit (s p : Bytes) (cs : List Char) : List Bytes :=
  if p = [] then [] :: cs.map String.utf8EncodeChar ++ [[]] else splitN p s.length s

/-- `replace` of a pattern that is not empty, with a bound on the number of occurrences. -/
def replaceN (p r : Bytes) : Nat → Bytes → Bytes
  | 0, s => s
  | n + 1, s => match findBytes p s with
    | none => s
    | some i => s.take i ++ r ++ replaceN p r n (s.drop (i + p.length))

/-- `str::replace`. -/
def strReplace (s p r : Bytes) (cs : List Char) : Bytes :=
  if p = [] then r ++ cs.flatMap (fun c => String.utf8EncodeChar c ++ r) else replaceN p r s.length s

/-- `str::trim_start_matches`, with a bound on the number of occurrences. An empty pattern removes nothing. -/
def trimStartN (p : Bytes) : Nat → Bytes → Bytes
  | 0, s => s
  | n + 1, s => if p ≠ [] ∧ p.isPrefixOf s then trimStartN p n (s.drop p.length) else s

/-- `str::trim_end_matches`. -/
def trimEndN (p : Bytes) : Nat → Bytes → Bytes
  | 0, s => s
  | n + 1, s => if p ≠ [] ∧ p.isSuffixOf s then trimEndN p n (s.take (s.length - p.length)) else s

/-- `[&[u8]]::join`. -/
def joinBytes (sep : Bytes) : List Bytes → Bytes
  | [] => []
  | [s] => s
  | s :: ss => s ++ sep ++ joinBytes sep ss

/-- Rust's `f64::max`. -/
def rustMax (a b : Num) : Num :=
  match a, b with
  | .nan, b => b
  | a, .nan => a
  | a, b => if Num.lt a b then b else a

/-- `as u32` on `f64`. -/
def toU32 : Num → Nat
  | .nan => 0
  | .negInf => 0
  | .posInf => 2 ^ 32 - 1
  | .fin q => min q.floor.toNat (2 ^ 32 - 1)

/-! ### Functions of `Core'String'Utf8` -/

/-- `Characters`: utf8.rs:4-15. -/
def characters (s : Bytes) : List Bytes :=
  match decode s with
  | some cs => cs.map String.utf8EncodeChar
  | none => []

/-- `Contains`: utf8.rs:17-29. -/
def contains (s p : Bytes) : Bool :=
  match decode s, decode p with
  | some _, some _ => (findBytes p s).isSome
  | _, _ => false

/-- `find`: utf8.rs:39-51. -/
def findIndex (s p : Bytes) : Option Nat :=
  match decode s, decode p with
  | some cs, some _ => match findBytes p s with
    | some i => (charIndices 0 cs).findIdx? (·.1 == i)
    | none => none
  | _, _ => none

/-- `_pen_core_utf8_find`: utf8.rs:31-37. -/
def findNumber (s p : Bytes) : Num :=
  match findIndex s p with
  | some i => .nat (i + 1)
  | none => .int (-1)

/-- `Find`: Utf8.pen:31-35. -/
def find (s p : Bytes) : Option Num :=
  let i := findNumber s p
  if Num.lt i (.nat 0) then none else some i

/-- `StartsWith`: utf8.rs:53-65. -/
def startsWith (s p : Bytes) : Bool :=
  match decode s, decode p with
  | some _, some _ => p.isPrefixOf s
  | _, _ => false

/-- `EndsWith`: utf8.rs:67-79. -/
def endsWith (s p : Bytes) : Bool :=
  match decode s, decode p with
  | some _, some _ => p.isSuffixOf s
  | _, _ => false

/-- `Length`: utf8.rs:81-89. -/
def length (s : Bytes) : Num :=
  match decode s with
  | some cs => .nat cs.length
  | none => .nan

/-- `get_utf8_byte_index`: utf8.rs:129-135. -/
def byteIndex (s : Bytes) (cs : List Char) (i : Nat) : Nat :=
  match (charIndices 0 cs)[i]? with
  | some (j, _) => j
  | none => s.length

/-- `Slice`: utf8.rs:91-110. -/
def slice (s : Bytes) (start fin : Num) : Option Bytes :=
  let a := (rustMax (start.sub (.nat 1)) (.nat 0)).toUsize
  let b := (Num.rustMin fin (.nat (2 ^ 64))).toUsize
  match decode s with
  | some cs =>
    if s = [] ∨ a ≥ cs.length ∨ b ≤ a then some [] else strRange s (byteIndex s cs a) (byteIndex s cs b)
  | none => some []

/-- `Split`: utf8.rs:112-127. -/
def split (s p : Bytes) : List Bytes :=
  match decode s, decode p with
  | some cs, some _ => strSplit s p cs
  | _, _ => [s]

/-- `Replace`: utf8.rs:137-156. -/
def replace (s p r : Bytes) : Bytes :=
  match decode s, decode p, decode r with
  | some cs, some _, some _ => strReplace s p r cs
  | _, _, _ => s

/-- `TrimStartMatches`: utf8.rs:193-201, 211-225. -/
def trimStartMatches (s p : Bytes) : Bytes :=
  match decode s, decode p with
  | some _, some _ => trimStartN p s.length s
  | _, _ => s

/-- `TrimEndMatches`: utf8.rs:178-186, 211-225. -/
def trimEndMatches (s p : Bytes) : Bytes :=
  match decode s, decode p with
  | some _, some _ => trimEndN p s.length s
  | _, _ => s

/-- `TrimMatches`: Utf8.pen:90-93. -/
def trimMatches (s p : Bytes) : Bytes := trimEndMatches (trimStartMatches s p) p

/-! ### `Core'String` and `Core'Character` -/

/-- `appendStrings` with a string builder: String.pen:25-34, builder.rs:31-43. The builder has one reference, so that it is
updated in place. -/
def appendStrings (builder : List Bytes) : List Bytes → List Bytes
  | [] => builder
  | s :: ss => appendStrings (builder ++ [s]) ss

/-- `Join`: String.pen:18-23, builder.rs:45-59. -/
def join (ss : List Bytes) (sep : Bytes) : Bytes := joinBytes sep (appendStrings [] ss)

/-- `Concatenate`: String.pen:13-15. -/
def concatenate (ss : List Bytes) : Bytes := join ss []

/-- `FromCodePoint`: character.rs:5-10. -/
def fromCodePoint (n : Num) : Bytes :=
  if h : (toU32 n).isValidChar then String.utf8EncodeChar (Char.ofNatAux (toU32 n) h) else []

/-- `ToCodePoint`: character.rs:12-23. -/
def toCodePoint (s : Bytes) : Num :=
  match decode s with
  | some (c :: _) => .nat c.toNat
  | _ => .nan

end Verif.Pkg.Utf8
