import Verif.Pkg.Json
/-!
# HTML rendering

Model of `packages/html/Node.pen`, `packages/html/Render.pen`, `packages/html/validate.pen` and
`packages/html/ffi/src/lib.rs`.  The crate `html-escape` is modelled by its documented
replacements.  Views are modelled by the bytes they show (C43); error messages are not modelled.
-/
namespace Verif.Pkg.Html

/-- `type Node`, `type Element`, `packages/html/Node.pen:1-9`; attributes (`Node.pen:11-15`) are
pairs of a key and a value. -/
inductive Node where
  | text (s : Bytes)
  | element (tag : Bytes) (attributes : List (Bytes × Bytes)) (children : List Node)

/-- `validCharacters`, `packages/html/validate.pen:16-24`. -/
def validCharacters : Bytes := 45 :: (List.range 26).map (fun n => UInt8.ofNat (97 + n))

/-- `nameView`, `packages/html/validate.pen:10-14`. -/
def nameView : Bytes → Bool
  | [] => true
  | b :: r => validCharacters.any (· == b) && nameView r

/-- `Name`, `packages/html/validate.pen:7-9`.  `Utf8'Length(s)` is zero only for the empty string
(it is not a number for strings that are not UTF-8). -/
def validName (s : Bytes) : Bool := !s.isEmpty && nameView s

/-- The replacement of a byte by `html_escape::encode_text`. -/
def escTextByte (b : UInt8) : Bytes :=
  if b = 38 then [38, 97, 109, 112, 59]
  else if b = 60 then [38, 108, 116, 59]
  else if b = 62 then [38, 103, 116, 59]
  else [b]

/-- The replacement of a byte by `html_escape::encode_quoted_attribute`. -/
def escAttributeByte (b : UInt8) : Bytes :=
  if b = 34 then [38, 113, 117, 111, 116, 59]
  else if b = 39 then [38, 35, 120, 50, 55, 59]
  else escTextByte b

/-- `str::from_utf8(…).unwrap_or_default()`. -/
def utf8OrEmpty (s : Bytes) : Bytes := if validUtf8 s then s else []

/-- `_pen_html_encode_text`, `packages/html/ffi/src/lib.rs:5-10`. -/
def encodeText (s : Bytes) : Bytes := (utf8OrEmpty s).flatMap escTextByte

/-- `_pen_html_encode_attribute`, `packages/html/ffi/src/lib.rs:12-17`. -/
def encodeAttribute (s : Bytes) : Bytes := (utf8OrEmpty s).flatMap escAttributeByte

/-- `renderAttributes`, `packages/html/Render.pen:44-66`; the list of strings is concatenated. -/
def renderAttributes : List (Bytes × Bytes) → Option Bytes
  | [] => some []
  | (k, v) :: ats =>
    if validName k then
      (renderAttributes ats).map (fun r => k ++ [61, 34] ++ encodeAttribute v ++ [34] ++ r)
    else none

mutual
/-- `Render`, `packages/html/Render.pen:9-42`.  `none` is an error.  The code renders the children
only if there are any; rendering no children gives the empty string. -/
def render : Node → Option Bytes
  | .text s => some (encodeText s)
  | .element tag ats ns =>
    match renderAttributes ats with
    | none => none
    | some as => match renderChildren ns with
      | none => none
      | some s =>
        if validName tag then
          some ([60] ++ tag ++ (if ats.isEmpty then [] else 32 :: as) ++
            (if ns.isEmpty then [47, 62] else [62] ++ s ++ [60, 47] ++ tag ++ [62]))
        else none
/-- `renderChildren`, `packages/html/Render.pen:68-77`. -/
def renderChildren : List Node → Option Bytes
  | [] => some []
  | n :: ns => match render n with
    | none => none
    | some s => (renderChildren ns).map (fun r => s ++ r)
end

end Verif.Pkg.Html
