import Verif.Grammar.Ast

/-
Model of the parser combinators of `nom` 8 that the parser uses, and of the lexical part of the
parser.

Modelled code
* `nom` 8 by its documented behaviour: `Ok`, `Err::Error` (alternatives are tried) and
  `Err::Failure` (after `cut`, nothing else is tried), `alt`, `cut`, `opt`, `many0`, `many1`,
  `separated_list0`, `separated_list1`, `verify`, `tag`, `recognize_float`
* `lib/parse/src/combinator.rs:8-40`
* `lib/parse/src/parser.rs:26-30, 732-823, 942-1043` (lexical part)

Error contexts and positions are dropped.
-/

namespace Verif.Grammar

/-- Results of parsers.  `fuel` says that the recursion bound of the model was too small. -/
inductive R (α : Type) where
  | ok (value : α) (rest : List Char)
  | error
  | failure
  | fuel
deriving Repr

/-- `nom::Parser`. -/
abbrev Parser (α : Type) := List Char → R α

def R.bind {α β : Type} (r : R α) (f : α → Parser β) : R β :=
  match r with
  | .ok a s => f a s
  | .error => .error
  | .failure => .failure
  | .fuel => .fuel

/-- Sequences, `nom::sequence` (tuples of parsers, `preceded`, `terminated`, `delimited`). -/
def andThen {α β : Type} (p : Parser α) (f : α → Parser β) : Parser β := fun s => (p s).bind f

def success {α : Type} (a : α) : Parser α := fun s => .ok a s

instance : Monad Parser where
  pure := success
  bind := andThen

/-- `nom::combinator::cut`. -/
def cut {α : Type} (p : Parser α) : Parser α := fun s =>
  match p s with
  | .error => .failure
  | r => r

/-- `nom::branch::alt` of two parsers. -/
def orElse {α : Type} (p q : Parser α) : Parser α := fun s =>
  match p s with
  | .error => q s
  | r => r

/-- `nom::branch::alt`. -/
def alt {α : Type} : List (Parser α) → Parser α
  | [] => fun _ => .error
  | p :: ps => orElse p (alt ps)

/-- `nom::combinator::opt`. -/
def opt {α : Type} (p : Parser α) : Parser (Option α) := fun s =>
  match p s with
  | .ok a r => .ok (some a) r
  | .error => .ok none s
  | .failure => .failure
  | .fuel => .fuel

/-- `nom::combinator::verify`. -/
def verify {α : Type} (p : Parser α) (f : α → Bool) : Parser α := fun s =>
  match p s with
  | .ok a r => if f a then .ok a r else .error
  | r => r

/-- The loop of `nom::multi::many0`.  A repetition that consumes nothing is an error in `nom`; as
every repetition consumes input, the length of the input bounds their number. -/
def manyLoop {α : Type} (p : Parser α) : Nat → Parser (List α)
  | 0, _ => .fuel
  | n + 1, s =>
    match p s with
    | .ok a r =>
      if r.length < s.length then (manyLoop p n r).bind fun as => success (a :: as) else .error
    | .error => .ok [] s
    | .failure => .failure
    | .fuel => .fuel

/-- `nom::multi::many0`. -/
def many0 {α : Type} (p : Parser α) : Parser (List α) := fun s => manyLoop p (s.length + 1) s

/-- `nom::multi::many1`. -/
def many1 {α : Type} (p : Parser α) : Parser (List α) := do
  let a ← p
  let as ← many0 p
  pure (a :: as)

/-- A separator and an element; when the element is missing, the separator is not consumed
(`nom::multi::separated_list0`). -/
def next {α : Type} (separator : Parser Unit) (element : Parser α) : Parser α := do
  separator
  element

/-- `nom::multi::separated_list1`. -/
def separated1 {α : Type} (separator : Parser Unit) (element : Parser α) : Parser (List α) := do
  let a ← element
  let as ← many0 (next separator element)
  pure (a :: as)

/-- `nom::multi::separated_list0`. -/
def separated0 {α : Type} (separator : Parser Unit) (element : Parser α) : Parser (List α) :=
  orElse (separated1 separator element) (success [])

/-- `lib/parse/src/combinator.rs:8-27` (`separated_or_terminated_list0`). -/
def list0 {α : Type} (separator : Parser Unit) (element : Parser α) : Parser (List α) := do
  let as ← separated0 separator element
  if as.isEmpty then pure as
  else do
    let _ ← opt separator
    pure as

/-- `lib/parse/src/combinator.rs:29-40` (`separated_or_terminated_list1`). -/
def list1 {α : Type} (separator : Parser Unit) (element : Parser α) : Parser (List α) := do
  let as ← separated1 separator element
  let _ ← opt separator
  pure as

/-! ## White space, signs and keywords -/

/-- `nom::character::complete::multispace1` accepts these. -/
def isSpace (c : Char) : Bool := c = ' ' || c = '\t' || c = '\r' || c = '\n'

/-- What `none_of("\n\r")` rejects, `lib/parse/src/parser.rs:1042`. -/
def isNewline (c : Char) : Bool := c = '\r' || c = '\n'

/-- `lib/parse/src/parser.rs:1020-1043` (`blank`, `skipped_comment`): skip white space and
comments; the flag says whether this is inside of a comment. -/
def skip : Bool → List Char → List Char
  | _, [] => []
  | true, c :: s => if isNewline c then skip false s else skip true s
  | false, c :: s =>
    if isSpace c then skip false s
    else if c = '#' then skip true s
    else c :: s

def blank (s : List Char) : List Char := skip false s

/-- `lib/parse/src/parser.rs:1010-1018` (`token`). -/
def token {α : Type} (p : Parser α) : Parser α := fun s => p (blank s)

/-- `nom::bytes::complete::tag`. -/
def tag : List Char → Parser Unit
  | [], s => .ok () s
  | _ :: _, [] => .error
  | c :: cs, d :: s => if c = d then tag cs s else .error

/-- `lib/parse/src/parser.rs:29` (`OPERATOR_CHARACTERS`). -/
def isOperator (c : Char) : Bool := "+-*/=<>&|!?".toList.contains c

/-- Does the input start with such a character? -/
def startsWith (f : Char → Bool) : List Char → Bool
  | [] => false
  | c :: _ => f c

/-- `peek(not(…))` of a single character. -/
def notNext (f : Char → Bool) : Parser Unit := fun s =>
  if startsWith f s then .error else .ok () s

/-- `lib/parse/src/parser.rs:995-1008` (`sign`). -/
def sign (t : List Char) : Parser Unit :=
  if t.any isOperator then do
    token (tag t)
    notNext (· = '=')
  else token (tag t)

/-- `alphanumeric1` or `_`. -/
def isWord (c : Char) : Bool := c.isAlphanum || c = '_'

/-- `lib/parse/src/parser.rs:975-993` (`keyword`). -/
def keyword (name : List Char) : Parser Unit := token do
  tag name
  notNext isWord

/-- `lib/parse/src/parser.rs:26-28` (`KEYWORDS`). -/
def keywords : List Name :=
  ["as".toList, "else".toList, "export".toList, "for".toList, "foreign".toList, "if".toList,
    "in".toList, "import".toList, "type".toList]

/-! ## Identifiers -/

/-- `lib/parse/src/parser.rs:964-973` (`unchecked_identifier`). -/
def uncheckedIdentifier : Parser Name
  | [] => .error
  | c :: s =>
    if c.isAlpha || c = '_' then .ok (c :: s.takeWhile isWord) (s.dropWhile isWord) else .error

/-- `lib/parse/src/parser.rs:957-962` (`raw_identifier`). -/
def rawIdentifier : Parser Name := verify uncheckedIdentifier fun x => !keywords.contains x

/-- `lib/parse/src/parser.rs:953-955` (`identifier`). -/
def identifier : Parser Name := token rawIdentifier

/-- `lib/parse/src/parser.rs:942-951` (`qualified_identifier`). -/
def qualifiedIdentifier : Parser Name := do
  let x ← rawIdentifier
  let y ← opt (do tag ['\'']; cut rawIdentifier)
  match y with
  | none => pure x
  | some y => pure (x ++ '\'' :: y)

/-! ## Numbers -/

/-- `many1(one_of(…))` and `digit1`. -/
def chars1 (f : Char → Bool) : Parser (List Char) := fun s =>
  if startsWith f s then .ok (s.takeWhile f) (s.dropWhile f) else .error

/-- One of these characters. -/
def oneOf (f : Char → Bool) : Parser Char
  | [] => .error
  | c :: s => if f c then .ok c s else .error

/-- `lib/parse/src/parser.rs:771-773` (`hexadecimal_digit`). -/
def isHex (c : Char) : Bool := "0123456789abcdefABCDEF".toList.contains c

/-- The text of an optional character. -/
def optText : Option Char → List Char
  | none => []
  | some c => [c]

/-- `nom::number::complete::recognize_float`. -/
def recognizeFloat : Parser (List Char) := do
  let s ← opt (oneOf fun c => c = '+' || c = '-')
  let m ← orElse
    (do
      let d ← chars1 Char.isDigit
      let f ← opt (do
        let p ← oneOf (· = '.')
        let f ← opt (chars1 Char.isDigit)
        pure (p :: f.getD []))
      pure (d ++ f.getD []))
    (do
      let p ← oneOf (· = '.')
      let f ← chars1 Char.isDigit
      pure (p :: f))
  let e ← opt (do
    let e ← oneOf fun c => c = 'e' || c = 'E'
    let s ← opt (oneOf fun c => c = '+' || c = '-')
    let d ← cut (chars1 Char.isDigit)
    pure (e :: (optText s ++ d)))
  pure (optText s ++ m ++ e.getD [])

/-- `lib/parse/src/parser.rs:732-785` (`number_literal` and its parts). -/
def number : Parser Number := token do
  let n ← alt [
    (do tag "0b".toList; let d ← cut (chars1 fun c => c = '0' || c = '1'); pure (.binary d)),
    (do tag "0x".toList; let d ← cut (chars1 isHex); pure (.hexadecimal (d.map Char.toLower))),
    (do let t ← recognizeFloat; pure (.floatingPoint t))]
  notNext Char.isDigit
  pure n

/-! ## Strings -/

/-- `alt((…))`, `lib/parse/src/parser.rs:798-806`: a character or an escape sequence. -/
def stringPiece : Parser (List Char)
  | [] => .error
  | c :: s =>
    if c = '"' then .error
    else if c = '\\' then
      match s with
      | [] => .error
      | e :: s' =>
        if e = '\\' || e = '"' || e = 'n' || e = 'r' || e = 't' then .ok [c, e] s'
        else if e = 'x' then
          match s' with
          | h :: l :: s'' => if isHex h && isHex l then .ok [c, e, h, l] s'' else .error
          | _ => .error
        else .error
    else .ok [c] s

/-- `lib/parse/src/parser.rs:787-823` (`string_literal`, `raw_string_literal`). -/
def stringLiteral : Parser (List Char) := token do
  tag ['"']
  cut do
    let ps ← many0 stringPiece
    tag ['"']
    pure ps.flatten

end Verif.Grammar
