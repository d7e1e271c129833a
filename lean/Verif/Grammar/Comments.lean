import Verif.Grammar.Formatter
import Verif.Grammar.Specification

/-
Model of the parser of comments, and what the comments of a text are.

Modelled code
* `lib/parse/src/parser.rs:57-75, 1028-1050`, `lib/parse/src/lib.rs:18-22`,
  `lib/parse/src/input.rs:11-18`
* `lib/app/src/module_formatter.rs`
-/

namespace Verif.Grammar

/-! ## The parser -/

/-- `nom::character::complete::multispace0`. -/
def multispace0 : Parser Unit := fun s => .ok () (s.dropWhile isSpace)

/-- `lib/parse/src/parser.rs:1028-1037, 1044-1048` (`comment`, `comment_position`): the text of a
comment, and the input at its position. -/
def commentText : Parser (List Char × List Char) := fun s =>
  match s.dropWhile isSpace with
  | '#' :: r =>
    .ok (r.takeWhile fun c => !isNewline c, '#' :: r) (r.dropWhile fun c => !isNewline c)
  | _ => .error

/-- What is repeated in `lib/parse/src/parser.rs:59-67`.  (`string_literal` only differs from
`raw_string_literal` in its name for errors: both skip white space and comments.) -/
def commentItem : Parser (Option (List Char × List Char)) := do
  multispace0
  let c ← alt [
    (do let c ← commentText; pure (some c)),
    (do let _ ← stringLiteral; pure none),
    (do let _ ← oneOf fun c => !(c = '"' || c = '#'); pure none)]
  multispace0
  pure c

/-- Line breaks. -/
def newlines (s : List Char) : Nat := s.count '\n'

/-- The line of a position (`location_line` of `nom_locate`), from the source and the input that is
left there. -/
def lineAt (source rest : List Char) : Nat := 1 + (newlines source - newlines rest)

/-- `lib/parse/src/lib.rs:18-22` (`parse_comments`), `lib/parse/src/parser.rs:57-75`
(`comments`). -/
def parseComments (s : List Char) : Option (List Comment) :=
  match many0 commentItem s with
  | .ok cs [] => some ((cs.filterMap id).map fun c => ⟨c.1, lineAt s c.2⟩)
  | _ => none

/-- `lib/app/src/module_formatter.rs:4-9` (`format`), for a layout. -/
def formatSource (l : Layout) (s : List Char) : Option (List Char) :=
  match parse s with
  | none => none
  | some m =>
    match parseComments s with
    | none => none
    | some cs => some (formatModule l m cs)

/-! ## What the comments of a text are -/

/-- A text, read from its start, has these comments, and it ends outside of comments and string
literals. -/
inductive Scan : List Char → List (List Char) → Prop where
  | nil : Scan [] []
  | char {c : Char} {s : List Char} {cs : List (List Char)} : c ≠ '#' → c ≠ '"' → Scan s cs →
      Scan (c :: s) cs
  | string {t s : List Char} {cs : List (List Char)} : IsStringText t → Scan s cs →
      Scan ('"' :: (t ++ '"' :: s)) cs
  | comment {t s : List Char} {c : Char} {cs : List (List Char)} : (∀ d ∈ t, isNewline d = false) →
      isNewline c = true → Scan s cs → Scan ('#' :: (t ++ c :: s)) (t :: cs)

/-- The comments of a text: those outside of string literals, of which the last one need not end with
a line break. -/
inductive CommentsOf : List Char → List (List Char) → Prop where
  | scan {s : List Char} {cs : List (List Char)} : Scan s cs → CommentsOf s cs
  | last {s t : List Char} {cs : List (List Char)} : Scan s cs → (∀ d ∈ t, isNewline d = false) →
      CommentsOf (s ++ '#' :: t) (cs ++ [t])

end Verif.Grammar
