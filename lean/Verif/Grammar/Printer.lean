import Verif.Grammar.Parser

/-
Model of the formatter of Pen modules.

Modelled code
* `lib/format/src/lib.rs:16-21, 46-880, 951-960`

The formatter makes documents of fixed texts, line breaks and comments.  Which line breaks become
spaces, how deep lines are indented, where empty lines stay and where comments go depends on the
positions in the source (and on `mfmt`, which renders documents).  The model leaves all of this
open: the formatter makes a sequence of pieces, which are fixed texts and places for white space,
and a rendering of it puts any white space, line breaks and comments there.

* `gap` is a place with a space or a line break (`" "` inside of the fixed texts of the code,
  `line()`), possibly with comments: block comments are put before what they were before in the
  source, and comments at the ends of lines before the next line break.
* `soft` is a place where the code may put a line break or a comment, or nothing.
* `trail` is the comma and line break after the last element of a list on lines of its own.
-/

namespace Verif.Grammar

/-- Pieces of formatted modules. -/
inductive Piece where
  | txt (text : List Char)
  | gap
  | soft
  | trail

/-- White space and comments (each comment ends with its line). -/
inductive Blank : List Char → Prop where
  | nil : Blank []
  | space {c : Char} {s : List Char} : isSpace c = true → Blank s → Blank (c :: s)
  | comment {t : List Char} {c : Char} {s : List Char} :
      (∀ d ∈ t, isNewline d = false) → isNewline c = true → Blank s →
      Blank ('#' :: (t ++ c :: s))

/-- A piece can be rendered as this text. -/
def Fill : Piece → List Char → Prop
  | .txt t, s => s = t
  | .gap, s => Blank s ∧ s ≠ []
  | .soft, s => Blank s
  | .trail, s => s = [] ∨ ∃ b, s = ',' :: b ∧ Blank b

/-- A sequence of pieces can be rendered as this text. -/
def Fills : List Piece → List Char → Prop
  | [], s => s = []
  | p :: ps, s => ∃ a b, s = a ++ b ∧ Fill p a ∧ Fills ps b

/-- A fixed text. -/
abbrev text (s : String) : Piece := .txt s.toList

/-- `.intersperse(separator)` of `itertools`. -/
def join (separator : List Piece) : List (List Piece) → List Piece
  | [] => []
  | [p] => p
  | p :: q :: ps => p ++ separator ++ join separator (q :: ps)

/-- `builder.sequence(["(", document, ")"])`. -/
def paren (b : Bool) (ps : List Piece) : List Piece :=
  if b then text "(" :: ps ++ [text ")"] else ps

/-- A comma and a line break. -/
def comma : List Piece := [text ",", .gap]

/-- Elements separated by commas, with an optional comma at the end. -/
def elements (ps : List (List Piece)) : List Piece :=
  if ps.isEmpty then [] else join comma ps ++ [.trail]

/-! ## Types -/

/-- The members of a union: all but the last one are put into parentheses if they are function
types; `lib/format/src/lib.rs:306-335`. -/
def joinUnion : List (Bool × List Piece) → List Piece
  | [] => []
  | [(_, p)] => p
  | (f, p) :: q :: ps => paren f p ++ [.gap, text "|", .gap] ++ joinUnion (q :: ps)

mutual

/-- `lib/format/src/lib.rs:951-960` (`collect_union_types`) with the rendering of each member
(`compile_type`, `lib/format/src/lib.rs:276-338`) and whether it is a function type. -/
def members : Ty → List (Bool × List Piece)
  | .function as r =>
    [(true, text "\\(" :: join comma (printTypes as) ++ [text ")", .gap] ++ joinUnion (members r))]
  | .list t => [(false, text "[" :: joinUnion (members t) ++ [text "]"])]
  | .map k v =>
    [(false, text "{" :: joinUnion (members k) ++ [text ":", .gap] ++ joinUnion (members v) ++
      [text "}"])]
  | .reference x => [(false, [.txt x])]
  | .union l r => members l ++ members r

def printTypes : List Ty → List (List Piece)
  | [] => []
  | t :: ts => joinUnion (members t) :: printTypes ts

end

/-- `lib/format/src/lib.rs:276-338` (`compile_type`). -/
def printType (t : Ty) : List Piece := joinUnion (members t)

/-- A name and a type: arguments (`lib/format/src/lib.rs:374-381`) and fields
(`lib/format/src/lib.rs:213-217`). -/
def printTyped (x : Name × Ty) : List Piece := [.txt x.1, .gap] ++ printType x.2

/-- `lib/format/src/lib.rs:360-405` (`compile_signature`). -/
def printSignature (arguments : List (Name × Ty)) (result : Ty) : List Piece :=
  [text "\\(", .soft] ++ elements (arguments.map printTyped) ++ [text ")", .gap] ++
    printType result

/-! ## Expressions -/

/-- `lib/format/src/lib.rs:586-592` (`Expression::Number`). -/
def numberText : Number → List Char
  | .binary d => "0b".toList ++ d
  | .hexadecimal d => "0x".toList ++ d.map Char.toUpper
  | .floatingPoint t => t

/-- `matches!(…, Expression::BinaryOperation(_))`, `lib/format/src/lib.rs:656`. -/
def Expr.isBinary : Expr → Bool
  | .binary .. => true
  | _ => false

/-- The condition of `lib/format/src/lib.rs:848-853` (`compile_operand`). -/
def lower (parent : BinOp) : Expr → Bool
  | .binary o _ _ => decide (o.priority < parent.priority)
  | _ => false

mutual

/-- `lib/format/src/lib.rs:471-668` (`compile_expression`), `670-861` (`compile_if`,
`compile_if_type`, `compile_list`, `compile_map`, `compile_binary_operation`, `compile_operand`),
`340-358` (`compile_lambda`). -/
def print : Expr → List Piece
  | .binary o l r =>
    paren (lower o l) (print l) ++ [.gap, .txt (operatorText o), .gap] ++
      paren (lower o r) (print r)
  | .call f as => print f ++ [text "(", .soft] ++ elements (printAll as) ++ [text ")"]
  | .if_ bs e => printBranches bs ++ printBlock e
  | .ifList l x y t e =>
    [text "if", .gap, text "[", .txt x, text ",", .gap, text "...", .txt y, text "]", .gap,
      text "=", .gap] ++ print l ++ [.gap] ++ printBlock t ++ [.gap, text "else", .gap] ++
      printBlock e
  | .ifMap x m k t e =>
    [text "if", .gap, .txt x, .gap, text "=", .gap] ++ print m ++ [text "["] ++ print k ++
      [text "]", .gap] ++ printBlock t ++ [.gap, text "else", .gap] ++ printBlock e
  | .ifType x e bs f =>
    [text "if", .gap, .txt x, .gap, text "=", .gap] ++ print e ++ [.gap, text "as", .gap] ++
      join [.gap, text "else", .gap, text "if", .gap] (printTypeBranches bs) ++ printElse f
  | .lambda as t b => printSignature as t ++ [.gap] ++ printBlock b
  | .list t es =>
    text "[" :: printType t ++ (if es.isEmpty then [] else [.gap]) ++ elements (printListElements es) ++
      [text "]"]
  | .comprehension t e bs =>
    text "[" :: printType t ++ [.gap] ++ print e ++ [.gap] ++ join [.gap] (printCompBranches bs) ++
      [.soft, text "]"]
  | .map k v es =>
    text "{" :: printType k ++ [text ":", .gap] ++ printType v ++
      (if es.isEmpty then [] else [.gap]) ++ elements (printMapElements es) ++ [text "}"]
  | .number n => [.txt (numberText n)]
  | .record x r fs =>
    [.txt x, text "{", .soft] ++ elements (printRecord r ++ printFields fs) ++ [text "}"]
  | .field r x => print r ++ [text ".", .txt x]
  | .string s => [text "\"", .txt s, text "\""]
  | .unary .not e => text "!" :: paren e.isBinary (print e)
  | .unary .try_ e => paren e.isBinary (print e) ++ [text "?"]
  | .variable x => [.txt x]

def printAll : List Expr → List (List Piece)
  | [] => []
  | e :: es => print e :: printAll es

/-- `lib/format/src/lib.rs:670-682`. -/
def printBranches : List Branch → List Piece
  | [] => []
  | .mk c b :: bs =>
    [text "if", .gap] ++ print c ++ [.gap] ++ printBlock b ++ [.gap, text "else", .gap] ++
      printBranches bs

/-- `lib/format/src/lib.rs:704-715`. -/
def printTypeBranches : List TypeBranch → List (List Piece)
  | [] => []
  | .mk t b :: bs => (printType t ++ [.gap] ++ printBlock b) :: printTypeBranches bs

/-- `lib/format/src/lib.rs:717-721`. -/
def printElse : Option Block → List Piece
  | none => []
  | some b => [.gap, text "else", .gap] ++ printBlock b

/-- `lib/format/src/lib.rs:415-458` (`compile_block`). -/
def printBlock : Block → List Piece
  | .mk ss e => [text "{", .gap] ++ printStatements ss ++ [.soft] ++ print e ++ [.gap, text "}"]

/-- `lib/format/src/lib.rs:417-447, 460-473` (`compile_statement`). -/
def printStatements : List Statement → List Piece
  | [] => []
  | .mk none e :: ss => .soft :: print e ++ [.gap] ++ printStatements ss
  | .mk (some x) e :: ss =>
    [.soft, .txt x, .gap, text "=", .gap] ++ print e ++ [.gap] ++ printStatements ss

/-- `lib/format/src/lib.rs:743-755`. -/
def printListElements : List ListElement → List (List Piece)
  | [] => []
  | .multiple e :: es => (text "..." :: print e) :: printListElements es
  | .single e :: es => print e :: printListElements es

/-- `lib/format/src/lib.rs:786-801`. -/
def printMapElements : List MapElement → List (List Piece)
  | [] => []
  | .multiple e :: es => (text "..." :: print e) :: printMapElements es
  | .entry k v :: es => (print k ++ [text ":", .gap] ++ print v) :: printMapElements es

/-- `lib/format/src/lib.rs:597-604`. -/
def printRecord : Option Expr → List (List Piece)
  | none => []
  | some e => [text "..." :: print e]

/-- `lib/format/src/lib.rs:605-613`. -/
def printFields : List Field → List (List Piece)
  | [] => []
  | .mk x e :: fs => ([.txt x, text ":", .gap] ++ print e) :: printFields fs

/-- `lib/format/src/lib.rs:540-573`. -/
def printCompBranches : List CompBranch → List (List Piece)
  | [] => []
  | .mk xs es c :: bs =>
    ([text "for", .gap] ++ join comma (xs.map fun x => [.txt x]) ++ [.gap, text "in", .gap] ++
      join comma (printAll es) ++ printCondition c) :: printCompBranches bs

/-- `lib/format/src/lib.rs:565-570`. -/
def printCondition : Option Expr → List Piece
  | none => []
  | some e => [.gap, text "if", .gap] ++ print e

end

/-! ## Modules -/

/-- `lib/format/src/lib.rs:125-150` (`compile_module_path`, `compile_module_path_components`). -/
def printPath : ModulePath → List Piece
  | .external p cs => [.txt p, text "'"] ++ join [text "'"] (cs.map fun c => [.txt c])
  | .internal cs => text "'" :: join [text "'"] (cs.map fun c => [.txt c])

/-- `sorted()` of names (`Ord` of `str`): by the values of the characters. -/
def nameLe (x y : Name) : Bool := decide (x.map Char.toNat ≤ y.map Char.toNat)

/-- `Ord` of `Vec<String>`: lexicographic. -/
def componentsLe : List Name → List Name → Bool
  | [], _ => true
  | _ :: _, [] => false
  | x :: xs, y :: ys => if x = y then componentsLe xs ys else nameLe x y

/-- `Ord` of `ModulePath`, derived: `lib/ast/src/ast/module_path.rs:5-9`. -/
def pathLe : ModulePath → ModulePath → Bool
  | .external p cs, .external q ds => componentsLe (p :: cs) (q :: ds)
  | .external _ _, .internal _ => true
  | .internal _, .external _ _ => false
  | .internal cs, .internal ds => componentsLe cs ds

/-- `lib/format/src/lib.rs:97-123` (`compile_import`). -/
def printImport (i : Import) : List Piece :=
  [.soft, text "import", .gap] ++ printPath i.path ++
    (match i.alias? with
      | none => []
      | some a => [.gap, text "as", .gap, .txt a]) ++
    (if i.names.isEmpty then []
      else [.gap, text "{", .gap] ++
        join comma ((i.names.mergeSort nameLe).map fun x => [.txt x]) ++ [.gap, text "}"]) ++
    [.gap]

/-- `sorted_by_key(|import| import.module_path())`, `lib/format/src/lib.rs:87-95`
(`compile_imports`). -/
def sortImports (is : List Import) : List Import := is.mergeSort fun i j => pathLe i.path j.path

/-- `matches!(import.module_path(), ModulePath::External(_))`, `lib/format/src/lib.rs:50`. -/
def Import.isExternal (i : Import) : Bool :=
  match i.path with
  | .external .. => true
  | .internal _ => false

/-- The imports in the order in which they are printed, `lib/format/src/lib.rs:47-55`. -/
def orderedImports (is : List Import) : List Import :=
  sortImports (is.filter Import.isExternal) ++ sortImports (is.filter fun i => !i.isExternal)

/-- `lib/format/src/lib.rs:163-184` (`compile_foreign_import`). -/
def printForeignImport (i : ForeignImport) : List Piece :=
  [.soft, text "import", .gap, text "foreign"] ++
    (match i.convention with
      | .c => [.gap, text "\"c\""]
      | .native => []) ++
    [.gap, .txt i.name, .gap] ++ printType i.type ++ [.gap]

/-- `lib/format/src/lib.rs:199-248` (`compile_record_definition`, `compile_type_alias`). -/
def printTypeDefinition : TypeDefinition → List Piece
  | .record x fs =>
    [.soft, text "type", .gap, .txt x, .gap, text "{"] ++
      (fs.map fun f => .gap :: printTyped f).flatten ++ [.soft, text "}", .gap]
  | .alias_ x t => [.soft, text "type", .gap, .txt x, .gap, text "=", .gap] ++ printType t ++ [.gap]

/-- `lib/format/src/lib.rs:250-274` (`compile_function_definition`). -/
def printFunction (d : FunctionDefinition) : List Piece :=
  .soft ::
    (match d.export_ with
      | none => []
      | some .c => [text "foreign", .gap, text "\"c\"", .gap]
      | some .native => [text "foreign", .gap]) ++
    [.txt d.name, .gap, text "=", .gap] ++ print d.lambda.expression ++ [.gap]

/-- `lib/format/src/lib.rs:46-85` (`compile_module`). -/
def printModule (m : Module) : List Piece :=
  ((orderedImports m.imports).map printImport).flatten ++
    (m.foreignImports.map printForeignImport).flatten ++
    (m.types.map printTypeDefinition).flatten ++
    (m.functions.map printFunction).flatten ++ [.soft]

end Verif.Grammar
