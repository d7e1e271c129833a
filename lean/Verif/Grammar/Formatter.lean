import Verif.Grammar.Document

/-
Model of the formatter of Pen modules, with layout and comments.

Modelled code
* `lib/format/src/lib.rs:16-21, 46-960`, `lib/format/src/context.rs`

Syntax trees of the model have no positions.  A position of the code is the line of a node, and the
formatter is given a function from nodes to their lines; a node is given by its path from the
root.  `Printer.lean` is the same formatter without layout and comments: it only says what is
written between white space.
-/

namespace Verif.Grammar

/-- `lib/ast/src/comment.rs` (`Comment`): its text without the `#`, and its line. -/
structure Comment where
  text : List Char
  line : Nat
deriving DecidableEq, Repr

/-- White space for `str::trim_end` (the property `White_Space` of Unicode). -/
def isWhite (c : Char) : Bool :=
  let n := c.toNat
  (9 ≤ n && n ≤ 13) || n == 0x20 || n == 0x85 || n == 0xA0 || n == 0x1680 ||
    (0x2000 ≤ n && n ≤ 0x200A) || n == 0x2028 || n == 0x2029 || n == 0x202F || n == 0x205F ||
    n == 0x3000

/-- `str::trim_end`. -/
def trimEnd (t : List Char) : List Char := (t.reverse.dropWhile isWhite).reverse

/-- Nodes of a syntax tree: the path from the root, last step first. -/
abbrev Path := List Nat

/-- The formatter changes the comments that are left. -/
abbrev F := StateM (List Comment)

/-- What the layout depends on besides the tree: the lines of its nodes, and `flatten_if`. -/
structure Layout where
  line : Path → Nat
  otherwise : Bool

/-! ## Comments -/

/-- `lib/format/src/context.rs:24-35` (`drain_comments_before`). -/
def drainBefore (line : Nat) : F (List Comment) := fun cs =>
  (cs.takeWhile fun c => c.line < line, cs.dropWhile fun c => c.line < line)

/-- `lib/format/src/context.rs:37-42` (`drain_current_comment`). -/
def drainCurrent (line : Nat) : F (List Comment) := drainBefore (line + 1)

/-- `lib/format/src/context.rs:44-56` (`peek_comments_before`). -/
def peekBefore (line : Nat) : F (List Comment) := fun cs =>
  (cs.takeWhile fun c => c.line < line, cs)

/-- `lib/format/src/lib.rs:919-949` (`compile_all_comments`). -/
def allComments : List Comment → Nat → List Doc
  | [], _ => []
  | c :: cs, last =>
    let next := match cs with
      | [] => last
      | d :: _ => d.line
    .cat [.str ['#'], .str (trimEnd c.text), .brk true .line,
      if c.line + 1 < next then .line else .empty] :: allComments cs last

/-- `lib/format/src/lib.rs:903-909` (`compile_block_comment`). -/
def blockComment (line : Nat) : F Doc := do
  let cs ← drainBefore line
  pure (.cat (allComments cs line))

/-- `lib/format/src/lib.rs:911-917` (`compile_remaining_block_comment`): all comments are before the
largest line number. -/
def remainingComment : F Doc := fun cs => (.cat (allComments cs 0), [])

/-- `lib/format/src/lib.rs:893-901` (`compile_suffix_comment`). -/
def suffixComment (line : Nat) : F Doc := do
  let cs ← drainCurrent line
  pure (.cat (cs.map fun c => .suffix (" #".toList ++ trimEnd c.text)))

/-- `lib/format/src/lib.rs:881-891` (`compile_line_comment`). -/
def lineComment (line : Nat) (document : F Doc) : F Doc := do
  let b ← blockComment line
  let d ← document
  let s ← suffixComment line
  pure (.cat [b, d, s])

/-! ## Types -/

/-- A text. -/
abbrev lit (s : String) : Doc := .str s.toList

/-- `builder.sequence(["(", document, ")"])`. -/
def parenDoc (b : Bool) (d : Doc) : Doc := if b then .cat [lit "(", d, lit ")"] else d

/-- The members of a union: `lib/format/src/lib.rs:306-326`. -/
def unionDocs : List (Bool × Nat × Doc) → List Doc
  | [] => []
  | [(_, _, d)] => [d]
  | (f, _, d) :: m :: ms => parenDoc f d :: .cat [lit " |", .line] :: unionDocs (m :: ms)

/-- Are there less than two members, or are the first two on the same line?
`lib/format/src/lib.rs:328-330`. -/
def sameLine : List (Bool × Nat × Doc) → Bool
  | (_, n, _) :: (_, k, _) :: _ => n == k
  | _ => true

/-- `lib/format/src/lib.rs:303-336`: a type that is not a union is as it is. -/
def unionDoc : List (Bool × Nat × Doc) → Doc
  | [(_, _, d)] => d
  | ms =>
    let union := Doc.cat (unionDocs ms)
    if sameLine ms && !union.isBroken then .brk false union else .brk true union

mutual

/-- `lib/format/src/lib.rs:951-960` (`collect_union_types`) with the document of each member
(`compile_type`, `lib/format/src/lib.rs:276-303`), its line, and whether it is a function type. -/
def memberDocs (l : Layout) (p : Path) : Ty → List (Bool × Nat × Doc)
  | .function as r =>
    [(true, l.line p, .cat [lit "\\(", .cat (Doc.intersperse (lit ", ") (typeDocs l p 1 as)),
      lit ") ", unionDoc (memberDocs l (0 :: p) r)])]
  | .list t => [(false, l.line p, .cat [lit "[", unionDoc (memberDocs l (0 :: p) t), lit "]"])]
  | .map k v =>
    [(false, l.line p, .cat [lit "{", unionDoc (memberDocs l (0 :: p) k), lit ": ",
      unionDoc (memberDocs l (1 :: p) v), lit "}"])]
  | .reference x => [(false, l.line p, .str x)]
  | .union a b => memberDocs l (0 :: p) a ++ memberDocs l (1 :: p) b

def typeDocs (l : Layout) (p : Path) (i : Nat) : List Ty → List Doc
  | [] => []
  | t :: ts => unionDoc (memberDocs l (i :: p) t) :: typeDocs l p (i + 1) ts

end

/-- `lib/format/src/lib.rs:276-338` (`compile_type`). -/
def typeDoc (l : Layout) (p : Path) (t : Ty) : Doc := unionDoc (memberDocs l p t)

/-! ## Expressions -/

/-- A comma and a line: `lib/format/src/lib.rs:368, 479, 594`. -/
def separator : Doc := .cat [lit ",", .line]

/-- Elements of a call, a record or a signature: all on the line, or each on a line of its own;
`lib/format/src/lib.rs:389-399, 497-515, 617-635`. -/
def enclosed (flat : Bool) (elements : Doc) : Doc :=
  if flat then .brk false elements
  else .brk true (.cat [.indent (.cat [.line, elements]), separator])

/-- Elements of a list or a map: `lib/format/src/lib.rs:763-777, 809-823`. -/
def listed (flat : Bool) (elements : Doc) : Doc :=
  if flat then .brk false elements
  else .brk true (.cat [.indent elements, lit ",", .line])

/-- A name and a type after a comment: `lib/format/src/lib.rs:374-382`. -/
def argumentDocs (l : Layout) (p : Path) : Nat → List (Name × Ty) → F (List Doc)
  | _, [] => pure []
  | i, a :: as => do
    let d ← lineComment (l.line (i :: p))
      (pure (.cat [.str a.1, lit " ", typeDoc l (0 :: i :: p) a.2]))
    let ds ← argumentDocs l p (i + 1) as
    pure (d :: ds)

/-- `lib/format/src/lib.rs:407-413` (`are_arguments_flat`); arguments are the nodes from 2. -/
def argumentsFlat (l : Layout) (p : Path) (as : List (Name × Ty)) : Bool :=
  as.isEmpty || l.line p == l.line (2 :: p)

/-- `lib/format/src/lib.rs:360-405` (`compile_signature`). -/
def signature (l : Layout) (p : Path) (as : List (Name × Ty)) (t : Ty) : F Doc := do
  let ds ← argumentDocs l p 2 as
  pure (.cat [lit "\\(", enclosed (argumentsFlat l p as) (.cat (Doc.intersperse separator ds)),
    lit ") ", typeDoc l (0 :: p) t])

/-- The line of the first element: of the record if there is one, or of the first field;
`lib/format/src/lib.rs:619-627`. -/
def recordFlat (l : Layout) (p : Path) (r : Option Expr) : Bool :=
  l.line p == (if r.isSome then l.line (0 :: p) else l.line (1 :: p))

mutual

/-- `lib/format/src/lib.rs:471-668` (`compile_expression`), `670-861` (`compile_if`,
`compile_if_type`, `compile_list`, `compile_map`, `compile_binary_operation`, `compile_operand`),
`340-358` (`compile_lambda`). -/
def compile (l : Layout) (p : Path) : Expr → F Doc
  | .binary o a b => do
    let x ← compile l (0 :: p) a
    let y ← compile l (1 :: p) b
    pure (Doc.flattenIf l.otherwise (l.line (0 :: p) == l.line (1 :: p))
      (.cat [parenDoc (lower o a) x,
        .indent (.cat [.line, .str (operatorText o), lit " ", parenDoc (lower o b) y])]))
  | .call f as => do
    let x ← compile l (0 :: p) f
    let ds ← compileAll l p 1 as
    let elements := Doc.cat (Doc.intersperse separator ds)
    pure (.cat [x, lit "(",
      enclosed (as.isEmpty || (l.line (0 :: p) == l.line (1 :: p) && !elements.isBroken)) elements,
      lit ")"])
  | .if_ bs e => do
    let x ← compileBranches l p 1 bs
    let y ← compileBlock l (0 :: p) e
    pure (Doc.flattenIf l.otherwise (bs.length == 1 && l.line p == l.line (0 :: 1 :: 1 :: p))
      (.cat [x, y]))
  | .ifList e x y t f => do
    let d ← compile l (0 :: p) e
    let a ← compileBlock l (1 :: p) t
    let b ← compileBlock l (2 :: p) f
    pure (.cat [.str ("if [".toList ++ x ++ ", ...".toList ++ y ++ "] = ".toList), d, lit " ", a,
      lit " else ", b])
  | .ifMap x m k t f => do
    let d ← compile l (0 :: p) m
    let e ← compile l (1 :: p) k
    let a ← compileBlock l (2 :: p) t
    let b ← compileBlock l (3 :: p) f
    pure (.cat [.str ("if ".toList ++ x ++ " = ".toList), d, lit "[", e, lit "] ", a,
      lit " else ", b])
  | .ifType x e bs f => do
    let d ← compile l (0 :: p) e
    let ds ← compileTypeBranches l p 2 bs
    let g ← compileElse l (1 :: p) f
    pure (Doc.flattenIf l.otherwise
      (decide (bs.length + (if f.isSome then 1 else 0) ≤ 2) &&
        l.line p == l.line (0 :: 1 :: 2 :: p))
      (.cat [lit "if ", .str x, lit " = ", d, lit " as ",
        .cat (Doc.intersperse (lit " else if ") ds), g]))
  | .lambda as t b => do
    let s ← signature l p as t
    let d ← compileBlock l (1 :: p) b
    pure (.cat [s, lit " ", Doc.flattenIf l.otherwise
      (argumentsFlat l p as && l.line p == l.line (0 :: 1 :: p)) d])
  | .list t es => do
    let ds ← compileListElements l p 1 es
    let elements := Doc.cat (Doc.intersperse (lit ",") ds)
    pure (.cat [lit "[", typeDoc l (0 :: p) t,
      listed (es.isEmpty || (l.line p == l.line (1 :: p) && !elements.isBroken)) elements,
      lit "]"])
  | .comprehension t e bs => do
    let d ← lineComment (l.line (1 :: p)) (compile l (1 :: p) e)
    let ds ← compileCompBranches l p 2 bs
    let elements := Doc.cat [.line, d, .line, .cat (Doc.intersperse .line ds)]
    pure (.cat [lit "[", typeDoc l (0 :: p) t,
      if l.line p == l.line (1 :: p) && !elements.isBroken then .brk false elements
      else .brk true (.cat [.indent elements, .line]),
      lit "]"])
  | .map k v es => do
    let ds ← compileMapElements l p 2 es
    let elements := Doc.cat (Doc.intersperse (lit ",") ds)
    pure (.cat [lit "{", typeDoc l (0 :: p) k, lit ": ", typeDoc l (1 :: p) v,
      listed (es.isEmpty || (l.line p == l.line (2 :: p) && !elements.isBroken)) elements,
      lit "}"])
  | .number n => pure (.str (numberText n))
  | .record x r fs => do
    let rs ← compileRecord l (0 :: p) r
    let ds ← compileFields l p 1 fs
    let elements := Doc.cat (Doc.intersperse separator (rs ++ ds))
    pure (.cat [.str x, lit "{",
      enclosed ((r.isNone && fs.isEmpty) || (recordFlat l p r && !elements.isBroken)) elements,
      lit "}"])
  | .field r x => do
    let d ← compile l (0 :: p) r
    pure (.cat [d, lit ".", .str x])
  | .string s => pure (.str ("\"".toList ++ s ++ "\"".toList))
  | .unary .not e => do
    let d ← compile l (0 :: p) e
    pure (.cat [lit "!", parenDoc e.isBinary d])
  | .unary .try_ e => do
    let d ← compile l (0 :: p) e
    pure (.cat [parenDoc e.isBinary d, lit "?"])
  | .variable x => pure (.str x)

/-- The arguments of a call: `lib/format/src/lib.rs:481-490`. -/
def compileAll (l : Layout) (p : Path) (i : Nat) : List Expr → F (List Doc)
  | [] => pure []
  | e :: es => do
    let d ← lineComment (l.line (i :: p)) (compile l (i :: p) e)
    let ds ← compileAll l p (i + 1) es
    pure (d :: ds)

/-- `lib/format/src/lib.rs:670-682`. -/
def compileBranches (l : Layout) (p : Path) (i : Nat) : List Branch → F Doc
  | [] => pure .empty
  | .mk c b :: bs => do
    let x ← compile l (0 :: i :: p) c
    let y ← compileBlock l (1 :: i :: p) b
    let z ← compileBranches l p (i + 1) bs
    pure (.cat [.cat [lit "if ", x, lit " ", y, lit " else "], z])

/-- `lib/format/src/lib.rs:704-715`. -/
def compileTypeBranches (l : Layout) (p : Path) (i : Nat) : List TypeBranch → F (List Doc)
  | [] => pure []
  | .mk t b :: bs => do
    let d ← compileBlock l (1 :: i :: p) b
    let ds ← compileTypeBranches l p (i + 1) bs
    pure (.cat [typeDoc l (0 :: i :: p) t, lit " ", d] :: ds)

/-- `lib/format/src/lib.rs:717-721`. -/
def compileElse (l : Layout) (p : Path) : Option Block → F Doc
  | none => pure .empty
  | some b => do
    let d ← compileBlock l p b
    pure (.cat [lit " else ", d])

/-- `lib/format/src/lib.rs:415-458` (`compile_block`).  The expression is node 0 and statements are
the nodes from 1. -/
def compileBlock (l : Layout) (p : Path) : Block → F Doc
  | .mk ss e => do
    let x ← compileStatements l p 1 ss
    let y ← lineComment (l.line (0 :: p)) (compile l (0 :: p) e)
    pure (.cat [lit "{", .indent (.cat [.line, x, y]), .line, lit "}"])

/-- `lib/format/src/lib.rs:417-447, 460-473` (`compile_statement`). -/
def compileStatements (l : Layout) (p : Path) (i : Nat) : List Statement → F Doc
  | [] => pure .empty
  | .mk x e :: ss => do
    let next := l.line ((if ss.isEmpty then 0 else i + 1) :: p)
    let b ← blockComment (l.line (i :: p))
    let d ← compile l (0 :: i :: p) e
    let s ← suffixComment (l.line (i :: p))
    let statement := Doc.cat [match x with
      | none => .empty
      | some x => .str (x ++ " = ".toList), d, s, .brk true .line]
    let cs ← peekBefore next
    let extra := if (next : Int) - l.line (i :: p) ≤ statement.countLines true + cs.length then
      Doc.empty else .line
    let y ← compileStatements l p (i + 1) ss
    pure (.cat [.cat [b, statement, extra], y])

/-- `lib/format/src/lib.rs:743-755`. -/
def compileListElements (l : Layout) (p : Path) (i : Nat) : List ListElement → F (List Doc)
  | [] => pure []
  | .multiple e :: es => do
    let d ← lineComment (l.line (i :: p)) (do
      let d ← compile l (i :: p) e
      pure (.cat [lit "...", d]))
    let ds ← compileListElements l p (i + 1) es
    pure (.cat [.line, d] :: ds)
  | .single e :: es => do
    let d ← lineComment (l.line (i :: p)) (compile l (i :: p) e)
    let ds ← compileListElements l p (i + 1) es
    pure (.cat [.line, d] :: ds)

/-- `lib/format/src/lib.rs:786-801`. -/
def compileMapElements (l : Layout) (p : Path) (i : Nat) : List MapElement → F (List Doc)
  | [] => pure []
  | .multiple e :: es => do
    let d ← lineComment (l.line (i :: p)) (do
      let d ← compile l (i :: p) e
      pure (.cat [lit "...", d]))
    let ds ← compileMapElements l p (i + 1) es
    pure (.cat [.line, d] :: ds)
  | .entry k v :: es => do
    let d ← lineComment (l.line (i :: p)) (do
      let x ← compile l (0 :: i :: p) k
      let y ← compile l (1 :: i :: p) v
      pure (.cat [x, lit ": ", y]))
    let ds ← compileMapElements l p (i + 1) es
    pure (.cat [.line, d] :: ds)

/-- `lib/format/src/lib.rs:597-604`. -/
def compileRecord (l : Layout) (p : Path) : Option Expr → F (List Doc)
  | none => pure []
  | some e => do
    let d ← lineComment (l.line p) (do
      let d ← compile l p e
      pure (.cat [lit "...", d]))
    pure [d]

/-- `lib/format/src/lib.rs:605-613`. -/
def compileFields (l : Layout) (p : Path) (i : Nat) : List Field → F (List Doc)
  | [] => pure []
  | .mk x e :: fs => do
    let d ← lineComment (l.line (i :: p)) (do
      let d ← compile l (0 :: i :: p) e
      pure (.cat [.str x, lit ": ", d]))
    let ds ← compileFields l p (i + 1) fs
    pure (d :: ds)

/-- `lib/format/src/lib.rs:540-573`. -/
def compileCompBranches (l : Layout) (p : Path) (i : Nat) : List CompBranch → F (List Doc)
  | [] => pure []
  | .mk xs es c :: bs => do
    let d ← lineComment (l.line (i :: p)) (do
      let ds ← compileIteratees l (i :: p) 1 es
      let d ← compileCondition l (0 :: i :: p) c
      pure (.cat [lit "for ", .cat (Doc.intersperse (lit ", ") (xs.map .str)), lit " in ",
        .cat (Doc.intersperse (lit ", ") ds), d]))
    let ds ← compileCompBranches l p (i + 1) bs
    pure (d :: ds)

/-- `lib/format/src/lib.rs:556-564`. -/
def compileIteratees (l : Layout) (p : Path) (i : Nat) : List Expr → F (List Doc)
  | [] => pure []
  | e :: es => do
    let d ← compile l (i :: p) e
    let ds ← compileIteratees l p (i + 1) es
    pure (d :: ds)

/-- `lib/format/src/lib.rs:565-570`. -/
def compileCondition (l : Layout) (p : Path) : Option Expr → F Doc
  | none => pure .empty
  | some e => do
    let d ← compile l p e
    pure (.cat [lit " if ", d])

end

/-! ## Modules -/

/-- `lib/format/src/lib.rs:125-150` (`compile_module_path`, `compile_module_path_components`). -/
def pathDoc : ModulePath → Doc
  | .external p cs => .cat [.str p, lit "'", .cat (Doc.intersperse (lit "'") (cs.map .str))]
  | .internal cs => .cat [lit "'", .cat (Doc.intersperse (lit "'") (cs.map .str))]

/-- `lib/format/src/lib.rs:97-123` (`compile_import`). -/
def importDoc (l : Layout) (i : Import × Path) : F Doc := do
  let b ← blockComment (l.line i.2)
  pure (.cat [b, lit "import ", pathDoc i.1.path,
    (match i.1.alias? with
      | none => .empty
      | some a => .str (" as ".toList ++ a)),
    (if i.1.names.isEmpty then .empty
      else .cat [lit " { ",
        .cat (Doc.intersperse (lit ", ") ((i.1.names.mergeSort nameLe).map .str)), lit " }"]),
    .line])

/-- Nodes with their paths. -/
def numbered {α : Type} (p : Path) : Nat → List α → List (α × Path)
  | _, [] => []
  | i, a :: as => (a, i :: p) :: numbered p (i + 1) as

/-- Documents of nodes. -/
def mapDocs {α : Type} (f : α → F Doc) : List α → F (List Doc)
  | [] => pure []
  | a :: as => do
    let d ← f a
    let ds ← mapDocs f as
    pure (d :: ds)

/-- `lib/format/src/lib.rs:87-95` (`compile_imports`). -/
def importsDoc (l : Layout) (is : List (Import × Path)) : F Doc := do
  let ds ← mapDocs (importDoc l) (is.mergeSort fun i j => pathLe i.1.path j.1.path)
  pure (.cat ds)

/-- `lib/format/src/lib.rs:163-184` (`compile_foreign_import`). -/
def foreignImportDoc (l : Layout) (i : ForeignImport × Path) : F Doc := do
  let b ← blockComment (l.line i.2)
  pure (.cat [b, lit "import foreign",
    (match i.1.convention with
      | .c => lit " \"c\""
      | .native => .empty),
    lit " ", .str i.1.name, lit " ", typeDoc l (0 :: i.2) i.1.type, .line])

/-- The fields of a record definition: `lib/format/src/lib.rs:211-224`. -/
def fieldDocs (l : Layout) (p : Path) : Nat → List (Name × Ty) → F (List Doc)
  | _, [] => pure []
  | i, f :: fs => do
    let d ← lineComment (l.line (i :: p))
      (pure (.cat [.str f.1, lit " ", typeDoc l (0 :: i :: p) f.2]))
    let ds ← fieldDocs l p (i + 1) fs
    pure (.cat [.line, d] :: ds)

/-- `lib/format/src/lib.rs:186-248` (`compile_type_definition`, `compile_record_definition`,
`compile_type_alias`). -/
def typeDefinitionDoc (l : Layout) : TypeDefinition × Path → F Doc
  | (.record x fs, p) => do
    let b ← blockComment (l.line p)
    let ds ← fieldDocs l p 0 fs
    pure (.cat [b, lit "type ", .str x, lit " {",
      if fs.isEmpty then .empty else .cat [.indent (.cat ds), .line], lit "}", .line])
  | (.alias_ x t, p) => do
    let d := typeDoc l (0 :: p) t
    let b ← blockComment (l.line p)
    pure (.cat [b, lit "type ", .str x, lit " =",
      if d.isBroken then .indent (.cat [.line, d]) else .cat [lit " ", d], .line])

/-- `lib/format/src/lib.rs:250-274` (`compile_function_definition`). -/
def functionDoc (l : Layout) (d : FunctionDefinition × Path) : F Doc := do
  let b ← blockComment (l.line d.2)
  let e ← compile l (0 :: d.2) d.1.lambda.expression
  pure (.cat [b, (match d.1.export_ with
      | none => .empty
      | some .c => .cat [lit "foreign ", lit "\"c\" "]
      | some .native => .cat [lit "foreign ", .empty]),
    .str d.1.name, lit " = ", e, .line])

/-- The fold of `lib/format/src/lib.rs:71-84`: an empty line between sections. -/
def addSection (all document : Doc) : Doc :=
  if document.countLines true = 0 then all
  else .cat [if all.countLines true = 0 then .empty else .cat [all, .line], document]

/-- `lib/format/src/lib.rs:46-85` (`compile_module`). -/
def compileModule (l : Layout) (m : Module) : F Doc := do
  let is := numbered [0] 0 m.imports
  let a ← importsDoc l (is.filter fun i => i.1.isExternal)
  let b ← importsDoc l (is.filter fun i => !i.1.isExternal)
  let c ← mapDocs (foreignImportDoc l) (numbered [1] 0 m.foreignImports)
  let d ← mapDocs (typeDefinitionDoc l) (numbered [2] 0 m.types)
  let e ← mapDocs (functionDoc l) (numbered [3] 0 m.functions)
  let r ← remainingComment
  pure ([a, b, .cat c, .cat (Doc.intersperse .line d), .cat (Doc.intersperse .line e), r].foldl
    addSection .empty)

/-- `lib/format/src/lib.rs:16-21` (`format`). -/
def formatModule (l : Layout) (m : Module) (cs : List Comment) : List Char :=
  ((compileModule l m) cs).1.format

end Verif.Grammar
