import Verif.Grammar.Combinators
import Verif.Grammar.Chains

/-
Model of the parser of Pen modules.

Modelled code
* `lib/parse/src/parser.rs:34-55, 78-729, 825-940`

The nonterminals that the grammar is recursive in (expressions, operands and types) are given by a
record `G`; `grammar n` unfolds them `n` times.  Every recursive use comes after at least one
character is consumed, so that a number larger than the length of the input is enough.
-/

namespace Verif.Grammar

/-- The recursive nonterminals. -/
structure G where
  expression : Parser Expr
  operand : Parser Expr
  type : Parser Ty

/-! ## Types -/

/-- `lib/parse/src/parser.rs:330-339` (`reference_type`). -/
def referenceType : Parser Ty := do
  let x ← token qualifiedIdentifier
  pure (.reference x)

/-- `lib/parse/src/parser.rs:294-303` (`list_type`). -/
def listType (g : G) : Parser Ty := do
  sign "[".toList
  cut do
    let t ← g.type
    sign "]".toList
    pure (.list t)

/-- `lib/parse/src/parser.rs:305-318` (`map_type`). -/
def mapType (g : G) : Parser Ty := do
  sign "{".toList
  cut do
    let k ← g.type
    sign ":".toList
    let v ← g.type
    sign "}".toList
    pure (.map k v)

/-- `lib/parse/src/parser.rs:320-328` (`atomic_type`). -/
def atomicType (g : G) : Parser Ty :=
  alt [referenceType, listType g, mapType g,
    (do
      sign "(".toList
      cut do
        let t ← g.type
        sign ")".toList
        pure t)]

/-- `.reduce(|lhs, rhs| types::Union::new(…))`, `lib/parse/src/parser.rs:286-289`. -/
def reduceUnion : List Ty → Ty
  | [] => default
  | t :: ts => ts.foldl .union t

/-- `lib/parse/src/parser.rs:284-292` (`union_type`). -/
def unionType (g : G) : Parser Ty := do
  let ts ← separated1 (sign "|".toList) (atomicType g)
  pure (reduceUnion ts)

/-- `lib/parse/src/parser.rs:263-282` (`function_type`). -/
def functionType (g : G) : Parser Ty := do
  sign "\\(".toList
  cut do
    let ts ← list0 (sign ",".toList) g.type
    sign ")".toList
    let t ← g.type
    pure (.function ts t)

/-- `lib/parse/src/parser.rs:259-261` (`type_`). -/
def type (g : G) : Parser Ty := alt [functionType g, unionType g]

/-! ## Blocks -/

/-- `opt(terminated(identifier, sign("=")))`, `lib/parse/src/parser.rs:374`. -/
def binding : Parser (Option Name) := opt do
  let x ← identifier
  sign "=".toList
  pure x

/-- `lib/parse/src/parser.rs:370-379` (`statement`). -/
def statement (g : G) : Parser Statement := do
  let x ← binding
  let e ← g.expression
  pure (.mk x e)

/-- Has the last statement no name? `lib/parse/src/parser.rs:348-353`. -/
def endsWithExpression (ss : List Statement) : Bool :=
  match ss.getLast? with
  | some (.mk none _) => true
  | _ => false

/-- `lib/parse/src/parser.rs:358-364`. -/
def toBlock (ss : List Statement) : Block :=
  match ss.getLast? with
  | some (.mk _ e) => .mk ss.dropLast e
  | none => .mk [] default

/-- `lib/parse/src/parser.rs:341-368` (`block`). -/
def block (g : G) : Parser Block := do
  sign "{".toList
  cut do
    let ss ← verify (many1 (statement g)) endsWithExpression
    sign "}".toList
    pure (toBlock ss)

/-! ## Operations -/

/-- `lib/format/src/lib.rs:863-880` (`compile_binary_operator`) and the signs of
`lib/parse/src/parser.rs:398-417`. -/
def operatorText : BinOp → List Char
  | .or => "|".toList
  | .and => "&".toList
  | .equal => "==".toList
  | .notEqual => "!=".toList
  | .lessThan => "<".toList
  | .lessThanOrEqual => "<=".toList
  | .greaterThan => ">".toList
  | .greaterThanOrEqual => ">=".toList
  | .add => "+".toList
  | .subtract => "-".toList
  | .multiply => "*".toList
  | .divide => "/".toList

/-- `value(…, sign(…))`. -/
def operatorSign (o : BinOp) (t : List Char) : Parser BinOp := do
  sign t
  pure o

/-- `lib/parse/src/parser.rs:398-417` (`binary_operator`). -/
def binaryOperator : Parser BinOp := alt [
  operatorSign .add "+".toList,
  operatorSign .subtract "-".toList,
  operatorSign .multiply "*".toList,
  operatorSign .divide "/".toList,
  operatorSign .equal "==".toList,
  operatorSign .notEqual "!=".toList,
  operatorSign .lessThanOrEqual "<=".toList,
  operatorSign .lessThan "<".toList,
  operatorSign .greaterThanOrEqual ">=".toList,
  operatorSign .greaterThan ">".toList,
  operatorSign .and "&".toList,
  operatorSign .or "|".toList]

/-- `lib/parse/src/operations.rs:4-9` (`SuffixOperator`). -/
inductive Suffix where
  | call (arguments : List Expr)
  | field (name : Name)
  | try_

/-- The body of the fold in `lib/parse/src/parser.rs:447-458`. -/
def Suffix.apply (e : Expr) : Suffix → Expr
  | .call arguments => .call e arguments
  | .field name => .field e name
  | .try_ => .unary .try_ e

/-- `lib/parse/src/parser.rs:466-483` (`call_operator`): no space before the parenthesis. -/
def callOperator (g : G) : Parser Suffix := do
  tag "(".toList
  cut do
    let as ← list0 (sign ",".toList) g.expression
    sign ")".toList
    pure (.call as)

/-- `lib/parse/src/parser.rs:485-494` (`record_field_operator`). -/
def fieldOperator : Parser Suffix := do
  sign ".".toList
  let x ← cut identifier
  pure (.field x)

/-- `lib/parse/src/parser.rs:496-504` (`try_operator`). -/
def tryOperator : Parser Suffix := do
  sign "?".toList
  pure .try_

/-- `lib/parse/src/parser.rs:462-464` (`suffix_operator`). -/
def suffixOperator (g : G) : Parser Suffix := alt [callOperator g, fieldOperator, tryOperator]

/-! ## Atomic expressions -/

/-- `lib/parse/src/parser.rs:547-556` (`argument`). -/
def argument (g : G) : Parser (Name × Ty) := do
  let x ← identifier
  let t ← cut g.type
  pure (x, t)

/-- `lib/parse/src/parser.rs:525-545` (`lambda`). -/
def lambda (g : G) : Parser Lambda := do
  sign "\\(".toList
  cut do
    let as ← list0 (sign ",".toList) (argument g)
    sign ")".toList
    let t ← g.type
    let b ← block g
    pure ⟨as, t, b⟩

/-- `lib/parse/src/parser.rs:584-589` (`if_branch`). -/
def ifBranch (g : G) : Parser Branch := do
  let e ← g.expression
  let b ← block g
  pure (.mk e b)

/-- `preceded((keyword("else"), keyword("if")), cut(…))`. -/
def elseIf {α : Type} (p : Parser α) : Parser α := do
  keyword "else".toList
  keyword "if".toList
  cut p

/-- `lib/parse/src/parser.rs:558-582` (`if_`). -/
def ifExpression (g : G) : Parser Expr := do
  keyword "if".toList
  cut do
    let b ← ifBranch g
    let bs ← many0 (elseIf (ifBranch g))
    keyword "else".toList
    let e ← block g
    pure (.if_ (b :: bs) e)

/-- `lib/parse/src/parser.rs:591-618` (`if_list`). -/
def ifList (g : G) : Parser Expr := do
  keyword "if".toList
  sign "[".toList
  cut do
    let x ← identifier
    sign ",".toList
    sign "...".toList
    let y ← identifier
    sign "]".toList
    sign "=".toList
    let e ← g.expression
    let t ← block g
    keyword "else".toList
    let f ← block g
    pure (.ifList e x y t f)

/-- `lib/parse/src/parser.rs:620-639` (`if_map`). -/
def ifMap (g : G) : Parser Expr := do
  keyword "if".toList
  let x ← identifier
  sign "=".toList
  let m ← g.expression
  sign "[".toList
  cut do
    let k ← g.expression
    sign "]".toList
    let t ← block g
    keyword "else".toList
    let f ← block g
    pure (.ifMap x m k t f)

/-- `lib/parse/src/parser.rs:675-680` (`if_type_branch`). -/
def ifTypeBranch (g : G) : Parser TypeBranch := do
  let t ← g.type
  let b ← block g
  pure (.mk t b)

/-- `lib/parse/src/parser.rs:641-673` (`if_type`). -/
def ifType (g : G) : Parser Expr := do
  keyword "if".toList
  let x ← identifier
  sign "=".toList
  let e ← g.expression
  keyword "as".toList
  cut do
    let b ← ifTypeBranch g
    let bs ← many0 (elseIf (ifTypeBranch g))
    let f ← opt do
      keyword "else".toList
      block g
    pure (.ifType x e (b :: bs) f)

/-- `lib/parse/src/parser.rs:721-729` (`record_field`). -/
def recordField (g : G) : Parser Field := do
  let x ← identifier
  sign ":".toList
  let e ← cut g.expression
  pure (.mk x e)

/-- The name of a field. -/
def Field.name : Field → Name
  | .mk x _ => x

/-- Are all the names different?  `lib/parse/src/parser.rs:706-710`. -/
def distinct (fields : List Field) : Bool := decide (fields.map Field.name).Nodup

/-- `lib/parse/src/parser.rs:682-719` (`record`). -/
def record (g : G) : Parser Expr := do
  let x ← token qualifiedIdentifier
  sign "{".toList
  let r ← verify
    (orElse
      (do
        sign "...".toList
        cut do
          let e ← g.expression
          sign ",".toList
          let fs ← list1 (sign ",".toList) (recordField g)
          pure (some e, fs))
      (do
        let fs ← list0 (sign ",".toList) (recordField g)
        pure (none, fs)))
    (fun r => distinct r.2)
  sign "}".toList
  pure (.record x r.1 r.2)

/-- `lib/parse/src/parser.rs:844-853` (`list_element`). -/
def listElement (g : G) : Parser ListElement :=
  orElse
    (do
      sign "...".toList
      let e ← cut g.expression
      pure (.multiple e))
    (do
      let e ← g.expression
      pure (.single e))

/-- `lib/parse/src/parser.rs:825-842` (`list_literal`). -/
def listLiteral (g : G) : Parser Expr := do
  sign "[".toList
  cut do
    let t ← g.type
    let es ← list0 (sign ",".toList) (listElement g)
    sign "]".toList
    pure (.list t es)

/-- `lib/parse/src/parser.rs:875-895` (`list_comprehension_branch`). -/
def compBranch (g : G) : Parser CompBranch := do
  keyword "for".toList
  cut do
    let xs ← list1 (sign ",".toList) identifier
    keyword "in".toList
    let es ← list1 (sign ",".toList) g.expression
    let c ← opt do
      keyword "if".toList
      g.expression
    pure (.mk xs es c)

/-- `lib/parse/src/parser.rs:855-873` (`list_comprehension`). -/
def comprehension (g : G) : Parser Expr := do
  sign "[".toList
  let t ← g.type
  let e ← g.expression
  let bs ← many1 (compBranch g)
  sign "]".toList
  pure (.comprehension t e bs)

/-- `lib/parse/src/parser.rs:920-929` (`map_element`). -/
def mapElement (g : G) : Parser MapElement :=
  orElse
    (do
      let k ← g.expression
      sign ":".toList
      let v ← cut g.expression
      pure (.entry k v))
    (do
      sign "...".toList
      let e ← cut g.expression
      pure (.multiple e))

/-- `lib/parse/src/parser.rs:897-918` (`map_literal`). -/
def mapLiteral (g : G) : Parser Expr := do
  sign "{".toList
  cut do
    let k ← g.type
    sign ":".toList
    let v ← g.type
    let es ← list0 (sign ",".toList) (mapElement g)
    sign "}".toList
    pure (.map k v es)

/-- `lib/parse/src/parser.rs:931-940` (`variable`). -/
def variableExpression : Parser Expr := do
  let x ← token qualifiedIdentifier
  pure (.variable x)

/-- `delimited(sign("("), expression, sign(")"))`, `lib/parse/src/parser.rs:520`. -/
def parenthesized (g : G) : Parser Expr := do
  sign "(".toList
  let e ← g.expression
  sign ")".toList
  pure e

/-- `into(lambda)`. -/
def lambdaExpression (g : G) : Parser Expr := do
  let l ← lambda g
  pure l.expression

/-- `into(number_literal)`. -/
def numberExpression : Parser Expr := do
  let n ← number
  pure (.number n)

/-- `into(string_literal)`. -/
def stringExpression : Parser Expr := do
  let s ← stringLiteral
  pure (.string s)

/-- `lib/parse/src/parser.rs:506-523` (`atomic_expression`). -/
def atomic (g : G) : Parser Expr := alt [
  lambdaExpression g,
  ifType g,
  ifList g,
  ifMap g,
  ifExpression g,
  record g,
  comprehension g,
  listLiteral g,
  mapLiteral g,
  numberExpression,
  stringExpression,
  variableExpression,
  parenthesized g]

/-- `lib/parse/src/parser.rs:440-460` (`suffix_operation_like`). -/
def suffixLike (g : G) : Parser Expr := do
  let e ← atomic g
  let ss ← many0 (suffixOperator g)
  pure (ss.foldl Suffix.apply e)

/-- `lib/parse/src/parser.rs:423-438` (`prefix_operation`, `prefix_operator`). -/
def prefixOperation (g : G) : Parser Expr := do
  sign "!".toList
  let e ← cut g.operand
  pure (.unary .not e)

/-- `lib/parse/src/parser.rs:419-421` (`prefix_operation_like`). -/
def operand (g : G) : Parser Expr := orElse (prefixOperation g) (suffixLike g)

/-- `(position, binary_operator, cut(prefix_operation_like))`, `lib/parse/src/parser.rs:387-390`. -/
def operatorAndOperand (g : G) : Parser (BinOp × Expr) := do
  let o ← binaryOperator
  let e ← cut (operand g)
  pure (o, e)

/-- `lib/parse/src/parser.rs:381-396` (`expression`). -/
def expression (g : G) : Parser Expr := do
  let e ← operand g
  let ps ← many0 (operatorAndOperand g)
  pure (reduceOperations .binary e ps)

/-- The recursive nonterminals, unfolded this many times. -/
def grammar : Nat → G
  | 0 => ⟨fun _ => .fuel, fun _ => .fuel, fun _ => .fuel⟩
  | n + 1 => ⟨expression (grammar n), operand (grammar n), type (grammar n)⟩

/-! ## Modules -/

/-- `many1(preceded(tag(IDENTIFIER_SEPARATOR), component))`, `lib/parse/src/parser.rs:143-147`. -/
def pathComponents (component : Parser Name) : Parser (List Name) :=
  many1 do
    tag ['\'']
    component

/-- `lib/ast/src/analysis.rs:3-8` (`is_name_public`). -/
def isPublic (x : Name) : Bool := startsWith Char.isUpper x

/-- `lib/parse/src/parser.rs:110-155` (`module_path` and its parts). -/
def modulePath : Parser ModulePath := token (orElse
  (do
    let p ← identifier
    let cs ← cut (pathComponents (verify identifier isPublic))
    pure (.external p cs))
  (do
    let cs ← pathComponents identifier
    pure (.internal cs)))

/-- `lib/parse/src/parser.rs:78-108` (`import`, `unqualified_name`). -/
def import_ : Parser Import := do
  keyword "import".toList
  let p ← modulePath
  cut do
    let a ← opt do
      keyword "as".toList
      identifier
    let ns ← opt do
      sign "{".toList
      let ns ← list1 (sign ",".toList) identifier
      sign "}".toList
      pure ns
    pure ⟨p, a, ns.getD []⟩

/-- `lib/parse/src/parser.rs:180-189` (`calling_convention`). -/
def callingConvention : Parser CallingConvention := do
  let _ ← verify stringLiteral (fun s => s == ['c'])
  pure .c

/-- `lib/parse/src/parser.rs:157-178` (`foreign_import`). -/
def foreignImport (g : G) : Parser ForeignImport := do
  keyword "import".toList
  keyword "foreign".toList
  cut do
    let c ← opt callingConvention
    let x ← identifier
    let t ← g.type
    pure ⟨x, c.getD .native, t⟩

/-- `lib/parse/src/parser.rs:210-219` (`foreign_export`). -/
def foreignExport : Parser CallingConvention := do
  keyword "foreign".toList
  let c ← opt callingConvention
  pure (c.getD .native)

/-- `lib/parse/src/parser.rs:191-208` (`function_definition`). -/
def functionDefinition (g : G) : Parser FunctionDefinition := do
  let f ← opt foreignExport
  let x ← identifier
  sign "=".toList
  let l ← cut (lambda g)
  pure ⟨x, l, f⟩

/-- `lib/parse/src/parser.rs:238-246` (`record_field_definition`). -/
def fieldDefinition (g : G) : Parser (Name × Ty) := do
  let x ← identifier
  let t ← g.type
  pure (x, t)

/-- `lib/parse/src/parser.rs:221-236` (`record_definition`). -/
def recordDefinition (g : G) : Parser TypeDefinition := do
  keyword "type".toList
  let x ← identifier
  sign "{".toList
  cut do
    let fs ← many0 (fieldDefinition g)
    sign "}".toList
    pure (.record x fs)

/-- `lib/parse/src/parser.rs:248-257` (`type_alias`). -/
def typeAlias (g : G) : Parser TypeDefinition := do
  keyword "type".toList
  let x ← identifier
  sign "=".toList
  let t ← cut g.type
  pure (.alias_ x t)

/-- `lib/parse/src/parser.rs:34-55` (`module`), without `all_consuming`. -/
def module_ (g : G) : Parser Module := do
  let is ← many0 import_
  let fs ← many0 (foreignImport g)
  let ts ← many0 (orElse (typeAlias g) (recordDefinition g))
  let ds ← many0 (functionDefinition g)
  pure ⟨is, fs, ts, ds⟩

/-- `lib/parse/src/lib.rs:12-16` (`parse`): the module, or an error. -/
def parse (s : List Char) : Option Module :=
  match module_ (grammar (s.length + 1)) s with
  | .ok m r => if (blank r).isEmpty then some m else none
  | _ => none

end Verif.Grammar
