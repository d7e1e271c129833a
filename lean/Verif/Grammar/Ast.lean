import Verif.Parse.Operations

/-
Model of the syntax tree of Pen modules.

Modelled code
* `lib/ast/src/ast/*.rs`, `lib/ast/src/types/*.rs`

Positions are dropped: the parser records them, and the formatter uses them only for choosing
white space (see `Printer.lean`).  Names and texts are lists of characters.
-/

namespace Verif.Grammar

export Verif.Parse (BinOp)

/-- Identifiers, qualified identifiers and texts of literals. -/
abbrev Name := List Char

/-- `lib/ast/src/types/type_.rs` (`Type`).  `Type::Record` is left out: the parser never makes it. -/
inductive Ty where
  | function (arguments : List Ty) (result : Ty)
  | list (element : Ty)
  | map (key value : Ty)
  | reference (name : Name)
  | union (lhs rhs : Ty)
deriving Repr

/-- `lib/ast/src/ast/number_representation.rs` (`NumberRepresentation`). -/
inductive Number where
  | binary (digits : List Char)
  | hexadecimal (digits : List Char)
  | floatingPoint (text : List Char)
deriving DecidableEq, Repr

/-- `lib/ast/src/ast/unary_operator.rs` (`UnaryOperator`). -/
inductive UnOp where
  | not
  | try_
deriving DecidableEq, Repr

mutual

/-- `lib/ast/src/ast/expression.rs` (`Expression`). -/
inductive Expr where
  | binary (operator : BinOp) (lhs rhs : Expr)
  | call (function : Expr) (arguments : List Expr)
  | if_ (branches : List Branch) (else_ : Block)
  | ifList (list : Expr) (first rest : Name) (then_ else_ : Block)
  | ifMap (name : Name) (map key : Expr) (then_ else_ : Block)
  | ifType (name : Name) (argument : Expr) (branches : List TypeBranch) (else_ : Option Block)
  | lambda (arguments : List (Name × Ty)) (result : Ty) (body : Block)
  | list (type : Ty) (elements : List ListElement)
  | comprehension (type : Ty) (element : Expr) (branches : List CompBranch)
  | map (key value : Ty) (elements : List MapElement)
  | number (value : Number)
  | record (type : Name) (record : Option Expr) (fields : List Field)
  | field (record : Expr) (name : Name)
  | string (value : List Char)
  | unary (operator : UnOp) (operand : Expr)
  | variable (name : Name)

/-- `lib/ast/src/ast/if_branch.rs` (`IfBranch`). -/
inductive Branch where
  | mk (condition : Expr) (block : Block)

/-- `lib/ast/src/ast/if_type_branch.rs` (`IfTypeBranch`). -/
inductive TypeBranch where
  | mk (type : Ty) (block : Block)

/-- `lib/ast/src/ast/block.rs` (`Block`). -/
inductive Block where
  | mk (statements : List Statement) (expression : Expr)

/-- `lib/ast/src/ast/statement.rs` (`Statement`). -/
inductive Statement where
  | mk (name : Option Name) (expression : Expr)

/-- `lib/ast/src/ast/list_element.rs` (`ListElement`). -/
inductive ListElement where
  | multiple (expression : Expr)
  | single (expression : Expr)

/-- `lib/ast/src/ast/map_element.rs`, `map_entry.rs` (`MapElement`, `MapEntry`). -/
inductive MapElement where
  | multiple (expression : Expr)
  | entry (key value : Expr)

/-- `lib/ast/src/ast/record_field.rs` (`RecordField`). -/
inductive Field where
  | mk (name : Name) (expression : Expr)

/-- `lib/ast/src/ast/list_comprehension_branch.rs` (`ListComprehensionBranch`). -/
inductive CompBranch where
  | mk (names : List Name) (iteratees : List Expr) (condition : Option Expr)

end

instance : Inhabited Expr := ⟨.variable []⟩
instance : Inhabited Ty := ⟨.reference []⟩

/-- `lib/ast/src/ast/lambda.rs` (`Lambda`). -/
structure Lambda where
  arguments : List (Name × Ty)
  result : Ty
  body : Block

/-- `From<Lambda> for Expression`, `lib/ast/src/ast/expression.rs`. -/
def Lambda.expression (l : Lambda) : Expr := .lambda l.arguments l.result l.body

/-- `lib/ast/src/ast/module_path.rs` (`ModulePath`). -/
inductive ModulePath where
  | external (package : Name) (components : List Name)
  | internal (components : List Name)
deriving DecidableEq, Repr

/-- `lib/ast/src/ast/import.rs` (`Import`). -/
structure Import where
  path : ModulePath
  alias? : Option Name
  names : List Name
deriving DecidableEq, Repr

/-- `lib/ast/src/ast/calling_convention.rs` (`CallingConvention`). -/
inductive CallingConvention where
  | c
  | native
deriving DecidableEq, Repr

/-- `lib/ast/src/ast/foreign_import.rs` (`ForeignImport`). -/
structure ForeignImport where
  name : Name
  convention : CallingConvention
  type : Ty

/-- `lib/ast/src/ast/type_definition.rs`, `record_definition.rs`, `type_alias.rs`. -/
inductive TypeDefinition where
  | record (name : Name) (fields : List (Name × Ty))
  | alias_ (name : Name) (type : Ty)

/-- `lib/ast/src/ast/function_definition.rs`, `foreign_export.rs`. -/
structure FunctionDefinition where
  name : Name
  lambda : Lambda
  export_ : Option CallingConvention

/-- `lib/ast/src/ast/module.rs` (`Module`). -/
structure Module where
  imports : List Import
  foreignImports : List ForeignImport
  types : List TypeDefinition
  functions : List FunctionDefinition

end Verif.Grammar
