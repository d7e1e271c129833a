/-
The mid-level intermediate representation: `/repo/lib/mir/src/ir`.

* Types matter at run time only as tags of variants; they are represented by their ids
  (`/repo/lib/mir/src/analysis/type_id.rs`). Types of variables and functions are left out.
* Strict operations, which evaluate their operands from left to right and then do something, are one constructor `op`
  with the kind of the operation in `Op`.
* A default alternative is an alternative without types; it can only be the last one.
-/
namespace Verif.Mir

abbrev Name := String
abbrev TypeId := String

/-- `ArithmeticOperator`: ir/arithmetic_operator.rs. -/
inductive ArithmeticOperator
  | add | subtract | multiply | divide
  deriving DecidableEq

/-- `ComparisonOperator`: ir/comparison_operator.rs. -/
inductive ComparisonOperator
  | equal | notEqual | greaterThan | greaterThanOrEqual | lessThan | lessThanOrEqual
  deriving DecidableEq

/-- Literals: `Expression::{None, Boolean, Number, ByteString}` (ir/expression.rs:12-29). Numbers are bit patterns of
64-bit floating-point numbers. -/
inductive Literal
  | none
  | boolean (b : Bool)
  | number (n : UInt64)
  | string (s : List UInt8)
  deriving DecidableEq

/-- Strict operations. -/
inductive Op
  /-- `ArithmeticOperation` -/
  | arithmetic (o : ArithmeticOperator)
  /-- `ComparisonOperation` -/
  | comparison (o : ComparisonOperator)
  /-- `Call`: the function, then the arguments -/
  | call
  /-- `Record` -/
  | record (type : TypeId)
  /-- `RecordField` -/
  | field (index : Nat)
  /-- `RecordUpdate`: the record, then the new values of the fields with these indices -/
  | update (indices : List Nat)
  /-- `StringConcatenation` -/
  | concatenation
  /-- `Synchronize` -/
  | synchronize
  /-- `TypeInformationFunction` -/
  | typeInformation
  /-- `Variant` -/
  | variant (type : TypeId)
  deriving DecidableEq

mutual
/-- `Expression`: ir/expression.rs:11-34. -/
inductive Expr
  | literal (l : Literal)
  | variable (x : Name)
  | op (o : Op) (es : Exprs)
  /-- `Case` -/
  | case (e : Expr) (as : Alts)
  /-- `If` -/
  | if_ (c t e : Expr)
  /-- `Let` -/
  | let_ (x : Name) (e : Expr) (b : Expr)
  /-- `LetRecursive` with its `FunctionDefinition` (ir/function_definition.rs:6-20) -/
  | letRec (f : Name) (env : List Name) (args : List Name) (thunk : Bool) (body : Expr) (b : Expr)
  /-- `TryOperation` -/
  | try_ (e : Expr) (x : Name) (type : TypeId) (then_ : Expr)
  /-- `CloneVariables` -/
  | clone (xs : List Name) (e : Expr)
  /-- `DropVariables` -/
  | drop (xs : List Name) (e : Expr)
/-- Operands. -/
inductive Exprs
  | nil
  | cons (e : Expr) (es : Exprs)
/-- `Alternative`s and `DefaultAlternative`: ir/alternative.rs, ir/default_alternative.rs. -/
inductive Alts
  | nil
  | cons (types : Option (List TypeId)) (x : Name) (e : Expr) (as : Alts)
end

/-- `GlobalFunctionDefinition`: ir/global_function_definition.rs. -/
structure Global where
  name : Name
  args : List Name
  thunk : Bool
  body : Expr

/-- `Module`: ir/module.rs: declared foreign functions, and defined functions. Type information maps type ids to global
functions (ir/type_information.rs). Functions of other modules are foreign functions here. -/
structure Program where
  foreign : List Name
  globals : List Global
  typeInformation : TypeId → Name

def Program.find (p : Program) (g : Name) : Option Global := p.globals.find? (·.name == g)

/-- Whether a name is a global one. -/
def Program.isGlobal (p : Program) (x : Name) : Bool := p.foreign.contains x || (p.find x).isSome

def Exprs.toList : Exprs → List Expr
  | .nil => []
  | .cons e es => e :: es.toList

def Exprs.ofList : List Expr → Exprs
  | [] => .nil
  | e :: es => .cons e (.ofList es)

end Verif.Mir
