import Verif.Hir.Analysis
import Verif.Hir.Validators

/-!
# HIR expressions and modules

Model of `lib/hir/src/ir/*.rs`. Source positions are dropped throughout.
-/

namespace Verif.Hir

/-- `BuiltInFunctionName` (`lib/hir/src/ir/built_in_function.rs:9-21`). -/
inductive BuiltIn where
  | debug | delete | error | keys | race | reflectDebug | reflectEqual | size | source | spawn | values
  deriving Repr, DecidableEq

/-- `ArithmeticOperator` (`lib/hir/src/ir/arithmetic_operation.rs`). -/
inductive ArithOp where | subtract | multiply | divide
  deriving Repr, DecidableEq

/-- `BooleanOperator` (`lib/hir/src/ir/boolean_operation.rs`). -/
inductive BoolOp where | and | or
  deriving Repr, DecidableEq

/-- `EqualityOperator` (`lib/hir/src/ir/equality_operation.rs`). -/
inductive EqOp where | equal | notEqual
  deriving Repr, DecidableEq

/-- `OrderOperator` (`lib/hir/src/ir/order_operation.rs`). -/
inductive OrderOp where | lessThan | lessThanOrEqual | greaterThan | greaterThanOrEqual
  deriving Repr, DecidableEq

/-- `ListElement` (`lib/hir/src/ir/list_element.rs`). -/
inductive ListElem (α : Type) where
  | single (a : α)
  | multiple (a : α)

/-- `MapElement` and `MapEntry` (`lib/hir/src/ir/map_element.rs`, `map_entry.rs`). -/
inductive MapElem (α : Type) where
  | single (key value : α)
  | multiple (a : α)

/-- `ListComprehensionBranch` and `ListComprehensionIteratee`
(`lib/hir/src/ir/list_comprehension_branch.rs`, `list_comprehension_iteratee.rs`). -/
structure Branch (α : Type) where
  names : List String
  iteratees : List (Option Ty × α)
  condition : Option α

/-- `Expression` (`lib/hir/src/ir/expression.rs:10-31`) with `Operation` (`operation.rs`) inlined.

Simplifications:
* a call whose function is a built-in function is the separate constructor `builtInCall`: all passes treat
  it separately (`type_checker.rs:101`, `type_inferrer.rs:74`, `hir-mir/src/expression.rs:33`);
* a comprehension has a first branch and further ones: the parser makes at least one, and
  `hir-mir/src/list_comprehension.rs:15` indexes it without a check;
* `Thunk` is left out: it is made only after the analyses modelled here, by
  `hir-mir/src/transformation/list_literal.rs`;
* numbers are the bit patterns of 64-bit floats; nothing here depends on their arithmetic. -/
inductive Expr where
  | boolean (b : Bool)
  | none
  | number (n : UInt64)
  | string (bytes : List UInt8)
  | variable (x : String)
  | builtIn (f : BuiltIn)
  | call (type : Option Ty) (f : Expr) (args : List Expr)
  | builtInCall (type : Option Ty) (f : BuiltIn) (args : List Expr)
  | if_ (cond then_ else_ : Expr)
  | ifList (type : Option Ty) (list : Expr) (first rest : String) (then_ else_ : Expr)
  | ifMap (key value : Option Ty) (name : String) (map k then_ else_ : Expr)
  | ifType (name : String) (arg : Expr) (branches : List (Ty × Expr)) (else_ : Option (Option Ty × Expr))
  | lambda (params : List (String × Ty)) (result : Ty) (body : Expr)
  | let_ (name : Option String) (type : Option Ty) (bound body : Expr)
  | list (type : Ty) (elems : List (ListElem Expr))
  | comprehension (type : Ty) (elem : Expr) (branch : Branch Expr) (branches : List (Branch Expr))
  | map (key value : Ty) (elems : List (MapElem Expr))
  | addition (type : Option Ty) (lhs rhs : Expr)
  | arithmetic (op : ArithOp) (lhs rhs : Expr)
  | booleanOp (op : BoolOp) (lhs rhs : Expr)
  | equality (type : Option Ty) (op : EqOp) (lhs rhs : Expr)
  | not (e : Expr)
  | order (op : OrderOp) (lhs rhs : Expr)
  | try_ (type : Option Ty) (e : Expr)
  | record (type : Ty) (fields : List (String × Expr))
  | deconstruct (type : Option Ty) (record : Expr) (field : String)
  | update (type : Ty) (record : Expr) (fields : List (String × Expr))
  | coercion (src dst : Ty) (e : Expr)

/-- `FunctionDefinition` (`lib/hir/src/ir/function_definition.rs`) with its `Lambda`. -/
structure Definition where
  name : String
  params : List (String × Ty)
  result : Ty
  body : Expr

/-- `Module` (`lib/hir/src/ir/module.rs:8-15`). Function declarations (imports) and foreign declarations
are both `declarations`: the analyses look only at their names and their (function) types. Every type
definition and alias counts as visible. -/
structure Module where
  types : TypeModule
  declarations : List (String × (List Ty × Ty))
  definitions : List Definition

/-- Type environments, `plist::FlailMap<String, Type>`. -/
abbrev Vars := String → Option Ty

/-- `FlailMap::insert`. -/
def Vars.insert (Γ : Vars) (x : String) (t : Ty) : Vars := fun y => if y = x then some t else Γ y

/-- `FlailMap::insert_iter`: later entries hide earlier ones. -/
def Vars.insertAll (Γ : Vars) : List (String × Ty) → Vars
  | [] => Γ
  | (x, t) :: xs => (Γ.insert x t).insertAll xs

/-- `AnalysisContext` (`lib/hir/src/analysis/context.rs`). -/
structure Ctx where
  types : Aliases
  records : Records

/-- `type_collector::collect` and `collect_record_fields` (`lib/hir/src/analysis/type_collector.rs:7-43`) as
`hir-mir/src/context.rs` calls them. -/
def Module.ctx (m : Module) : Ctx := ⟨collectAliases m.types, collectRecords m.types⟩

/-- `type_extractor::extract_from_lambda` (`lib/hir/src/analysis/type_extractor.rs:199-209`). -/
def lambdaType (params : List (String × Ty)) (result : Ty) : Ty := .function (params.map (·.2)) result

/-- `module_environment::create` (`lib/hir/src/analysis/module_environment.rs:6-32`). -/
def Module.vars (m : Module) : Vars :=
  lastLookup ((m.declarations.map fun d => (d.1, Ty.function d.2.1 d.2.2))
    ++ m.definitions.map fun d => (d.name, lambdaType d.params d.result))

end Verif.Hir
