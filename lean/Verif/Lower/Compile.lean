import Verif.Hir.Evaluation
import Verif.Mir.Semantics

/-!
# Lowering of HIR to MIR

Model of `lib/hir-mir/src/expression.rs`, `type_.rs`, `concrete_type.rs`, `error_type.rs`, `module.rs` and of
`error` and `source` in `built_in_call.rs`. `none` is an error of the compiler, one of its `unwrap()`s and
`unreachable!()`s, or one of the constructs left out: lists, maps, the other built-in functions, and comparison of
values other than numbers and strings, which the compiler first expresses by calls of functions of the prelude, of the
runtime and of generated functions.

MIR keeps of types only their ids, so that types of variables and functions, which the Rust code computes and can fail
to, are left out.
-/

namespace Verif.Lower

open Verif.Hir (Ty Ctx Expr Module Definition RecordField)
open Verif

/-- What lowering depends on: `DefaultHasher` formatted as hexadecimal digits
(`lib/hir/src/analysis/type_id_calculator.rs:9-17`, `lib/mir/src/analysis/type_id.rs:7-13`), and the name of the
function that compares strings (`CompileConfiguration`, `lib/hir-mir/src/string_type_configuration.rs`). -/
structure Config where
  hash : String → String
  stringEqual : String

section
variable (K : Config)

/-- `type_id_calculator::calculate` of a canonical type (`lib/hir/src/analysis/type_id_calculator.rs:9-17`). -/
def hirTypeId (t : Ty) : String := K.hash (String.ofList (Hir.typeIdString t))

/-- The string of the MIR type of a type that is not `any` or a union: `compile_concrete`
(`lib/hir-mir/src/type_.rs:31-46`, `:64-85`, `:93-110`, `:124-142`) and `calculate_string`
(`lib/mir/src/analysis/type_id.rs:15-36`). -/
def typeName : Ty → String
  | .boolean => "boolean"
  | .none => "none"
  | .number => "number"
  | .string => "string"
  | .error => "hir:error"
  | .record n => n
  | .function as r => "hir:function:" ++ hirTypeId K (.function as r)
  | .list e => "hir:list:" ++ hirTypeId K e
  | .map k v => "hir:map:" ++ hirTypeId K k ++ ":" ++ hirTypeId K v
  | .any => "variant"
  | .union _ _ => "variant"
  | .reference _ => ""

/-- The id of the MIR type: `mir::analysis::type_id::calculate` (`lib/mir/src/analysis/type_id.rs:7-13`). -/
def typeId (t : Ty) : Mir.TypeId := K.hash (typeName K t)

/-- Types whose values are boxed in a record of their own in variants: `concrete_type::compile`
(`lib/hir-mir/src/concrete_type.rs:4-37`). -/
def boxed : Ty → Bool
  | .function _ _ => true
  | .list _ => true
  | .map _ _ => true
  | _ => false

/-- Operands. -/
def operands (es : List Mir.Expr) : Mir.Exprs := .ofList es

/-- Results of the analyses, which do not matter if they are errors. -/
def ok? {α : Type} : Res Hir.Err α → Option α
  | .ok a => some a
  | _ => none

/-- `compile_alternative` (`lib/hir-mir/src/expression.rs:290-348`) for the canonical type and the compiled
expression. `compile_concrete` does not expect `any` (`lib/hir-mir/src/type_.rs:43`). -/
def compileAlternative (x : String) (c : Ty) (e : Mir.Expr) : Option (List Mir.TypeId × Mir.Expr) :=
  if boxed c then some ([typeId K c], .let_ x (.op (.field 0) (.cons (.variable x) .nil)) e)
  else if .any ∈ Hir.unionMembers c then none
  else some ((Hir.btreeSet (Hir.unionMembers c)).map (typeId K), e)

/-- `error_type::compile_error` (`lib/hir-mir/src/error_type.rs:10-32`). -/
def compileError (e : Mir.Expr) : Mir.Expr :=
  .let_ "$source" e (.case (.variable "$source")
    (.cons (some [typeId K .error]) "$source" (.variable "$source")
      (.cons none "$source" (.op (.record (typeId K .error)) (.cons (.variable "$source") .nil)) .nil)))

/-- `TypeCoercion` in `compile` (`lib/hir-mir/src/expression.rs:214-258`) for canonical types. -/
def compileCoercion (c d : Ty) (e : Mir.Expr) : Option Mir.Expr :=
  match c, d with
  | .any, _ => some e
  | .union _ _, _ => some e
  | .list _, .list _ => some e
  | .map _ _, .map _ _ => some e
  | .reference _, _ => none
  | c, _ => some (.op (.variant (typeId K c))
      (.cons (if boxed c then .op (.record (typeId K c)) (.cons e .nil) else e) .nil))

/-- `ArithmeticOperator`: `lib/hir-mir/src/expression.rs:376-381`. -/
def arithmeticOperator : Hir.ArithOp → Mir.ArithmeticOperator
  | .subtract => .subtract
  | .multiply => .multiply
  | .divide => .divide

/-- `OrderOperator`: `lib/hir-mir/src/expression.rs:420-428`. -/
def orderOperator : Hir.OrderOp → Mir.ComparisonOperator
  | .lessThan => .lessThan
  | .lessThanOrEqual => .lessThanOrEqual
  | .greaterThan => .greaterThan
  | .greaterThanOrEqual => .greaterThanOrEqual

/-- The name of the variable for a record field: `lib/hir-mir/src/expression.rs:475`. -/
def fieldVariable (x : String) : String := "$" ++ x

/-- `compile_record_fields` (`lib/hir-mir/src/expression.rs:464-506`), with the compiled values of the fields: the
values are bound in the order of the source. -/
def compileRecordFields (fields : List (String × Mir.Expr)) (body : Mir.Expr) : Mir.Expr :=
  match fields with
  | [] => body
  | (x, e) :: fs => .let_ (fieldVariable x) e (compileRecordFields fs body)

/-- Position of the field in the record type: `lib/hir-mir/src/expression.rs:157-165`, `:180-188`. -/
def fieldIndex (ts : List RecordField) (x : String) : Option Nat := ts.findIdx? (fun t => t.name == x)

/-- A compiler for subexpressions. -/
abbrev Compiler := Expr → Option Mir.Expr

/-- Field values. -/
def compileFields (rec : Compiler) (fields : List (String × Expr)) : Option (List (String × Mir.Expr)) :=
  fields.mapM fun f => (rec f.2).map fun e => (f.1, e)

variable (a : Nat) (C : Ctx)

/-- Alternatives of a type branch: `lib/hir-mir/src/expression.rs:66-109`. -/
def compileAlternatives (rec : Compiler) (x : String) : List (Ty × Expr) → Option (Option Ty × Expr) → Option Mir.Alts
  | (t, e) :: bs, else_ => do
    let c ← ok? (Hir.canonicalize a C.types t)
    let e ← rec e
    let alt ← compileAlternative K x c e
    let alts ← compileAlternatives rec x bs else_
    some (.cons (some alt.1) x alt.2 alts)
  | [], some (some t, e) => do
    let c ← ok? (Hir.canonicalize a C.types t)
    let e ← rec e
    if c = .any then some (.cons none x e .nil)
    else do
      let alt ← compileAlternative K x c e
      some (.cons (some alt.1) x alt.2 .nil)
  | [], some (none, _) => none
  | [], none => some .nil

/-- `compile_operation` for equality (`lib/hir-mir/src/expression.rs:388-414`). -/
def compileEquality (rec : Compiler) (t : Ty) (lhs rhs : Expr) : Option Mir.Expr := do
  match ← ok? (Hir.canonicalize a C.types t) with
  | .number => do
    let l ← rec lhs
    let r ← rec rhs
    some (.op (.comparison .equal) (.cons l (.cons r .nil)))
  | .string => do
    let l ← rec lhs
    let r ← rec rhs
    some (.op .call (.cons (.variable K.stringEqual) (.cons l (.cons r .nil))))
  | _ => none

/-- `compile` (`lib/hir-mir/src/expression.rs:21-261`) and `compile_operation` (`:350-462`), given how subexpressions
are compiled. -/
def compileStep (rec : Compiler) : Expr → Option Mir.Expr
  | .boolean b => some (.literal (.boolean b))
  | .none => some (.literal .none)
  | .number n => some (.literal (.number n))
  | .string s => some (.literal (.string s))
  | .variable x => some (.variable x)
  | .call (some t) f args => do
    let _ ← ok? (Hir.expectFunction a C.types t)
    let f ← rec f
    let args ← args.mapM rec
    some (.op .call (.cons f (operands args)))
  | .builtInCall (some t) .error [e] => do
    let _ ← ok? (Hir.expectFunction a C.types t)
    let e ← rec e
    some (compileError K e)
  | .builtInCall (some t) .source [e] => do
    let _ ← ok? (Hir.expectFunction a C.types t)
    let e ← rec e
    some (.op (.field 0) (.cons e .nil))
  | .if_ c t e => do
    let c ← rec c
    let t ← rec t
    let e ← rec e
    some (.if_ c t e)
  | .ifType x e branches else_ => do
    let e ← rec e
    let alts ← compileAlternatives K a C rec x branches else_
    some (.case e alts)
  | .lambda params _ body => do
    let body ← rec body
    some (.letRec "$closure" [] (params.map (·.1)) false body (.variable "$closure"))
  | .let_ x (some _) e b => do
    let e ← rec e
    let b ← rec b
    some (.let_ (x.getD "") e b)
  | .addition (some .number) l r => do
    let l ← rec l
    let r ← rec r
    some (.op (.arithmetic .add) (.cons l (.cons r .nil)))
  | .addition (some .string) l r => do
    let l ← rec l
    let r ← rec r
    some (.op .concatenation (.cons l (.cons r .nil)))
  | .arithmetic op l r => do
    let l ← rec l
    let r ← rec r
    some (.op (.arithmetic (arithmeticOperator op)) (.cons l (.cons r .nil)))
  | .booleanOp .and l r => do -- `transformation/boolean_operation.rs:3-24`
    let l ← rec l
    let r ← rec r
    some (.if_ l r (.literal (.boolean false)))
  | .booleanOp .or l r => do
    let l ← rec l
    let r ← rec r
    some (.if_ l (.literal (.boolean true)) r)
  | .equality (some t) .equal l r => compileEquality K a C rec t l r
  | .equality (some t) .notEqual l r => do -- `transformation/not_equal_operation.rs:3-23`
    let e ← compileEquality K a C rec t l r
    some (.if_ e (.literal (.boolean false)) (.literal (.boolean true)))
  | .not e => do
    let e ← rec e
    some (.if_ e (.literal (.boolean false)) (.literal (.boolean true)))
  | .order op l r => do
    let l ← rec l
    let r ← rec r
    some (.op (.comparison (orderOperator op)) (.cons l (.cons r .nil)))
  | .try_ (some t) e => do
    let e ← rec e
    let c ← ok? (Hir.canonicalize a C.types t)
    let alt ← compileAlternative K "$success" c (.variable "$success")
    some (.case
      (.try_ e "$error" (typeId K .error) (.op (.variant (typeId K .error)) (.cons (.variable "$error") .nil)))
      (.cons (some alt.1) "$success" alt.2 .nil))
  | .record t fields => do
    let ts ← ok? (Hir.resolveFields a C t)
    let c ← ok? (Hir.canonicalize a C.types t)
    let es ← compileFields rec fields
    if fields.all (fun f => ts.any (fun t => t.name == f.1)) && ts.all (fun t => fields.any (fun f => f.1 == t.name)) then
      some (compileRecordFields es
        (.op (.record (typeId K c)) (operands (ts.map fun t => .variable (fieldVariable t.name)))))
    else none
  | .deconstruct (some t) e x => do
    let ts ← ok? (Hir.resolveFields a C t)
    let i ← fieldIndex ts x
    let e ← rec e
    some (.op (.field i) (.cons e .nil))
  | .update t e fields => do
    let ts ← ok? (Hir.resolveFields a C t)
    let e ← rec e
    let is ← fields.mapM fun f => fieldIndex ts f.1
    let es ← fields.mapM fun f => rec f.2
    some (.op (.update is) (.cons e (operands es)))
  | .coercion src dst e => do
    let c ← ok? (Hir.canonicalize a C.types src)
    let d ← ok? (Hir.canonicalize a C.types dst)
    let e ← rec e
    compileCoercion K c d e
  | _ => none

/-- `compile` (`lib/hir-mir/src/expression.rs:21-261`); the number bounds the depth of the expression. -/
def compile : Nat → Expr → Option Mir.Expr
  | 0, _ => none
  | d + 1, e => compileStep K a C (compile d) e

/-- `compile_function_definition` (`lib/hir-mir/src/module.rs:120-150`). -/
def compileDefinition (d : Nat) (x : Definition) : Option Mir.Global :=
  (compile K a C d x.body).map fun body => ⟨x.name, x.params.map (·.1), x.params.isEmpty, body⟩

/-- `module::compile` (`lib/hir-mir/src/module.rs:5-78`) without type definitions and type information. -/
def compileModule (d : Nat) (m : Module) : Option Mir.Program := do
  let globals ← m.definitions.mapM (compileDefinition K a m.ctx d)
  some ⟨m.declarations.map (·.1), globals, fun _ => ""⟩

end

end Verif.Lower
