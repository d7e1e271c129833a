import Verif.Lower.Information
import Verif.Mir.TypeIds

/-!
# Lowering with types

Model of `lib/hir-mir/src/expression.rs`, `type_.rs`, `concrete_type.rs` and `error_type.rs` as in `Verif.Lower.Compile`, but
with the types the MIR terms have. `none` is as there; in addition types that are not found.
-/

namespace Verif.Lower

open Verif.Hir (Ty Ctx Expr Module Definition RecordField)
open Verif.Mir.Typed (TExpr TExprs TAlts TOp TDefinition TDeclaration TModule)
open Verif

/-- What lowering of types depends on: names of the record types for lists and maps
(`lib/hir-mir/src/list_type_configuration.rs`, `map_type_configuration.rs`). -/
structure TypedConfig extends Config where
  listType : String
  mapType : String

section
variable (K : TypedConfig)

mutual
/-- `type_::compile` of a canonical type (`lib/hir-mir/src/type_.rs:9-25`, `:48-62`). The Rust code canonicalizes arguments and
results of functions again, which does nothing. -/
def lowerType : Ty → Mir.Typed.Ty
  | .boolean => .boolean
  | .error => .record "hir:error"
  | .function as r => .function (lowerTypeList as) (lowerType r)
  | .list _ => .record K.listType
  | .map _ _ => .record K.mapType
  | .none => .none
  | .number => .number
  | .record n => .record n
  | .string => .byteString
  | .any => .variant
  | .union _ _ => .variant
  | .reference _ => .variant
def lowerTypeList : List Ty → List Mir.Typed.Ty
  | [] => []
  | t :: ts => lowerType t :: lowerTypeList ts
end

/-- `compile_concrete` of a canonical type that is not `any` or a union (`lib/hir-mir/src/type_.rs:31-46`). -/
def concreteType (c : Ty) : Mir.Typed.Ty := if boxed c then .record (typeName K.toConfig c) else lowerType K c

/-- Ids of types: `mir::analysis::type_id::calculate` (`lib/mir/src/analysis/type_id.rs:7-13`). -/
def tagId (τ : Mir.Typed.Ty) : Mir.TypeId := K.hash (String.ofList τ.chars)

def operandsT : List TExpr → TExprs
  | [] => .nil
  | e :: es => .cons e (operandsT es)

/-- `compile_alternative`, as in `compileAlternative`. -/
def compileAlternativeT (x : String) (c : Ty) (e : TExpr) : Option (List Mir.Typed.Ty × TExpr) :=
  if boxed c then
    some ([concreteType K c],
      .let_ x (lowerType K c) (.op (.field (typeName K.toConfig c) 0) (.cons (.variable x) .nil)) e)
  else if .any ∈ Hir.unionMembers c then none
  else some ((Hir.btreeSet (Hir.unionMembers c)).map (concreteType K), e)

/-- `error_type::compile_error` (`lib/hir-mir/src/error_type.rs:10-32`). -/
def compileErrorT (e : TExpr) : TExpr :=
  .let_ "$source" .variant e (.case (.variable "$source")
    (.cons [.record "hir:error"] "$source" (.variable "$source")
      (.default "$source" (.op (.record "hir:error") (.cons (.variable "$source") .nil)))))

/-- `concrete_type::compile` (`lib/hir-mir/src/concrete_type.rs:4-37`). -/
def boxT (c : Ty) (e : TExpr) : TExpr :=
  if boxed c then .op (.record (typeName K.toConfig c)) (.cons e .nil) else e

/-- `TypeCoercion` in `compile`, as in `compileCoercion`. -/
def compileCoercionT (c d : Ty) (e : TExpr) : Option TExpr :=
  match c, d with
  | .any, _ => some e
  | .union _ _, _ => some e
  | .list _, .list _ => some e
  | .map _ _, .map _ _ => some e
  | .reference _, _ => none
  | c, _ => some (.op (.variant (concreteType K c)) (.cons (boxT K c e) .nil))

/-- `compile_record_fields`, as in `compileRecordFields`. -/
def compileRecordFieldsT (fields : List (String × Mir.Typed.Ty × TExpr)) (body : TExpr) : TExpr :=
  match fields with
  | [] => body
  | (x, τ, e) :: fs => .let_ (fieldVariable x) τ e (compileRecordFieldsT fs body)

/-- A compiler for subexpressions. -/
abbrev TCompiler := Expr → Option TExpr

variable (a : Nat) (C : Ctx)

/-- `type_::compile` (`lib/hir-mir/src/type_.rs:9-25`). -/
def compileType (t : Ty) : Option Mir.Typed.Ty := (ok? (Hir.canonicalize a C.types t)).map (lowerType K)

/-- The name of a record type: `type_::compile(..)?.into_record().unwrap()`. -/
def recordName (t : Ty) : Option String :=
  (compileType K a C t).bind fun
    | .record n => some n
    | _ => none

/-- A field value with the type of the field: `lib/hir-mir/src/expression.rs:475-487`. -/
def compileFieldT (rec : TCompiler) (ts : List RecordField) (f : String × Expr) : Option (String × Mir.Typed.Ty × TExpr) := do
  let t ← ok? (Hir.fieldType ts f.1)
  let τ ← compileType K a C t
  let e ← rec f.2
  some (f.1, τ, e)

/-- Alternatives of a type branch, as in `compileAlternatives`. -/
def compileAlternativesT (rec : TCompiler) (x : String) : List (Ty × Expr) → Option (Option Ty × Expr) → Option TAlts
  | (t, e) :: bs, else_ => do
    let c ← ok? (Hir.canonicalize a C.types t)
    let e ← rec e
    let alt ← compileAlternativeT K x c e
    let alts ← compileAlternativesT rec x bs else_
    some (.cons alt.1 x alt.2 alts)
  | [], some (some t, e) => do
    let c ← ok? (Hir.canonicalize a C.types t)
    let e ← rec e
    if c = .any then some (.default x e)
    else do
      let alt ← compileAlternativeT K x c e
      some (.cons alt.1 x alt.2 .nil)
  | [], some (none, _) => none
  | [], none => some .nil

/-- `compile_operation` for equality, as in `compileEquality`. -/
def compileEqualityT (rec : TCompiler) (t : Ty) (lhs rhs : Expr) : Option TExpr := do
  match ← ok? (Hir.canonicalize a C.types t) with
  | .number => do
    let l ← rec lhs
    let r ← rec rhs
    some (.op (.comparison .equal) (.cons l (.cons r .nil)))
  | .string => do
    let l ← rec lhs
    let r ← rec rhs
    some (.op (.call [.byteString, .byteString] .boolean) (.cons (.variable K.stringEqual) (.cons l (.cons r .nil))))
  | _ => none

/-- Arguments of a lambda: `lib/hir-mir/src/expression.rs:272-282`. -/
def compileParameters (ps : List (String × Ty)) : Option (List (String × Mir.Typed.Ty)) :=
  ps.mapM fun p => (compileType K a C p.2).map fun τ => (p.1, τ)

/-- `compile` and `compile_operation`, as in `compileStep`. -/
def compileStepT (rec : TCompiler) : Expr → Option TExpr
  | .boolean b => some (.literal (.boolean b))
  | .none => some (.literal .none)
  | .number n => some (.literal (.number n))
  | .string s => some (.literal (.string s))
  | .variable x => some (.variable x)
  | .call (some t) f args => do
    let t ← ok? (Hir.expectFunction a C.types t)
    let f ← rec f
    let args ← args.mapM rec
    some (.op (.call (lowerTypeList K t.1) (lowerType K t.2)) (.cons f (operandsT args)))
  | .builtInCall (some t) .error [e] => do
    let _ ← ok? (Hir.expectFunction a C.types t)
    let e ← rec e
    some (compileErrorT e)
  | .builtInCall (some t) .source [e] => do
    let _ ← ok? (Hir.expectFunction a C.types t)
    let e ← rec e
    some (.op (.field "hir:error" 0) (.cons e .nil))
  | .if_ c t e => do
    let c ← rec c
    let t ← rec t
    let e ← rec e
    some (.if_ c t e)
  | .ifType x e branches else_ => do
    let e ← rec e
    let alts ← compileAlternativesT K a C rec x branches else_
    some (.case e alts)
  | .lambda params result body => do
    let params ← compileParameters K a C params
    let result ← compileType K a C result
    let body ← rec body
    some (.letRec "$closure" [] params result false body (.variable "$closure"))
  | .let_ x (some t) e b => do
    let τ ← compileType K a C t
    let e ← rec e
    let b ← rec b
    some (.let_ (x.getD "") τ e b)
  | .addition (some .number) l r => do
    let l ← rec l
    let r ← rec r
    some (.op (.arithmetic .add) (.cons l (.cons r .nil)))
  | .addition (some .string) l r => do
    let l ← rec l
    let r ← rec r
    some (.op .concatenation (.cons l (.cons r .nil)))
  | .arithmetic op l r => do
    let l ← rec l
    let r ← rec r
    some (.op (.arithmetic (arithmeticOperator op)) (.cons l (.cons r .nil)))
  | .booleanOp .and l r => do
    let l ← rec l
    let r ← rec r
    some (.if_ l r (.literal (.boolean false)))
  | .booleanOp .or l r => do
    let l ← rec l
    let r ← rec r
    some (.if_ l (.literal (.boolean true)) r)
  | .equality (some t) .equal l r => compileEqualityT K a C rec t l r
  | .equality (some t) .notEqual l r => do
    let e ← compileEqualityT K a C rec t l r
    some (.if_ e (.literal (.boolean false)) (.literal (.boolean true)))
  | .not e => do
    let e ← rec e
    some (.if_ e (.literal (.boolean false)) (.literal (.boolean true)))
  | .order op l r => do
    let l ← rec l
    let r ← rec r
    some (.op (.comparison (orderOperator op)) (.cons l (.cons r .nil)))
  | .try_ (some t) e => do
    let e ← rec e
    let c ← ok? (Hir.canonicalize a C.types t)
    let alt ← compileAlternativeT K "$success" c (.variable "$success")
    some (.case
      (.try_ e "$error" (.record "hir:error") (.op (.variant (.record "hir:error")) (.cons (.variable "$error") .nil)))
      (.cons alt.1 "$success" alt.2 .nil))
  | .record t fields => do
    let ts ← ok? (Hir.resolveFields a C t)
    let n ← recordName K a C t
    let es ← fields.mapM (compileFieldT K a C rec ts)
    if ts.all (fun t => fields.any (fun f => f.1 == t.name)) then
      some (compileRecordFieldsT es
        (.op (.record n) (operandsT (ts.map fun t => .variable (fieldVariable t.name)))))
    else none
  | .deconstruct (some t) e x => do
    let ts ← ok? (Hir.resolveFields a C t)
    let n ← recordName K a C t
    let i ← fieldIndex ts x
    let e ← rec e
    some (.op (.field n i) (.cons e .nil))
  | .update t e fields => do
    let ts ← ok? (Hir.resolveFields a C t)
    let n ← recordName K a C t
    let e ← rec e
    let is ← fields.mapM fun f => fieldIndex ts f.1
    let es ← fields.mapM fun f => rec f.2
    some (.op (.update n is) (.cons e (operandsT es)))
  | .coercion src dst e => do
    let c ← ok? (Hir.canonicalize a C.types src)
    let d ← ok? (Hir.canonicalize a C.types dst)
    let e ← rec e
    compileCoercionT K c d e
  | _ => none

/-- `compile` (`lib/hir-mir/src/expression.rs:21-261`); the number bounds the depth of the expression. -/
def compileT : Nat → Expr → Option TExpr
  | 0, _ => none
  | d + 1, e => compileStepT K a C (compileT d) e

/-- `compile_function_definition` (`lib/hir-mir/src/module.rs:120-150`). -/
def compileDefinitionT (d : Nat) (x : Definition) : Option TDefinition := do
  let body ← compileT K a C d x.body
  let result ← compileType K a C x.result
  let params ← compileParameters K a C x.params
  some ⟨x.name, params, result, x.params.isEmpty, body⟩

end

end Verif.Lower
