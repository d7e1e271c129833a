import Verif.Hir.Evaluation

/-!
# Comparison of values

Model of `lib/hir-mir/src/transformation/equal_operation/{operation,expression,function,module}.rs`,
`not_equal_operation.rs`, `record_equal_function.rs` and `record_type_information.rs`: how comparisons of values other
than numbers and strings are expressed in HIR before it is lowered.
-/

namespace Verif.Hir

/-- Names the code gets from the configuration of the compiler (`CompileConfiguration`) and from type ids
(`lib/hir-mir/src/transformation/equal_operation/function.rs:13-21`, `map_context.rs`). -/
structure EqualNames where
  listType : String
  listEqual : String
  mapType : String
  contextType : String
  mapEqual : String
  /-- `hir:equal:` and the id of the type. -/
  equalFunction : Ty → String
  contextFunction : Ty → Ty → String

/-- `compile_equal_function_name` (`lib/hir-mir/src/transformation/record_type_information.rs:3-5`). -/
def equalFunctionName (n : String) : String := n ++ ".$equal"

section
variable (K : EqualNames) (a : Nat) (A : Aliases) (R : Records)

/-- The type of the else branch in `transform_canonical`
(`lib/hir-mir/src/transformation/equal_operation/operation.rs:171-190`). It is canonicalized when the branch is compiled
(`lib/hir-mir/src/expression.rs:97`), for which the fuel has to be enough, too. -/
def otherMembers (members : List Ty) (u : Ty) : Res Err Ty := do
  let ts ← Res.mapList (fun t => do
    let b ← equalCheck a A t u
    .ok (t, b)) members
  match createUnion ((ts.filter fun p => !p.2).map (·.1)) with
  | some t => do
    let _ ← canonicalize a A t
    .ok t
  | none => .err .panic

/-- `transform_canonical` (`lib/hir-mir/src/transformation/equal_operation/operation.rs:36-222`); the number bounds the depth
of unions and aliases. -/
def equalCanonicalType : Nat → Ty → Expr → Expr → Res Err Expr
  | 0, _, _, _ => .more
  | _ + 1, .boolean, l, r => .ok (.if_ l r (.if_ r (.boolean false) (.boolean true)))
  | _ + 1, .list e, l, r =>
    .ok (.call (some (.function [.function [.any, .any] .boolean, .reference K.listType, .reference K.listType] .boolean))
      (.variable K.listEqual) [.variable (K.equalFunction e), l, r])
  | _ + 1, .map k v, l, r =>
    .ok (.call (some (.function [.reference K.contextType, .reference K.mapType, .reference K.mapType] .boolean))
      (.variable K.mapEqual)
      [.call (some (.function [] (.reference K.contextType))) (.variable (K.contextFunction k v)) [], l, r])
  | _ + 1, .none, _, _ => .ok (.boolean true)
  | _ + 1, .number, l, r => .ok (.equality (some .number) .equal l r)
  | _ + 1, .record n, l, r => do
    if ← comparableCheck a A R (.record n) then
      .ok (.call (some (.function [.record n, .record n] .boolean)) (.variable (equalFunctionName n)) [l, r])
    else .err .invalidRecordEqualOperation
  | _ + 1, .string, l, r => .ok (.equality (some .string) .equal l r)
  | k + 1, .union t u, l, r => do
    let members ← unionMemberSet a A (.union t u)
    let branches ← Res.mapList (fun t => do
      let e ← equalCanonicalType k t (.variable "$lhs") (.variable "$rhs")
      let o ← otherMembers a A members t
      .ok (t, Expr.ifType "$rhs" r [(t, e)] (some (some o, .boolean false)))) members
    .ok (.ifType "$lhs" l branches none)
  | k + 1, .reference x, l, r => do
    let t ← resolve A x
    equalCanonicalType k t l r
  | _ + 1, .any, _, _ => .err .typeNotComparable
  | _ + 1, .error, _, _ => .err .typeNotComparable
  | _ + 1, .function _ _, _, _ => .err .typeNotComparable

/-- `transform` (`lib/hir-mir/src/transformation/equal_operation/operation.rs:20-34`). -/
def equalOperation (t : Ty) (l r : Expr) : Res Err Expr := do
  let c ← canonicalize a A t
  equalCanonicalType K a A R a c l r

/-- What comparison operations are compiled as: `compile_operation` (`lib/hir-mir/src/expression.rs:388-417`), with
`expression::transform` (`lib/hir-mir/src/transformation/equal_operation/expression.rs:5-22`) and
`not_equal_operation::transform` (`lib/hir-mir/src/transformation/not_equal_operation.rs:3-23`). Comparisons of numbers and
strings stay. -/
def lowerEquality (t : Option Ty) (op : EqOp) (l r : Expr) : Res Err Expr :=
  match t with
  | none => .err .typeNotInferred
  | some t => do
    let e ← equalOperation K a A R t l r
    .ok (match op with
      | .equal => e
      | .notEqual => .if_ e (.boolean false) (.boolean true))

/-- A step of the fold in `compile_function_definition` (`lib/hir-mir/src/transformation/record_equal_function.rs:104-134`),
with the comparison as it is compiled. -/
def equalField (n : String) (f : RecordField) (e : Expr) : Res Err Expr := do
  let q ← equalOperation K a A R f.type (.deconstruct (some (.record n)) (.variable "$lhs") f.name)
    (.deconstruct (some (.record n)) (.variable "$rhs") f.name)
  .ok (.if_ q e (.boolean false))

/-- The fold over the fields in reverse order, `lib/hir-mir/src/transformation/record_equal_function.rs:104-134`. -/
def equalFields (n : String) : List RecordField → Res Err Expr
  | [] => .ok (.boolean true)
  | f :: fs => do
    let e ← equalFields n fs
    equalField K a A R n f e

/-- `compile_function_definition` (`lib/hir-mir/src/transformation/record_equal_function.rs:83-142`). -/
def equalDefinition (n : String) (fs : List RecordField) : Res Err Definition := do
  let e ← equalFields K a A R n fs
  .ok ⟨equalFunctionName n, [("$lhs", .record n), ("$rhs", .record n)], .boolean, e⟩

/-- `compile_function_definition` (`lib/hir-mir/src/transformation/equal_operation/module.rs:29-79`): the function that
compares elements of collections, which are of the type `any` there. The types of elements are canonical
(`lib/hir-mir/src/transformation/collection_type.rs:72-90`). -/
def elementEqualDefinition (c : Ty) : Res Err Definition := do
  let e ← equalOperation K a A R c (.variable "$lhs") (.variable "$rhs")
  .ok ⟨K.equalFunction c, [("$lhs", .any), ("$rhs", .any)], .boolean,
    .ifType "$lhs" (.variable "$lhs") [(c, .ifType "$rhs" (.variable "$rhs") [(c, e)] none)] none⟩

end

/-- `record_equal_function::transform` (`lib/hir-mir/src/transformation/record_equal_function.rs:7-62`). `external` says which
record types are from other modules (`is_external`): their functions are imported. -/
def addEqualFunctions (K : EqualNames) (a : Nat) (external : String → Bool) (m : Module) : Res Err Module := do
  let rs ← Res.mapList (fun d : String × List RecordField => do
    let b ← comparableCheck a m.ctx.types m.ctx.records (.record d.1)
    .ok (d, b)) m.types.records
  let rs := (rs.filter fun p => p.2).map (·.1)
  let ds ← Res.mapList (fun d : String × List RecordField => equalDefinition K a m.ctx.types m.ctx.records d.1 d.2)
    (rs.filter fun d => !external d.1)
  .ok ⟨m.types,
    m.declarations ++ (rs.filter fun d => external d.1).map (fun d =>
      (equalFunctionName d.1, ([.record d.1, .record d.1], .boolean))),
    m.definitions ++ ds⟩

end Verif.Hir
