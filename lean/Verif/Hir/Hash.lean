import Verif.Hir.Evaluation

/-!
# Hashes of values

Model of `lib/hir-mir/src/transformation/hash_calculation/{expression,function}.rs`, `record_hash_function.rs` and
`record_type_information.rs`: the code that calculates hashes of keys of maps.
-/

namespace Verif.Hir

/-- Names and constants the code gets from the configuration of the compiler (`CompileConfiguration`,
`lib/hir-mir/src/map_type_configuration.rs`), type ids and names. -/
structure HashNames where
  listType : String
  listHash : String
  mapType : String
  contextType : String
  mapHash : String
  numberHash : String
  stringHash : String
  combine : String
  /-- `hir:hash:` and the id of the type (`lib/hir-mir/src/transformation/hash_calculation/function.rs:13-21`). -/
  hashFunction : Ty → String
  contextFunction : Ty → Ty → String
  /-- `compile_identity_hash` (`lib/hir-mir/src/transformation/record_hash_function.rs:159-168`). -/
  identityHash : String → UInt64
  /-- `NONE_HASH`, `BOOLEAN_TRUE_HASH` and `BOOLEAN_FALSE_HASH` as 64-bit floats
  (`lib/hir-mir/src/transformation/hash_calculation/expression.rs:16-18`). -/
  noneHash : UInt64
  trueHash : UInt64
  falseHash : UInt64

/-- `compile_hash_function_name` (`lib/hir-mir/src/transformation/record_type_information.rs:7-9`). -/
def hashFunctionName (n : String) : String := n ++ ".$hash"

section
variable (K : HashNames) (a : Nat) (A : Aliases) (R : Records)

/-- `compile_concrete_hash_function_call`
(`lib/hir-mir/src/transformation/hash_calculation/expression.rs:139-160`). -/
def hashCall (f : String) (t : Ty) (v : Expr) : Expr := .call (some (.function [t] .number)) (.variable f) [v]

/-- `transform` (`lib/hir-mir/src/transformation/hash_calculation/expression.rs:20-137`), on types as they are written; the
number bounds the depth of unions and aliases. -/
def hashExpression : Nat → Ty → Expr → Res Err Expr
  | 0, _, _ => .more
  | _ + 1, .boolean, v => .ok (.if_ v (.number K.trueHash) (.number K.falseHash))
  | _ + 1, .list e, v =>
    .ok (.call (some (.function [.function [.any] .number, .reference K.listType] .number)) (.variable K.listHash)
      [.variable (K.hashFunction e), v])
  | _ + 1, .map k u, v =>
    .ok (.call (some (.function [.reference K.contextType, .reference K.mapType] .number)) (.variable K.mapHash)
      [.call (some (.function [] (.reference K.contextType))) (.variable (K.contextFunction k u)) [], v])
  | _ + 1, .none, _ => .ok (.number K.noneHash)
  | _ + 1, .number, v => .ok (hashCall K.numberHash .number v)
  | _ + 1, .record n, v => do
    if ← comparableCheck a A R (.record n) then .ok (hashCall (hashFunctionName n) (.record n) v)
    else .err .invalidRecordEqualOperation
  | _ + 1, .string, v => .ok (hashCall K.stringHash .string v)
  | k + 1, .union t u, v => do
    let members ← unionMemberSet a A (.union t u)
    let branches ← Res.mapList (fun t => do
      let e ← hashExpression k t (.variable "$x")
      let _ ← canonicalize a A t
      .ok (t, e)) members
    .ok (.ifType "$x" v branches none)
  | k + 1, .reference x, v => do
    let t ← resolve A x
    hashExpression k t v
  | _ + 1, .any, _ => .err .typeNotComparable
  | _ + 1, .error, _ => .err .typeNotComparable
  | _ + 1, .function _ _, _ => .err .typeNotComparable

/-- A step of the fold in `compile_function_definition` (`lib/hir-mir/src/transformation/record_hash_function.rs:114-148`). -/
def hashField (n : String) (f : RecordField) (e : Expr) : Res Err Expr := do
  let h ← hashExpression K a A R a f.type (.deconstruct (some (.record n)) (.variable "$record") f.name)
  .ok (.call (some (.function [.number, .number] .number)) (.variable K.combine) [e, h])

/-- The fold over the fields in reverse order, `lib/hir-mir/src/transformation/record_hash_function.rs:114-148`. -/
def hashFields (n : String) : List RecordField → Res Err Expr
  | [] => .ok (.number (K.identityHash n))
  | f :: fs => do
    let e ← hashFields n fs
    hashField K a A R n f e

/-- `compile_function_definition` (`lib/hir-mir/src/transformation/record_hash_function.rs:96-153`). -/
def hashDefinition (n : String) (fs : List RecordField) : Res Err Definition := do
  let e ← hashFields K a A R n fs
  .ok ⟨hashFunctionName n, [("$record", .record n)], .number, e⟩

/-- `compile_function_definition` (`lib/hir-mir/src/transformation/hash_calculation/module.rs:33-71`): the function that
hashes elements of collections, which are of the type `any` there. The types of elements are canonical
(`lib/hir-mir/src/transformation/collection_type.rs:72-90`). -/
def elementHashDefinition (c : Ty) : Res Err Definition := do
  let e ← hashExpression K a A R a c (.variable "$x")
  .ok ⟨K.hashFunction c, [("$x", .any)], .number, .ifType "$x" (.variable "$x") [(c, e)] none⟩

end

/-- `record_hash_function::transform` (`lib/hir-mir/src/transformation/record_hash_function.rs:16-74`). `external` says which
record types are from other modules (`is_external`): their functions are imported. -/
def addHashFunctions (K : HashNames) (a : Nat) (external : String → Bool) (m : Module) : Res Err Module := do
  let rs ← Res.mapList (fun d : String × List RecordField => do
    let b ← comparableCheck a m.ctx.types m.ctx.records (.record d.1)
    .ok (d, b)) m.types.records
  let rs := (rs.filter fun p => p.2).map (·.1)
  let ds ← Res.mapList (fun d : String × List RecordField => hashDefinition K a m.ctx.types m.ctx.records d.1 d.2)
    (rs.filter fun d => !external d.1)
  .ok ⟨m.types,
    m.declarations ++ (rs.filter fun d => external d.1).map (fun d =>
      (hashFunctionName d.1, ([.record d.1], .number))),
    m.definitions ++ ds⟩

end Verif.Hir
