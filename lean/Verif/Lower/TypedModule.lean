import Verif.Lower.TypedCompile
import Verif.Hir.Typing

/-!
# Modules with types

Model of `lib/hir-mir/src/module.rs`, `generic_type_definition.rs`, `runtime_function_declaration.rs` and
`type_information.rs` with `type_information/{debug, equal, utility}.rs`, and of `lib/hir/src/analysis/type_formatter.rs`.
There is a compile configuration: modules other than those of the prelude.
-/

namespace Verif.Lower

open Verif.Hir (Ty Ctx Expr Module Definition RecordField)
open Verif.Mir.Typed (TExpr TExprs TAlts TOp TDefinition TDeclaration TModule)
open Verif

/-- Names of functions that type information is made of (`lib/hir-mir/src/list_type_configuration.rs`,
`map_type_configuration.rs`, `number_type_configuration.rs`). -/
structure ReflectConfig extends TypedConfig where
  listDebug : String
  listEqual : String
  mapDebug : String
  mapEqual : String
  numberDebug : String

/-- What of a HIR module `Hir.Module` leaves out: which declarations are foreign, which functions are exposed to foreign code, which
records are defined elsewhere (`lib/hir/src/ir/type_definition.rs`), and names as they are written. -/
structure Extras where
  foreign : String → Bool
  exposed : List String
  external : String → Bool
  originalName : String → String

/-- Bytes of a string. -/
def bytes (s : String) : List UInt8 := s.toUTF8.data.toList

def stringT (s : String) : TExpr := .literal (.string (bytes s))

def operationT (o : TOp) (es : List TExpr) : TExpr := .op o (operandsT es)

section
variable (X : Extras)

mutual
/-- `type_formatter::format` (`lib/hir/src/analysis/type_formatter.rs:3-28`). -/
def formatType : Ty → String
  | .any => "any"
  | .boolean => "boolean"
  | .error => "error"
  | .function as r => "\\(" ++ String.intercalate ", " (formatTypes as) ++ ") " ++ formatType r
  | .list e => "[" ++ formatType e ++ "]"
  | .map k v => "{" ++ formatType k ++ ": " ++ formatType v ++ "}"
  | .none => "none"
  | .number => "number"
  | .record n => X.originalName n
  | .reference n => n
  | .string => "string"
  | .union l r => formatType l ++ " | " ++ formatType r
def formatTypes : List Ty → List String
  | [] => []
  | t :: ts => formatType t :: formatTypes ts
end

end

/-- `TYPE_INFORMATION_RECORD_NAME` (`lib/hir-mir/src/type_information.rs:14`). -/
def informationRecord : String := "hir:type_information:record"

/-- `debug::compile_function_type` (`lib/hir-mir/src/type_information/debug.rs:35-40`). -/
def debugType : Mir.Typed.Ty := .function [.variant] .byteString

/-- `equal::compile_function_type` (`lib/hir-mir/src/type_information/equal.rs:38-44`). -/
def equalType : Mir.Typed.Ty := .function [.variant, .variant] .variant

/-- `compile_function` (`lib/hir-mir/src/type_information.rs:34-47`). -/
def informationFunction (e : TExpr) (i : Nat) : TExpr :=
  operationT (.field informationRecord i)
    [operationT (.call [] (.record informationRecord)) [operationT .typeInformation [e]]]

/-- `debug::compile_call` (`debug.rs:12-21`). -/
def debugCall (e : TExpr) : TExpr := operationT (.call [.variant] .byteString) [informationFunction e 0, e]

/-- `equal::compile_call` (`equal.rs:12-24`). -/
def equalCall (l r : TExpr) : TExpr := operationT (.call [.variant, .variant] .variant) [informationFunction l 1, l, r]

def debugName (id : String) : String := "hir:reflect:debug:" ++ id
def equalName (id : String) : String := "hir:reflect:equal:" ++ id
/-- `compile_function_name` (`type_information.rs:116-121`). -/
def informationName (id : String) : String := "hir:type_information:" ++ id

section
variable (K : ReflectConfig) (a : Nat) (C : Ctx) (X : Extras)

/-- `utility::compile_any` (`type_information/utility.rs:4-20`). -/
def compileAny (t : Ty) (e : TExpr) : Option TExpr := do
  let c ← ok? (Hir.canonicalize a C.types t)
  if lowerType K.toTypedConfig c = .variant then some e
  else some (operationT (.variant (concreteType K.toTypedConfig c)) [boxT K.toTypedConfig c e])

/-- `utility::compile_unboxed_concrete` (`type_information/utility.rs:22-35`). -/
def unboxedT (c : Ty) (e : TExpr) : TExpr := operationT (.field (typeName K.toConfig c) 0) [e]

/-- `debug::compile_element_function` (`debug.rs:229-246`). -/
def debugElement : TExpr :=
  .letRec "hir:debug:element" [] [("$x", .variant)] .byteString false (debugCall (.variable "$x")) (.variable "hir:debug:element")

/-- Fields with their positions: `iter().enumerate()`. -/
def enumerate {α : Type} (i : Nat) : List α → List (Nat × α)
  | [] => []
  | x :: xs => (i, x) :: enumerate (i + 1) xs

/-- The part of the debug string of a record for a field (`debug.rs:137-153`). -/
def debugField (n : String) (f : Nat × RecordField) : Option (List TExpr) := do
  let e ← compileAny K a C f.2.type (operationT (.field n f.1) [.variable "$x"])
  some [stringT (f.2.name ++ ": "), debugCall e]

/-- What a debug function does with the payload (`debug.rs:52-184`). -/
def debugBody : Ty → Option TExpr
  | .boolean => some (.if_ (.variable "$x") (stringT "true") (stringT "false"))
  | .error => some (operationT .concatenation
      [stringT "error(", debugCall (operationT (.field "hir:error" 0) [.variable "$x"]), stringT ")"])
  | .function _ _ => some (stringT "<function>")
  | .list e => some (operationT (.call [.byteString, .record K.listType, debugType] .byteString)
      [.variable K.listDebug, stringT (formatType X e), unboxedT K (.list e) (.variable "$x"), debugElement])
  | .map k v => some (operationT (.call [.byteString, .byteString, .record K.mapType, debugType] .byteString)
      [.variable K.mapDebug, stringT (formatType X k), stringT (formatType X v), unboxedT K (.map k v) (.variable "$x"), debugElement])
  | .none => some (stringT "none")
  | .number => some (operationT (.call [.number] .byteString) [.variable K.numberDebug, .variable "$x"])
  | .record n => do
    let fs ← ok? (Hir.resolveRecord C.records n)
    let ess ← (enumerate 0 fs).mapM (debugField K a C n)
    some (operationT .concatenation
      ([stringT (X.originalName n ++ "{")] ++ (ess.intersperse [stringT ", "]).flatten ++ [stringT "}"]))
  | .string => some (operationT .concatenation [stringT "\"", .variable "$x", stringT "\""])
  | _ => none

/-- `debug::compile_function_definition` (`debug.rs:52-227`). -/
def debugDefinition (c : Ty) : Option TDefinition := do
  let body ← debugBody K a C X c
  some ⟨debugName (hirTypeId K.toConfig c), [("$x", .variant)], .byteString, false,
    .case (.variable "$x") (.cons [concreteType K.toTypedConfig c] "$x" body .nil)⟩

/-- `debug::compile_default_function_definition` (`debug.rs:186-196`). -/
def debugDefault : TDefinition := ⟨debugName "default", [("$x", .variant)], .byteString, false, stringT "<unknown>"⟩

def trueT : TExpr := operationT (.variant .boolean) [.literal (.boolean true)]
def falseT : TExpr := operationT (.variant .boolean) [.literal (.boolean false)]
def noneT : TExpr := operationT (.variant .none) [.literal .none]

/-- `compile_merged_result` (`equal.rs:243-283`). -/
def mergedResult (l r : TExpr) : TExpr :=
  .case l (.cons [.boolean] "$lhs_result"
    (.case r (.cons [.boolean] "$rhs_result"
      (operationT (.variant .boolean) [.if_ (.variable "$lhs_result") (.variable "$rhs_result") (.literal (.boolean false))])
      (.default "" noneT)))
    (.default "" noneT))

/-- `equal::compile_element_function` (`equal.rs:285-306`). -/
def equalElement : TExpr :=
  .letRec "hir:equal:element" [] [("$lhs", .variant), ("$rhs", .variant)] .variant false
    (equalCall (.variable "$lhs") (.variable "$rhs")) (.variable "hir:equal:element")

/-- Comparison of a field (`equal.rs:156-176`). -/
def equalField (n : String) (e : TExpr) (f : Nat × RecordField) : Option TExpr := do
  let l ← compileAny K a C f.2.type (operationT (.field n f.1) [.variable "$lhs"])
  let r ← compileAny K a C f.2.type (operationT (.field n f.1) [.variable "$rhs"])
  some (mergedResult e (equalCall l r))

/-- What an equality function does with payloads (`equal.rs:56-198`). -/
def equalBody : Ty → Option TExpr
  | .boolean => some (operationT (.variant .boolean)
      [.if_ (.variable "$lhs") (.variable "$rhs") (.if_ (.variable "$rhs") (.literal (.boolean false)) (.literal (.boolean true)))])
  | .error => some (equalCall (operationT (.field "hir:error" 0) [.variable "$lhs"]) (operationT (.field "hir:error" 0) [.variable "$rhs"]))
  | .function _ _ => some noneT
  | .list e => some (operationT (.call [equalType, .record K.listType, .record K.listType] .variant)
      [.variable K.listEqual, equalElement, unboxedT K (.list e) (.variable "$lhs"), unboxedT K (.list e) (.variable "$rhs")])
  | .map k v => some (operationT (.call [equalType, .record K.mapType, .record K.mapType] .variant)
      [.variable K.mapEqual, equalElement, unboxedT K (.map k v) (.variable "$lhs"), unboxedT K (.map k v) (.variable "$rhs")])
  | .none => some trueT
  | .number => some (operationT (.variant .boolean) [operationT (.comparison .equal) [.variable "$lhs", .variable "$rhs"]])
  | .record n => do
    let fs ← ok? (Hir.resolveRecord C.records n)
    (enumerate 0 fs).foldlM (equalField K a C n) trueT
  | .string => some (operationT (.variant .boolean)
      [operationT (.call [.byteString, .byteString] .boolean) [.variable K.stringEqual, .variable "$lhs", .variable "$rhs"]])
  | _ => none

/-- `equal::compile_function_definition` (`equal.rs:56-241`). -/
def equalDefinition (c : Ty) : Option TDefinition := do
  let body ← equalBody K a C c
  let τ := concreteType K.toTypedConfig c
  some ⟨equalName (hirTypeId K.toConfig c), [("$lhs", .variant), ("$rhs", .variant)], .variant, false,
    .case (.variable "$lhs") (.cons [τ] "$lhs"
      (.case (.variable "$rhs") (.cons [τ] "$rhs" body (.default "" falseT)))
      (.default "" falseT))⟩

/-- `equal::compile_default_function_definition` (`equal.rs:200-210`). -/
def equalDefault : TDefinition := ⟨equalName "default", [("$lhs", .variant), ("$rhs", .variant)], .variant, false, noneT⟩

/-- The record of type information for functions with an id. -/
def informationBody (id : String) : TExpr :=
  operationT (.record informationRecord) [.variable (debugName id), .variable (equalName id)]

/-- `compile_function_definitions` (`type_information.rs:142-172`). -/
def informationDefinitions (c : Ty) : Option (List TDefinition) := do
  let d ← debugDefinition K a C X c
  let e ← equalDefinition K a C c
  let id := hirTypeId K.toConfig c
  some [d, e, ⟨informationName id, [], .record informationRecord, true, informationBody id⟩]

/-- `compile_default_function_definitions` (`type_information.rs:174-200`). -/
def defaultDefinitions : List TDefinition :=
  [debugDefault, equalDefault, ⟨informationName "default", [], .record informationRecord, false, informationBody "default"⟩]

/-- `compile_function_declarations` (`type_information.rs:127-140`). -/
def informationDeclarations (c : Ty) : List TDeclaration :=
  let id := hirTypeId K.toConfig c
  [⟨debugName id, [.variant], .byteString⟩, ⟨equalName id, [.variant, .variant], .variant⟩,
    ⟨informationName id, [], .record informationRecord⟩]

/-- Whether type information of a type is in another module (`type_information.rs:71-90`). -/
def Extras.externalType : Ty → Bool
  | .record n => X.external n
  | _ => false

/-- `generic_type_definition::compile` (`lib/hir-mir/src/generic_type_definition.rs:5-54`). `collect` gives a set of types. -/
def genericTypes (ts : List Ty) : List (String × List Mir.Typed.Ty) :=
  (ts.dedup.filter boxed).map fun c => (typeName K.toConfig c, [lowerType K.toTypedConfig c])

/-- `compile_type_definition` (`lib/hir-mir/src/module.rs:87-101`). -/
def recordType (r : String × List RecordField) : Option (String × List Mir.Typed.Ty) :=
  (r.2.mapM fun f => compileType K.toTypedConfig a C f.type).map fun ts => (r.1, ts)

/-- `compile_internal_type_definitions` (`module.rs:103-108`, `error_type.rs:3-8`, `type_information.rs:49-57`). -/
def internalTypes : List (String × List Mir.Typed.Ty) := [("hir:error", [.variant]), (informationRecord, [debugType, equalType])]

/-- `runtime_function_declaration::compile` (`lib/hir-mir/src/runtime_function_declaration.rs:11-35`). -/
def runtimeDeclarations : List TDeclaration :=
  [⟨"__debug", [.byteString], .none⟩, ⟨"__race", [.record K.listType], .record K.listType⟩,
    ⟨"__spawn", [.function [] .variant], .function [] .variant⟩]

/-- `compile_function_declaration` and foreign declarations (`module.rs:22-38`, `:110-118`). -/
def compileDeclarationT (d : String × (List Ty × Ty)) : Option TDeclaration := do
  let as ← d.2.1.mapM (compileType K.toTypedConfig a C)
  let r ← compileType K.toTypedConfig a C d.2.2
  some ⟨d.1, as, r⟩

end

/-- `module::compile` (`lib/hir-mir/src/module.rs:5-78`). -/
def compileModuleT (K : ReflectConfig) (X : Extras) (a n : Nat) (m : Module) : Option TModule := do
  let variants ← variantTypes a n m
  let types ← informationTypes a n m
  let records ← m.types.records.mapM (recordType K a m.ctx)
  let foreign ← (m.declarations.filter fun d => X.foreign d.1).mapM (compileDeclarationT K a m.ctx)
  let declarations ← (m.declarations.filter fun d => !X.foreign d.1).mapM (compileDeclarationT K a m.ctx)
  let definitions ← m.definitions.mapM (compileDefinitionT K.toTypedConfig a m.ctx n)
  let information ← (types.dedup.filter fun c => !X.externalType c).mapM (informationDefinitions K a m.ctx X)
  some {
    types := records ++ genericTypes K variants ++ internalTypes
    foreignDeclarations := foreign ++ runtimeDeclarations K
    foreignDefinitions := X.exposed
    declarations := declarations ++ (types.dedup.filter X.externalType).flatMap (informationDeclarations K)
    definitions := definitions ++ (information.flatten ++ defaultDefinitions)
    information := types.dedup.map fun c => (concreteType K.toTypedConfig c, informationName (hirTypeId K.toConfig c))
    fallback := informationName "default" }

end Verif.Lower
