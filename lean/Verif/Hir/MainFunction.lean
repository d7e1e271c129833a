/-
Model of how a program starts: `/repo/lib/hir-mir/src/main_function.rs` and
`/repo/lib/app/src/module_compiler/main_module_configuration_qualifier.rs`.

Definitions are their names and, for functions, expressions; positions and parts of definitions that are not looked at are
left out. Contexts of packages are in the order of their keys (`BTreeMap`); the order of the functions that make them, which
is that of a hash table, is an input.
-/
namespace Verif.Hir.MainFunction

/-- Names. -/
abbrev Name := List Char

/-- Definitions of types and type aliases in interfaces. -/
structure InterfaceType where
  name : Name
  originalName : Name
  isPublic : Bool

/-- Declarations of functions in interfaces: the name and the original name. -/
structure InterfaceFunction where
  name : Name
  originalName : Name

/-- The interface of the module of contexts in a package. -/
structure Interface where
  types : List InterfaceType
  aliases : List InterfaceType
  functions : List InterfaceFunction

/-- Names in the configuration of the application: lib/app/src/application_configuration.rs. -/
structure Configuration where
  sourceMainFunctionName : Name
  objectMainFunctionName : Name
  mainContextTypeName : Name
  systemContextTypeName : Name
  newSystemContextFunctionName : Name

/-- `ContextConfiguration`: lib/hir-mir/src/main_module_configuration.rs:11-15. -/
structure ContextConfiguration where
  contextTypeName : Name
  newContextFunctionName : Name
deriving DecidableEq

/-- `MainModuleConfiguration`: lib/hir-mir/src/main_module_configuration.rs:3-9. -/
structure MainConfiguration where
  sourceMainFunctionName : Name
  objectMainFunctionName : Name
  contextTypeName : Name
  contexts : List (Name × ContextConfiguration)

/-- `qualify_context`: lib/app/src/module_compiler/main_module_configuration_qualifier.rs:21-60. -/
def qualifyContext (interface : Interface) (configuration : Configuration) : Option ContextConfiguration :=
  let type := interface.types.findSome? fun d =>
    if d.originalName = configuration.systemContextTypeName ∧ d.isPublic then some d.name else none
  let aliasName := interface.aliases.findSome? fun d =>
    if d.originalName = configuration.systemContextTypeName ∧ d.isPublic then some d.name else none
  match type.or aliasName, interface.functions.find? fun d => d.originalName = configuration.newSystemContextFunctionName with
  | some type, some function => some ⟨type, function.name⟩
  | _, _ => none

/-- `qualify`: lib/app/src/module_compiler/main_module_configuration_qualifier.rs:5-19. -/
def qualify (configuration : Configuration) (interfaces : List (Name × Interface)) : Option MainConfiguration :=
  (interfaces.mapM fun (p : Name × Interface) => (qualifyContext p.2 configuration).map fun c => (p.1, c)).map
    fun contexts => ⟨configuration.sourceMainFunctionName, configuration.objectMainFunctionName,
      configuration.mainContextTypeName, contexts⟩

/-- Expressions that the pass makes: calls of functions by their names, and records. -/
inductive Expression where
  | call (function : Name) (arguments : List Expression)
  | record (type : Name) (fields : List (Name × Expression))

/-- Definitions of functions; those of the program have no expression here. -/
structure FunctionDefinition where
  name : Name
  originalName : Name
  body : Option Expression
  exported : Bool

/-- Definitions of record types: fields with the names of their types. -/
structure TypeDefinition where
  name : Name
  fields : List (Name × Name)

/-- Modules. -/
structure Module where
  types : List TypeDefinition
  declarations : List Name
  definitions : List FunctionDefinition

/-- Why a module is not compiled: `MainFunctionNotFound`, `NewContextFunctionNotFound`. -/
inductive Error where
  | mainFunctionNotFound
  | newContextFunctionNotFound
deriving DecidableEq

/-- `MAIN_FUNCTION_WRAPPER_SUFFIX`: lib/hir-mir/src/main_function.rs:5. -/
def wrapperSuffix : Name := ":wrapper".toList

/-- `compile`: lib/hir-mir/src/main_function.rs:7-125; `order` is the order of a hash table. -/
def compile (order : List (Name × Name) → List (Name × Name)) (module_ : Module) (c : MainConfiguration) :
    Except Error Module :=
  match module_.definitions.find? fun d => d.originalName = c.sourceMainFunctionName with
  | none => .error .mainFunctionNotFound
  | some main =>
    match c.contexts.mapM fun (p : Name × ContextConfiguration) =>
      (module_.declarations.find? fun d => d = p.2.newContextFunctionName).map fun d => (p.1, d) with
    | none => .error .newContextFunctionNotFound
    | some functions => .ok {
        types := module_.types ++ [⟨c.contextTypeName, c.contexts.map fun p =>
          (p.1, p.2.contextTypeName)⟩]
        declarations := module_.declarations
        definitions := module_.definitions ++ [⟨c.objectMainFunctionName ++ wrapperSuffix, c.objectMainFunctionName,
          some (.call main.name [.record c.contextTypeName ((order functions).map fun p => (p.1, .call p.2 []))]), true⟩] }

/-! ### Running -/

/-- Values: those of the program, and records of contexts. -/
inductive Value where
  | opaque (n : Nat)
  | record (type : Name) (fields : List (Name × Value))

section
variable {W : Type} (run : Name → List Value → W → Value × W)

mutual
/-- Evaluation, for what functions do. -/
def eval : Expression → W → Value × W
  | .call f arguments, w => let (vs, w) := evalList arguments w; run f vs w
  | .record type fields, w => let (fs, w) := evalFields fields w; (.record type fs, w)

/-- Evaluation of arguments. -/
def evalList : List Expression → W → List Value × W
  | [], w => ([], w)
  | e :: es, w =>
    let (v, w) := eval e w
    let (vs, w) := evalList es w
    (v :: vs, w)

/-- Evaluation of fields. -/
def evalFields : List (Name × Expression) → W → List (Name × Value) × W
  | [], w => ([], w)
  | (key, e) :: es, w =>
    let (v, w) := eval e w
    let (vs, w) := evalFields es w
    ((key, v) :: vs, w)
end
end
end Verif.Hir.MainFunction
