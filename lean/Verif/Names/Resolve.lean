import Verif.Names.Modules

/-!
# Names across modules

Model of the second half of `lib/ast-hir/src/lib.rs`: after the syntax tree of a module has been turned into
HIR (`module.rs`, not modelled here), the names of imported modules are resolved (`import.rs`), the module's
own definitions get the module's prefix (`function_definition_qualifier.rs`, `type_qualifier.rs`) and the
names of the language itself are replaced (`built_in_type_transformer.rs`,
`built_in_variable_transformer.rs`); and of `hir-mir/src/module_interface.rs`, which makes the interface other
modules import.
-/

namespace Verif.Names

open Verif.Hir

/-! ## Transforming variables -/

/-- A `Call`. The model has a separate constructor for calls of built-in functions, see `Hir.Expr`. -/
def mkCall (t : Option Ty) (f : Expr) (args : List Expr) : Expr :=
  match f with
  | .builtIn b => .builtInCall t b args
  | f => .call t f args

/-- The closure a binder makes of a transformation: variables it binds are kept
(`lib/hir/src/analysis/variable_transformer.rs:37-46`, `:75-81`, `:93-99`, `:105-111`, `:141-147`,
`:182-188`). -/
def hide (xs : List String) (σ : String → Expr) : String → Expr :=
  fun x => if x ∈ xs then .variable x else σ x

/-- The branches of a comprehension (`lib/hir/src/analysis/variable_transformer.rs:165-198`), with the
transformation in force after them. -/
def mapBranches (rec : (String → Expr) → Expr → Expr) (σ : String → Expr) :
    List (Branch Expr) → List (Branch Expr) × (String → Expr)
  | [] => ([], σ)
  | b :: bs =>
    let σ' := hide b.names σ
    let b' : Branch Expr :=
      { names := b.names
        iteratees := b.iteratees.map fun i => (i.1, rec σ i.2)
        condition := b.condition.map (rec σ') }
    let r := mapBranches rec σ' bs
    (b' :: r.1, r.2)

/-- One level of `transform_expression` (`lib/hir/src/analysis/variable_transformer.rs:51-273`) and
`transform_operation` (`:275-337`). -/
def mapVariablesStep (rec : (String → Expr) → Expr → Expr) (σ : String → Expr) : Expr → Expr
  | .variable x => σ x
  | .call t f args => mkCall t (rec σ f) (args.map (rec σ))
  | .builtInCall t b args => .builtInCall t b (args.map (rec σ))
  | .if_ c a b => .if_ (rec σ c) (rec σ a) (rec σ b)
  | .ifList t l f r a b => .ifList t (rec σ l) f r (rec (hide [f, r] σ) a) (rec σ b)
  | .ifMap k v n m key a b => .ifMap k v n (rec σ m) (rec σ key) (rec (hide [n] σ) a) (rec σ b)
  | .ifType n a bs els =>
    .ifType n (rec σ a) (bs.map fun b => (b.1, rec (hide [n] σ) b.2))
      (els.map fun b => (b.1, rec (hide [n] σ) b.2))
  | .lambda ps r b => .lambda ps r (rec (hide (ps.map (·.1)) σ) b)
  | .let_ n t a b => .let_ n t (rec σ a) (rec (hide n.toList σ) b)
  | .list t es => .list t (es.map fun
      | .single a => .single (rec σ a)
      | .multiple a => .multiple (rec σ a))
  | .comprehension t e b bs =>
    match mapBranches rec σ (b :: bs) with
    | (b' :: bs', σ') => .comprehension t (rec σ' e) b' bs'
    | ([], _) => .comprehension t e b bs
  | .map k v es => .map k v (es.map fun
      | .single a b => .single (rec σ a) (rec σ b)
      | .multiple a => .multiple (rec σ a))
  | .addition t a b => .addition t (rec σ a) (rec σ b)
  | .arithmetic o a b => .arithmetic o (rec σ a) (rec σ b)
  | .booleanOp o a b => .booleanOp o (rec σ a) (rec σ b)
  | .equality t o a b => .equality t o (rec σ a) (rec σ b)
  | .not a => .not (rec σ a)
  | .order o a b => .order o (rec σ a) (rec σ b)
  | .try_ t a => .try_ t (rec σ a)
  | .record t fs => .record t (fs.map fun f => (f.1, rec σ f.2))
  | .deconstruct t r f => .deconstruct t (rec σ r) f
  | .update t r fs => .update t (rec σ r) (fs.map fun f => (f.1, rec σ f.2))
  | .coercion s t a => .coercion s t (rec σ a)
  | e@(.boolean _) | e@(.builtIn _) | e@(.string _) | e@.none | e@(.number _) => e

/-- `variable_transformer::transform_expression` to the depth `d`; deeper parts stay as they are. -/
def mapVariables : Nat → (String → Expr) → Expr → Expr
  | 0, _, e => e
  | d + 1, σ, e => mapVariablesStep (mapVariables d) σ e

/-- `variable_transformer::transform` (`lib/hir/src/analysis/variable_transformer.rs:3-49`). -/
def Module.mapVariables (d : Nat) (σ : String → Expr) (m : Module) : Module :=
  { m with definitions := m.definitions.map fun f =>
      { f with body := Names.mapVariables d (hide (f.params.map (·.1)) σ) f.body } }

/-- `variable_renamer::rename` (`lib/hir/src/analysis/variable_renamer.rs:5-13`). -/
def renamed (names : String → Option String) (x : String) : Expr := .variable ((names x).getD x)

/-! ## Transforming types -/

mutual
/-- `transform_type` (`lib/hir/src/analysis/type_transformer.rs:35-72`). -/
def mapType (f : Ty → Ty) : Ty → Ty
  | .function as r => f (.function (mapTypeList f as) (mapType f r))
  | .list e => f (.list (mapType f e))
  | .map k v => f (.map (mapType f k) (mapType f v))
  | .union l r => f (.union (mapType f l) (mapType f r))
  | t => f t
/-- `arguments().iter().map(transform_deeply)`. -/
def mapTypeList (f : Ty → Ty) : List Ty → List Ty
  | [] => []
  | a :: as => mapType f a :: mapTypeList f as
end

/-- One level of `transform_expression` (`lib/hir/src/analysis/type_transformer.rs:149-324`) and
`transform_operation` (`:326-385`). -/
def mapTypesStep (f : Ty → Ty) (rec : Expr → Expr) : Expr → Expr
  | .call t g args => mkCall (t.map f) (rec g) (args.map rec)
  | .builtInCall t b args => .builtInCall (t.map f) b (args.map rec)
  | .if_ c a b => .if_ (rec c) (rec a) (rec b)
  | .ifList t l x r a b => .ifList (t.map f) (rec l) x r (rec a) (rec b)
  | .ifMap k v n m key a b => .ifMap (k.map f) (v.map f) n (rec m) (rec key) (rec a) (rec b)
  | .ifType n a bs els =>
    .ifType n (rec a) (bs.map fun b => (f b.1, rec b.2)) (els.map fun b => (b.1.map f, rec b.2))
  | .lambda ps r b => .lambda (ps.map fun p => (p.1, f p.2)) (f r) (rec b)
  | .let_ n t a b => .let_ n (t.map f) (rec a) (rec b)
  | .list t es => .list (f t) (es.map fun
      | .single a => .single (rec a)
      | .multiple a => .multiple (rec a))
  | .comprehension t e b bs =>
    let branch := fun (b : Branch Expr) => ({
      names := b.names
      iteratees := b.iteratees.map fun i => (i.1.map f, rec i.2)
      condition := b.condition.map rec } : Branch Expr)
    .comprehension (f t) (rec e) (branch b) (bs.map branch)
  | .map k v es => .map (f k) (f v) (es.map fun
      | .single a b => .single (rec a) (rec b)
      | .multiple a => .multiple (rec a))
  | .addition t a b => .addition (t.map f) (rec a) (rec b)
  | .arithmetic o a b => .arithmetic o (rec a) (rec b)
  | .booleanOp o a b => .booleanOp o (rec a) (rec b)
  | .equality t o a b => .equality (t.map f) o (rec a) (rec b)
  | .not a => .not (rec a)
  | .order o a b => .order o (rec a) (rec b)
  | .try_ t a => .try_ (t.map f) (rec a)
  | .record t fs => .record (f t) (fs.map fun x => (x.1, rec x.2))
  | .deconstruct t r x => .deconstruct (t.map f) (rec r) x
  | .update t r fs => .update (f t) (rec r) (fs.map fun x => (x.1, rec x.2))
  | .coercion s t a => .coercion (f s) (f t) (rec a)
  | e@(.boolean _) | e@(.builtIn _) | e@(.string _) | e@.none | e@(.number _) | e@(.variable _) => e

/-- `type_transformer::transform_expression` to the depth `d`; deeper parts stay as they are. -/
def mapTypes (f : Ty → Ty) : Nat → Expr → Expr
  | 0, e => e
  | d + 1, e => mapTypesStep f (mapTypes f d) e

/-- `type_transformer::transform` (`lib/hir/src/analysis/type_transformer.rs:6-147`): external type
definitions and function declarations are left as they are. -/
def Module.mapTypes (d : Nat) (g : Ty → Ty) (m : Module) : Module :=
  let f := mapType g
  { types := m.types.map fun t =>
      if t.external then t else { t with fields := t.fields.map fun x => { x with type := f x.type } }
    aliases := m.aliases.map fun a => if a.external then a else { a with type := f a.type }
    foreigns := m.foreigns.map fun x => { x with type := f x.type }
    declarations := m.declarations
    definitions := m.definitions.map fun x =>
      { x with
        params := x.params.map fun p => (p.1, f p.2)
        result := f x.result
        body := Names.mapTypes f d x.body } }

/-- The transformation of `rename_types` (`lib/ast-hir/src/import.rs:155-173`) and of
`type_qualifier::qualify` (`lib/hir/src/analysis/type_qualifier.rs:70-90`): records and references are
renamed. -/
def renameType (names : String → Option String) : Ty → Ty
  | .record n => .record ((names n).getD n)
  | .reference n => .reference ((names n).getD n)
  | t => t

/-! ## Imports -/

/-- `name::qualify` (`lib/ast-hir/src/name.rs:1-3`). -/
def qualifyName (pre x : String) : String := pre ++ "'" ++ x

/-- The name an import makes a definition of the original name `x` available as
(`lib/ast-hir/src/import.rs:96-104`, `:132-138`). -/
def Import.key (i : Import) (x : String) : String :=
  if x ∈ i.unqualified then x else qualifyName i.pre x

/-- The names of `rename_variables` (`lib/ast-hir/src/import.rs:87-114`): a hash map collected from the
imports in order, from which the module's own function definitions are removed. -/
def variableNames (imports : List Import) (m : Module) (x : String) : Option String :=
  if x ∈ m.definitions.map (·.original) then none
  else lastLookup (imports.flatMap fun i => i.interface.functions.map fun f => (i.key f.original, f.name)) x

/-- The names of `rename_types` (`lib/ast-hir/src/import.rs:118-153`). -/
def typeNames (imports : List Import) (m : Module) (x : String) : Option String :=
  if x ∈ m.types.map (·.original) ++ m.aliases.map (·.original) then none
  else lastLookup (imports.flatMap fun i =>
    (((i.interface.types.filter (·.isPublic)).map fun t => (t.original, t.name))
      ++ ((i.interface.aliases.filter (·.isPublic)).map fun a => (a.original, a.name))).map
      fun p => (i.key p.1, p.2)) x

/-- `sorted_by_key(|x| (x.name(), !x.is_public())).unique_by(|x| x.name())`
(`lib/ast-hir/src/import.rs:50-51`, `:69-70`): of the entries of one name the first public one is kept, or the
first one if none is public. Simplification: the order of entries of different names is that of the imports
rather than the alphabetical one; nothing depends on it. -/
def uniqueTypes {α : Type} (name : α → String) (isPublic : α → Bool) (xs : List α) : List α :=
  (xs.map name).dedup.filterMap fun n =>
    (xs.find? fun x => name x = n && isPublic x).or (xs.find? fun x => name x = n)

/-- `unique_by(|x| x.name())` (`lib/ast-hir/src/import.rs:84`); the same simplification. -/
def uniqueNames {α : Type} (name : α → String) (xs : List α) : List α :=
  (xs.map name).dedup.filterMap fun n => xs.find? fun x => name x = n

/-- `compile_imports` (`lib/ast-hir/src/import.rs:30-90`). -/
def compileImports (m : Module) (interfaces : List Interface) : Module :=
  { types := uniqueTypes (·.name) (·.isPublic) (interfaces.flatMap fun i => i.types.map fun t =>
        ({ name := t.name, original := t.original, fields := t.fields, isOpen := t.isOpen
           isPublic := t.isPublic, external := true } : TypeDefinition)) ++ m.types
    aliases := uniqueTypes (·.name) (·.isPublic) (interfaces.flatMap fun i => i.aliases.map fun a =>
        ({ name := a.name, original := a.original, type := a.type
           isPublic := a.isPublic, external := true } : TypeAlias)) ++ m.aliases
    foreigns := m.foreigns
    declarations := uniqueNames (·.name) (interfaces.flatMap fun i => i.functions.map fun f =>
        ({ name := f.name, type := f.type } : FunctionDeclaration)) ++ m.declarations
    definitions := m.definitions }

/-- `import::compile` (`lib/ast-hir/src/import.rs:11-28`). -/
def compileImported (d : Nat) (m : Module) (imports : List Import) (preludes : List Interface) : Module :=
  let m := m.mapTypes d (renameType (typeNames imports m))
  let m := m.mapVariables d (renamed (variableNames imports m))
  compileImports m (imports.map (·.interface) ++ preludes)

/-! ## The module's own names and the names of the language -/

/-- `function_definition_qualifier::qualify` (`lib/hir/src/analysis/function_definition_qualifier.rs:5-63`). -/
def qualifyFunctions (d : Nat) (pre : String) (m : Module) : Module :=
  let names := lastLookup (m.foreigns.map (fun f => (f.name, pre ++ f.name))
    ++ m.definitions.map (fun f => (f.name, pre ++ f.name)))
  let m' : Module := { m with
    foreigns := m.foreigns.map fun f => { f with name := (names f.name).getD f.name }
    definitions := m.definitions.map fun f => { f with name := (names f.name).getD f.name } }
  m'.mapVariables d (renamed names)

/-- `type_qualifier::qualify` (`lib/hir/src/analysis/type_qualifier.rs:8-92`). -/
def qualifyTypes (d : Nat) (pre : String) (m : Module) : Module :=
  let names := lastLookup
    (((m.types.filter fun t => !t.external).map fun t => (t.name, pre ++ t.name))
      ++ ((m.aliases.filter fun a => !a.external).map fun a => (a.name, pre ++ a.name)))
  let m' : Module := { m with
    types := m.types.map fun t => { t with name := (names t.name).getD t.name }
    aliases := m.aliases.map fun a => { a with name := (names a.name).getD a.name } }
  m'.mapTypes d (renameType names)

/-- The transformation of `built_in_type_transformer::transform`
(`lib/hir/src/analysis/built_in_type_transformer.rs:20-43`). -/
def builtInType (types : List String) : Ty → Ty
  | .reference n =>
    if n ∈ types then .reference n
    else match n with
      | "any" => .any
      | "boolean" => .boolean
      | "error" => .error
      | "none" => .none
      | "number" => .number
      | "string" => .string
      | n => .reference n
  | t => t

/-- `built_in_type_transformer::transform` (`lib/hir/src/analysis/built_in_type_transformer.rs:12-44`). -/
def builtInTypes (d : Nat) (m : Module) : Module :=
  m.mapTypes d (builtInType (m.types.map (·.name) ++ m.aliases.map (·.name)))

/-- The transformation of `built_in_variable_transformer::transform`
(`lib/hir/src/analysis/built_in_variable_transformer.rs:5-29`). -/
def builtInVariable (x : String) : Expr :=
  match x with
  | "debug" => .builtIn .debug
  | "delete" => .builtIn .delete
  | "error" => .builtIn .error
  | "false" => .boolean false
  | "go" => .builtIn .spawn
  | "keys" => .builtIn .keys
  | "none" => .none
  | "race" => .builtIn .race
  | "size" => .builtIn .size
  | "source" => .builtIn .source
  | "true" => .boolean true
  | "values" => .builtIn .values
  | "_reflect_debug" => .builtIn .reflectDebug
  | "_reflect_equal" => .builtIn .reflectEqual
  | x => .variable x

/-- `transform_module` (`lib/ast-hir/src/lib.rs:60-67`). -/
def transformModule (d : Nat) (pre : String) (m : Module) : Module :=
  let m := qualifyFunctions d pre m
  let m := qualifyTypes d pre m
  let m := builtInTypes d m
  m.mapVariables d builtInVariable

/-- `imported_module::validation::validate` (`lib/ast-hir/src/imported_module/validation.rs:4-34`). -/
def Import.valid (i : Import) : Bool :=
  i.unqualified.all fun x =>
    x ∈ i.interface.types.map (·.original) ++ i.interface.aliases.map (·.original)
      ++ i.interface.functions.map (·.original)

/-- `ast_hir::compile` (`lib/ast-hir/src/lib.rs:20-54`) after the conversion from the syntax tree. -/
def compile (d : Nat) (pre : String) (m : Module) (imports : List Import) (preludes : List Interface) :
    Option Module :=
  if imports.all (·.valid) then some (transformModule d pre (compileImported d m imports preludes))
  else none

/-- `module_interface::compile` (`lib/hir-mir/src/module_interface.rs:4-49`). -/
def interface (m : Module) : Interface :=
  { types := m.types.map fun t =>
      { name := t.name, original := t.original, fields := t.fields, isOpen := t.isOpen
        isPublic := t.isPublic && !t.external }
    aliases := m.aliases.map fun a =>
      { name := a.name, original := a.original, type := a.type, isPublic := a.isPublic && !a.external }
    functions := m.definitions.filterMap fun f =>
      if f.isPublic then
        some { name := f.name, original := f.original, type := lambdaType f.params f.result }
      else none }

end Verif.Names
