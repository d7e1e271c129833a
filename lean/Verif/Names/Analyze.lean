import Verif.Names.Resolve
import Verif.Hir.Elaborate

/-!
# The analysis of a module with the visibility of its definitions

Model of `lib/hir/src/analysis.rs:42-61` with all its validators, on modules that name resolution
(`Resolve.lean`) has produced.
-/

namespace Verif.Names

open Verif.Hir

/-- The sub-expressions `expression_visitor::visit_expression` goes on to
(`lib/hir/src/analysis/expression_visitor.rs:20-140`). As in the code, the conditions of comprehensions are
not among them (`:72-80`). -/
def children : Expr → List Expr
  | .call _ f args => f :: args
  | .builtInCall _ b args => .builtIn b :: args
  | .if_ c a b => [c, a, b]
  | .ifList _ l _ _ a b => [l, a, b]
  | .ifMap _ _ _ m k a b => [m, k, a, b]
  | .ifType _ a bs els => a :: (bs.map (·.2) ++ els.toList.map (·.2))
  | .coercion _ _ a => [a]
  | .lambda _ _ b => [b]
  | .let_ _ _ a b => [a, b]
  | .list _ es => es.map fun
      | .single a => a
      | .multiple a => a
  | .comprehension _ e b bs => (b :: bs).flatMap (fun b => b.iteratees.map (·.2)) ++ [e]
  | .map _ _ es => es.flatMap fun
      | .single a b => [a, b]
      | .multiple a => [a]
  | .addition _ a b => [a, b]
  | .arithmetic _ a b => [a, b]
  | .booleanOp _ a b => [a, b]
  | .equality _ _ a b => [a, b]
  | .not a => [a]
  | .order _ a b => [a, b]
  | .try_ _ a => [a]
  | .record _ fs => fs.map (·.2)
  | .deconstruct _ r _ => [r]
  | .update _ r fs => r :: fs.map (·.2)
  | .boolean _ | .builtIn _ | .none | .number _ | .string _ | .variable _ => []

/-- A check of every visited expression: `for expression in collect_expressions(module)`
(`lib/hir/src/analysis/record_field_validator.rs:12`, `unused_error_validator.rs:9`), for one definition. -/
def visitAll (f : Expr → Res Err Unit) : Nat → Expr → Res Err Unit
  | 0, _ => .more
  | n + 1, e => do
    f e
    forList (visitAll f n) (children e)

/-- `canonicalize_record(..)?.ok_or_else(|| RecordExpected)` and the check that the record is open
(`lib/hir/src/analysis/record_field_validator.rs:15-29`). -/
def checkOpen (n : Nat) (A : Aliases) (opens : List String) (t : Ty) : Res Err Unit := do
  match ← canonicalize n A t with
  | .record r => if r ∈ opens then .ok () else .err .recordFieldPrivate
  | _ => .err .recordExpected

/-- The check of one expression in `record_field_validator::validate`
(`lib/hir/src/analysis/record_field_validator.rs:13-65`). -/
def checkFields (n : Nat) (A : Aliases) (opens : List String) : Expr → Res Err Unit
  | .record t _ => checkOpen n A opens t
  | .deconstruct t _ _ => do
    let t ← orErr t .typeNotInferred
    checkOpen n A opens t
  | .update t _ _ => checkOpen n A opens t
  | _ => .ok ()

/-- The check of one expression in `unused_error_validator::validate`
(`lib/hir/src/analysis/unused_error_validator.rs:10-30`). -/
def checkUnused (n : Nat) (A : Aliases) : Expr → Res Err Unit
  | .let_ x t _ _ => do
    let t ← orErr t .typeNotInferred
    match x with
    | some _ => .ok ()
    | none => do
      let c ← canonicalize n A t
      if c = .any then .ok ()
      else do
        let b ← subsumeCheck n A .error t
        if b then .err .unusedErrorValue else .ok ()
  | _ => .ok ()

/-- `collect_open_records` (`lib/hir/src/analysis/record_field_validator.rs:84-90`). -/
def openRecords (m : Module) : List String :=
  (m.types.filter fun t => !t.external || t.isOpen).map (·.name)

/-- The types `type_existence_validator` lets a module mention: `collect_existent_records` and
`collect_existent_types` (`lib/hir/src/analysis/type_existence_validator.rs:49-76`). -/
def visibleTypes (m : Module) : TypeModule :=
  { records := (m.types.filter fun t => !t.external || t.isPublic).map fun t => (t.name, t.fields)
    aliases := (m.aliases.filter fun a => !a.external || a.isPublic).map fun a => (a.name, a.type) }

/-- Function types. Declarations have no others (`lib/hir/src/ir/function_declaration.rs`); foreign
declarations of other types, which the parser accepts, are left out. -/
def functionType (x : String) : Ty → Option (String × (List Ty × Ty))
  | .function as r => some (x, (as, r))
  | _ => none

/-- The module as the analyses of `Verif.Hir` see it. Declarations are in the order of
`lib/hir/src/analysis/module_environment.rs:6-29`. -/
def Module.toHir (m : Module) : Hir.Module :=
  { types :=
      { records := m.types.map fun t => (t.name, t.fields)
        aliases := m.aliases.map fun a => (a.name, a.type) }
    declarations := m.declarations.filterMap (fun d => functionType d.name d.type)
      ++ m.foreigns.filterMap fun f => functionType f.name f.type
    definitions := m.definitions.map fun f => ⟨f.name, f.params, f.result, f.body⟩ }

/-- `type_existence_validator::validate` (`lib/hir/src/analysis/type_existence_validator.rs:6-47`):
external types, aliases and function declarations are not looked into. -/
def validateTypes (n : Nat) (m : Module) : Res Err Unit := do
  forList (fun t : TypeDefinition => forList (fun f : RecordField => typeExists (visibleTypes m) f.type) t.fields)
    (m.types.filter fun t => !t.external)
  forList (fun a : TypeAlias => typeExists (visibleTypes m) a.type) (m.aliases.filter fun a => !a.external)
  forList (fun f : ForeignDeclaration => typeExists (visibleTypes m) f.type) m.foreigns
  forList (fun f : FunctionDefinition => typesExist n (visibleTypes m) (.lambda f.params f.result f.body))
    m.definitions

/-- `impossible_type_validator::validate` (`lib/hir/src/analysis/impossible_type_validator.rs:6-32`). -/
def validatePossible (n : Nat) (m : Module) : Res Err Unit :=
  forList (fun t : TypeDefinition => do
    let b ← isImpossible n m.toHir.ctx.types m.toHir.ctx.records t.name t.fields
    if b then .err .impossibleRecord else .ok ()) m.types

/-- `record_field_validator::validate` and `unused_error_validator::validate` for one definition, on its body
after inference. -/
def validateDefinition (n : Nat) (opens : List String) (m : Hir.Module) (d : Definition) : Res Err Unit := do
  let e ← infer n m.ctx (m.vars.insertAll d.params) d.body
  visitAll (checkFields n m.ctx.types opens) n e
  visitAll (checkUnused n m.ctx.types) n e

/-- `analyze` (`lib/hir/src/analysis.rs:42-61`) with all its validators. The passes run one after the other
over all definitions there; here each definition goes through all of them, which changes only which error is
reported. -/
def analyze (n : Nat) (m : Module) : Res Err Hir.Module := do
  if (m.definitions.map (·.name)).dedup.length ≠ m.definitions.length then .err .duplicateFunctionNames
  else if (m.types.map (·.name) ++ m.aliases.map (·.name)).dedup.length ≠ m.types.length + m.aliases.length then
    .err .duplicateTypeNames
  else do
    validateTypes n m
    if validateAliases m.toHir.types then do
      validatePossible n m
      forList (validateDefinition n (openRecords m) m.toHir) m.toHir.definitions
      let ds ← Res.mapList (analyzeDefinition n m.toHir.ctx m.toHir.vars) m.toHir.definitions
      .ok ⟨m.toHir.types, m.toHir.declarations, ds⟩
    else .err .recursiveTypeAlias

end Verif.Names
