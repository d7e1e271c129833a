import Verif.Hir.Analysis
import Verif.Common.Graph

/-!
# Validators of type definitions

Models of `recursive_type_alias_validator`, `type_existence_validator` (its part about types inside type
definitions and aliases), `impossible_type_validator` and `type_collector`.
-/

namespace Verif.Hir

/-- The type-level part of `hir::ir::Module` (`lib/hir/src/ir/module.rs`): record definitions and type
aliases. Positions, visibility and the value-level definitions are not modelled here; consequently every
definition counts as visible in `typesExist`. -/
structure TypeModule where
  records : List (String × List RecordField)
  aliases : List (String × Ty)

/-- Collecting key/value pairs into a `FnvHashMap`: a later pair replaces an earlier one. -/
def lastLookup {β : Type} (xs : List (String × β)) (n : String) : Option β :=
  (xs.reverse.find? (fun p => p.1 == n)).map (·.2)

/-- `type_collector::collect` (`lib/hir/src/analysis/type_collector.rs:7-18`). -/
def collectAliases (m : TypeModule) : Aliases :=
  lastLookup (m.records.map (fun d => (d.1, Ty.record d.1)) ++ m.aliases)

/-- `type_collector::collect_record_fields` (`lib/hir/src/analysis/type_collector.rs:37-43`). -/
def collectRecords (m : TypeModule) : Records := lastLookup m.records

mutual
/-- `recursive_type_alias_validator::collect_references`
(`lib/hir/src/analysis/recursive_type_alias_validator.rs:29-54`), a list instead of a hash set. -/
def collectReferences : Ty → List String
  | .function as r => collectReferencesList as ++ collectReferences r
  | .list e => collectReferences e
  | .map k v => collectReferences k ++ collectReferences v
  | .union l r => collectReferences l ++ collectReferences r
  | .reference n => [n]
  | .any | .boolean | .error | .record _ | .none | .number | .string => []
/-- `arguments().iter().flat_map(collect_references)`. -/
def collectReferencesList : List Ty → List String
  | [] => []
  | a :: as => collectReferences a ++ collectReferencesList as
end

/-- The edges added in `recursive_type_alias_validator::validate` (`:14-20`). Nodes of one name are
identified, as `indices` does. -/
def aliasEdges (m : TypeModule) : List (String × String) :=
  m.aliases.flatMap fun a =>
    ((collectReferences a.2).filter fun n => (m.aliases.map (·.1)).contains n).map fun n => (a.1, n)

/-- `recursive_type_alias_validator::validate`
(`lib/hir/src/analysis/recursive_type_alias_validator.rs:6-26`): `true` is `Ok(())`. -/
def validateAliases (m : TypeModule) : Bool :=
  (toposort (m.aliases.map (·.1)).dedup (aliasEdges m)).isSome

/-- The check `type_existence_validator::validate`
(`lib/hir/src/analysis/type_existence_validator.rs:6-36`) makes for one reference. -/
def referenceExists (m : TypeModule) (n : String) : Bool :=
  (m.records.map (·.1)).contains n || (m.aliases.map (·.1)).contains n

/-- `type_existence_validator::validate` restricted to alias definitions. -/
def aliasReferencesExist (m : TypeModule) : Bool :=
  m.aliases.all fun a => (collectReferences a.2).all (referenceExists m)

/-- `impossible_type_validator::is_type_recursive`
(`lib/hir/src/analysis/impossible_type_validator.rs:34-75`) with `are_any_type_recursive` (`:77-90`)
inlined for records. -/
def isTypeRecursive : Nat → Aliases → Records → String → List String → Ty → Res Err Bool
  | 0, _, _, _, _, _ => .more
  | n + 1, Γ, Δ, name, cache, .reference x => do
    let t ← resolve Γ x
    isTypeRecursive n Γ Δ name cache t
  | n + 1, Γ, Δ, name, cache, .record r =>
    if r ∈ cache then .ok false
    else if name = r then .ok true
    else do
      let fs ← resolveRecord Δ r
      let bs ← Res.mapList (fun f => isTypeRecursive n Γ Δ name (r :: cache) f.type) fs
      .ok (bs.any id)
  | n + 1, Γ, Δ, name, cache, .union l r => do
    let a ← isTypeRecursive n Γ Δ name cache l
    let b ← isTypeRecursive n Γ Δ name cache r
    .ok (a && b)
  | _ + 1, _, _, _, _, _ => .ok false

/-- `impossible_type_validator::validate_type_definition`
(`lib/hir/src/analysis/impossible_type_validator.rs:14-32`): `ok true` is `Err(ImpossibleRecord)`. -/
def isImpossible (n : Nat) (Γ : Aliases) (Δ : Records) (name : String) (fs : List RecordField) :
    Res Err Bool := do
  let bs ← Res.mapList (fun f => isTypeRecursive n Γ Δ name [] f.type) fs
  .ok (bs.any id)

end Verif.Hir
