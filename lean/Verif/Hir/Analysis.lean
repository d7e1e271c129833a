import Verif.Common.Res
import Verif.Hir.Types

/-!
# Type analyses of the HIR

Model of the type algebra in `lib/hir/src/analysis/`. The recursion of `canonicalize` follows alias
references, which may be cyclic, so every function takes fuel; see `Verif.Res`.
-/

namespace Verif.Hir

/-- `type_resolver::resolve` (`lib/hir/src/analysis/type_resolver.rs:5-14`). -/
def resolve (Γ : Aliases) (n : String) : Res Err Ty :=
  match Γ n with
  | some t => .ok t
  | none => .err (.typeNotFound n)

/-- Insertion into a `BTreeSet<Type>`, the set represented by its strictly ascending element list. -/
def btreeInsert (t : Ty) : List Ty → List Ty
  | [] => [t]
  | u :: us => if t < u then t :: u :: us else if t = u then u :: us else u :: btreeInsert t us

/-- Collecting an iterator into a `BTreeSet<Type>`. -/
def btreeSet (ts : List Ty) : List Ty := ts.foldl (fun s t => btreeInsert t s) []

/-- The closure given to `reduce` in `canonicalize_union`
(`lib/hir/src/analysis/type_canonicalizer.rs:76-84`). -/
def mergeAny (one other : Ty) : Ty :=
  if one = .any then one else if other = .any then other else .union one other

/-- `Iterator::reduce`. -/
def reduce (f : Ty → Ty → Ty) : List Ty → Option Ty
  | [] => none
  | t :: ts => some (ts.foldl f t)

mutual
/-- `canonicalize` (`lib/hir/src/analysis/type_canonicalizer.rs:7-42`) and `canonicalize_union`
(`:72-86`). -/
def canonicalize : Nat → Aliases → Ty → Res Err Ty
  | 0, _, _ => .more
  | n + 1, Γ, .function as r => do
    let as' ← Res.mapList (canonicalize n Γ) as
    let r' ← canonicalize n Γ r
    .ok (.function as' r')
  | n + 1, Γ, .list e => do
    let e' ← canonicalize n Γ e
    .ok (.list e')
  | n + 1, Γ, .map k v => do
    let k' ← canonicalize n Γ k
    let v' ← canonicalize n Γ v
    .ok (.map k' v')
  | n + 1, Γ, .union l r => do
    let ts ← collectTypes n Γ (.union l r) []
    match reduce mergeAny ts with
    | some t => .ok t
    | none => .more -- `unwrap()` of an empty set; shown unreachable in `Verif.Hir.canonicalize_sound`
  | n + 1, Γ, .reference x => do
    let t ← resolve Γ x
    canonicalize n Γ t
  | _ + 1, _, t => .ok t
/-- `collect_types_in_place` (`lib/hir/src/analysis/type_canonicalizer.rs:99-135`). -/
def collectTypes : Nat → Aliases → Ty → List Ty → Res Err (List Ty)
  | 0, _, _, _ => .more
  | n + 1, Γ, .union l r, s => do
    let s ← collectTypes n Γ l s
    collectTypes n Γ r s
  | n + 1, Γ, .reference x, s => do
    let t ← resolve Γ x
    collectTypes n Γ t s
  | n + 1, Γ, t, s => do
    let t ← canonicalize n Γ t
    .ok (btreeInsert t s)
end

mutual
/-- `type_equality_checker::check_canonical` (`lib/hir/src/analysis/type_equality_checker.rs:16-46`).
`unreachable!()` on references is modelled as `false` (canonical types contain none). -/
def equalCanonical : Ty → Ty → Bool
  | .function as r, .function bs s =>
    as.length == bs.length && equalCanonicals as bs && equalCanonical r s
  | .list a, .list b => equalCanonical a b
  | .map k v, .map k' v' => equalCanonical k k' && equalCanonical v v'
  | .union l r, .union l' r' => equalCanonical l l' && equalCanonical r r'
  | .record a, .record b => a == b
  | .any, .any | .boolean, .boolean | .error, .error | .none, .none | .number, .number
  | .string, .string => true
  | _, _ => false
/-- `iter().zip(..).all(..)` of the same function: stops at the shorter list. -/
def equalCanonicals : List Ty → List Ty → Bool
  | a :: as, b :: bs => equalCanonical a b && equalCanonicals as bs
  | _, _ => true
end

/-- `type_equality_checker::check` (`lib/hir/src/analysis/type_equality_checker.rs:5-14`). -/
def equalCheck (n : Nat) (Γ : Aliases) (one other : Ty) : Res Err Bool := do
  let a ← canonicalize n Γ one
  let b ← canonicalize n Γ other
  .ok (equalCanonical a b)

/-- `type_subsumption_checker::check_canonical`
(`lib/hir/src/analysis/type_subsumption_checker.rs:17-33`). The `&&` and `||` there short-circuit. -/
def subsumeCanonical (n : Nat) (Γ : Aliases) : Ty → Ty → Res Err Bool
  | _, .any => .ok true
  | .union l r, .union l' r' => do
    if ← subsumeCanonical n Γ l (.union l' r') then subsumeCanonical n Γ r (.union l' r')
    else .ok false
  | t, .union l r => do
    if ← subsumeCanonical n Γ t l then .ok true else subsumeCanonical n Γ t r
  | t, u => equalCheck n Γ t u
termination_by t u => sizeOf t + sizeOf u

/-- `type_subsumption_checker::check` (`lib/hir/src/analysis/type_subsumption_checker.rs:5-15`). -/
def subsumeCheck (n : Nat) (Γ : Aliases) (lower upper : Ty) : Res Err Bool := do
  let a ← canonicalize n Γ lower
  let b ← canonicalize n Γ upper
  subsumeCanonical n Γ a b

/-- `union_type_member_calculator::calculate_canonical`
(`lib/hir/src/analysis/union_type_member_calculator.rs:18-26`); the hash sets are lists here, the only
consumer collects them into a `BTreeSet`. -/
def unionMembers : Ty → List Ty
  | .union l r => unionMembers l ++ unionMembers r
  | t => [t]

/-- `union_type_member_calculator::calculate`
(`lib/hir/src/analysis/union_type_member_calculator.rs:7-16`). -/
def unionMemberSet (n : Nat) (Γ : Aliases) (t : Ty) : Res Err (List Ty) := do
  let t ← canonicalize n Γ t
  .ok (btreeSet (unionMembers t))

/-- `union_type_creator::create` (`lib/hir/src/analysis/union_type_creator.rs:4-9`). -/
def createUnion (ts : List Ty) : Option Ty := reduce .union ts

/-- `type_difference_calculator::calculate`
(`lib/hir/src/analysis/type_difference_calculator.rs:5-27`). -/
def typeDifference (n : Nat) (Γ : Aliases) (one other : Ty) : Res Err (Option Ty) := do
  let one ← canonicalize n Γ one
  let other ← canonicalize n Γ other
  if other = .any then .ok none
  else if one = .any then .ok (some one)
  else do
    let a ← unionMemberSet n Γ one
    let b ← unionMemberSet n Γ other
    .ok (createUnion (a.filter (fun t => !b.contains t)))

/-- `join(",")` of already formatted pieces. -/
def joinComma : List (List Char) → List Char
  | [] => []
  | [s] => s
  | s :: t :: ss => s ++ ',' :: joinComma (t :: ss)

mutual
/-- `type_id_calculator::calculate_string` (`lib/hir/src/analysis/type_id_calculator.rs:29-66`), as a list
of characters. -/
def typeIdString : Ty → List Char
  | .any => ['a', 'n', 'y']
  | .boolean => ['b', 'o', 'o', 'l', 'e', 'a', 'n']
  | .error => ['e', 'r', 'r', 'o', 'r']
  | .function as r => ['(', '\\', '('] ++ joinComma (typeIdStrings as) ++ [')'] ++ typeIdString r ++ [')']
  | .list e => ['['] ++ typeIdString e ++ [']']
  | .map k v => ['{'] ++ typeIdString k ++ [':'] ++ typeIdString v ++ ['}']
  | .none => ['n', 'o', 'n', 'e']
  | .number => ['n', 'u', 'm', 'b', 'e', 'r']
  | .record n => ['r', 'e', 'c', 'o', 'r', 'd', '('] ++ n.toList ++ [')']
  | .string => ['s', 't', 'r', 'i', 'n', 'g']
  | .union l r => ['('] ++ typeIdString l ++ ['|'] ++ typeIdString r ++ [')']
  | .reference _ => [] -- `unreachable!()`
/-- The mapped argument list of the same function. -/
def typeIdStrings : List Ty → List (List Char)
  | [] => []
  | a :: as => typeIdString a :: typeIdStrings as
end

/-- `type_id_calculator::calculate_canonical_string`
(`lib/hir/src/analysis/type_id_calculator.rs:20-27`). The public `calculate` (`:9-17`) additionally applies
the 64-bit `DefaultHasher`, which is not modelled. -/
def typeId (n : Nat) (Γ : Aliases) (t : Ty) : Res Err (List Char) := do
  let t ← canonicalize n Γ t
  .ok (typeIdString t)

/-- `record_field_resolver::resolve_record` (`lib/hir/src/analysis/record_field_resolver.rs:18-26`). -/
def resolveRecord (Δ : Records) (n : String) : Res Err (List RecordField) :=
  match Δ n with
  | some fs => .ok fs
  | none => .err (.recordNotFound n)

/-- `type_comparability_checker::check_with_cache`
(`lib/hir/src/analysis/type_comparability_checker.rs:13-65`). `&&` short-circuits; the fields of a record
are all checked before the conjunction is taken. -/
def comparableWithCache : Nat → Aliases → Records → List String → Ty → Res Err Bool
  | 0, _, _, _, _ => .more
  | _ + 1, _, _, _, .any => .ok false
  | _ + 1, _, _, _, .boolean => .ok true
  | _ + 1, _, _, _, .error => .ok false
  | _ + 1, _, _, _, .function _ _ => .ok false
  | n + 1, Γ, Δ, c, .list e => comparableWithCache n Γ Δ c e
  | n + 1, Γ, Δ, c, .map k v => do
    if ← comparableWithCache n Γ Δ c k then comparableWithCache n Γ Δ c v else .ok false
  | _ + 1, _, _, _, .none => .ok true
  | _ + 1, _, _, _, .number => .ok true
  | n + 1, Γ, Δ, c, .record r =>
    if r ∈ c then .ok true
    else do
      let fs ← resolveRecord Δ r
      let bs ← Res.mapList (fun f => comparableWithCache n Γ Δ (r :: c) f.type) fs
      .ok (bs.all id)
  | n + 1, Γ, Δ, c, .reference x => do
    let t ← resolve Γ x
    comparableWithCache n Γ Δ c t
  | _ + 1, _, _, _, .string => .ok true
  | n + 1, Γ, Δ, c, .union l r => do
    if ← comparableWithCache n Γ Δ c l then comparableWithCache n Γ Δ c r else .ok false

/-- `type_comparability_checker::check` (`lib/hir/src/analysis/type_comparability_checker.rs:5-11`). -/
def comparableCheck (n : Nat) (Γ : Aliases) (Δ : Records) (t : Ty) : Res Err Bool :=
  comparableWithCache n Γ Δ [] t

end Verif.Hir
