import Mathlib.Data.List.Lex
import Mathlib.Data.String.Basic
import Mathlib.Order.Basic

/-!
# HIR types

Model of `lib/hir/src/types/*.rs`.
-/

namespace Verif.Hir

/-- `Type` (`lib/hir/src/types/type_.rs:9-23`, variants in the same order).

Simplifications:
* source positions are dropped: `Position`'s `Eq`, `Ord` and `Hash` treat all positions as equal
  (`lib/position/src/lib.rs`), so they influence no decision modelled here;
* `Record::original_name` (`lib/hir/src/types/record.rs`) is dropped: it is the unqualified spelling kept
  for messages, and every record type of one qualified name comes from the same type definition. -/
inductive Ty where
  | any
  | boolean
  | error
  | function (args : List Ty) (result : Ty)
  | list (element : Ty)
  | map (key value : Ty)
  | none
  | number
  | record (name : String)
  | reference (name : String)
  | string
  | union (lhs rhs : Ty)
  deriving Repr, Inhabited

/-- Induction over types with the hypothesis for all function arguments. -/
theorem Ty.ind {P : Ty → Prop}
    (any : P .any) (boolean : P .boolean) (error : P .error)
    (function : ∀ as r, (∀ a ∈ as, P a) → P r → P (.function as r))
    (list : ∀ e, P e → P (.list e))
    (map : ∀ k v, P k → P v → P (.map k v))
    (none : P .none) (number : P .number)
    (record : ∀ n, P (.record n))
    (reference : ∀ n, P (.reference n))
    (string : P .string)
    (union : ∀ l r, P l → P r → P (.union l r)) : ∀ t, P t := by
  have key : ∀ n t, sizeOf t ≤ n → P t := by
    intro n
    induction n with
    | zero => intro t ht; cases t <;> simp at ht
    | succ n ih =>
      intro t ht
      cases t with
      | any => exact any
      | boolean => exact boolean
      | error => exact error
      | function as r =>
        simp only [Ty.function.sizeOf_spec] at ht
        refine function as r ?_ (ih r (by omega))
        intro a ha
        have := List.sizeOf_lt_of_mem ha
        exact ih a (by omega)
      | list e => simp only [Ty.list.sizeOf_spec] at ht; exact list e (ih e (by omega))
      | map k v =>
        simp only [Ty.map.sizeOf_spec] at ht
        exact map k v (ih k (by omega)) (ih v (by omega))
      | none => exact none
      | number => exact number
      | record n => exact record n
      | reference n => exact reference n
      | string => exact string
      | union l r =>
        simp only [Ty.union.sizeOf_spec] at ht
        exact union l r (ih l (by omega)) (ih r (by omega))
  exact fun t => key _ t (Nat.le_refl _)

/-- A self-delimiting code of a string (character codes, then a terminator smaller than any of them). -/
def encStr (s : String) : List Nat := s.toList.map (fun c => c.toNat + 1) ++ [0]

mutual
/-- A self-delimiting code of a type. Comparing two codes lexicographically is the order `#[derive(Ord)]`
gives to `Type` (`lib/hir/src/types/type_.rs:9`): variants by position in the enum, then fields from left to
right, vectors and strings lexicographically with a proper prefix first. -/
def enc : Ty → List Nat
  | .any => [0]
  | .boolean => [1]
  | .error => [2]
  | .function as r => 3 :: (encs as ++ enc r)
  | .list e => 4 :: enc e
  | .map k v => 5 :: (enc k ++ enc v)
  | .none => [6]
  | .number => [7]
  | .record n => 8 :: encStr n
  | .reference n => 9 :: encStr n
  | .string => [10]
  | .union l r => 11 :: (enc l ++ enc r)
/-- Code of an argument list. -/
def encs : List Ty → List Nat
  | [] => [0]
  | a :: as => 1 :: (enc a ++ encs as)
end

theorem encStr_prefix {a b : String} {x y : List Nat} (h : encStr a ++ x = encStr b ++ y) :
    a = b ∧ x = y := by
  have key : ∀ (a b : List Char), (a.map (fun c => c.toNat + 1) ++ [0]) ++ x
      = (b.map (fun c => c.toNat + 1) ++ [0]) ++ y → a = b ∧ x = y := by
    intro a
    induction a with
    | nil =>
      intro b h
      cases b with
      | nil => simpa using h
      | cons c b => simp at h
    | cons c a ih =>
      intro b h
      cases b with
      | nil => simp at h
      | cons d b =>
        simp only [List.map_cons, List.cons_append, List.cons.injEq, Nat.add_right_cancel_iff] at h
        obtain ⟨h1, h2⟩ := h
        obtain ⟨h3, h4⟩ := ih b h2
        refine ⟨?_, h4⟩
        have : c = d := by
          apply Char.ext
          apply UInt32.toNat_inj.mp
          exact h1
        rw [this, h3]
  obtain ⟨h1, h2⟩ := key _ _ h
  exact ⟨String.toList_injective h1, h2⟩

theorem enc_prefix (a : Ty) : ∀ (b : Ty) (x y : List Nat), enc a ++ x = enc b ++ y → a = b ∧ x = y := by
  induction a using Ty.ind with
  | function as r iha ihr =>
    intro b x y h
    cases b <;> simp [enc] at h
    rename_i bs s
    have key : ∀ (as bs : List Ty) (x y), (∀ a ∈ as, ∀ (b : Ty) (x y : List Nat),
        enc a ++ x = enc b ++ y → a = b ∧ x = y) → encs as ++ x = encs bs ++ y → as = bs ∧ x = y := by
      intro as
      induction as with
      | nil =>
        intro bs x y _ h
        cases bs with
        | nil => simpa [encs] using h
        | cons b bs => simp [encs] at h
      | cons a as ih =>
        intro bs x y H h
        cases bs with
        | nil => simp [encs] at h
        | cons b bs =>
          simp only [encs, List.cons_append, List.append_assoc, List.cons.injEq, true_and] at h
          obtain ⟨h1, h2⟩ := H a (by simp) b _ _ h
          obtain ⟨h3, h4⟩ := ih bs _ _ (fun a ha => H a (by simp [ha])) h2
          exact ⟨by rw [h1, h3], h4⟩
    obtain ⟨h1, h2⟩ := key as bs _ _ iha h
    obtain ⟨h3, h4⟩ := ihr s _ _ h2
    exact ⟨by rw [h1, h3], h4⟩
  | list e ih =>
    intro b x y h
    cases b <;> simp [enc] at h
    obtain ⟨h1, h2⟩ := ih _ _ _ h
    exact ⟨by rw [h1], h2⟩
  | map k v ihk ihv =>
    intro b x y h
    cases b <;> simp [enc] at h
    obtain ⟨h1, h2⟩ := ihk _ _ _ h
    obtain ⟨h3, h4⟩ := ihv _ _ _ h2
    exact ⟨by rw [h1, h3], h4⟩
  | union l r ihk ihv =>
    intro b x y h
    cases b <;> simp [enc] at h
    obtain ⟨h1, h2⟩ := ihk _ _ _ h
    obtain ⟨h3, h4⟩ := ihv _ _ _ h2
    exact ⟨by rw [h1, h3], h4⟩
  | record n =>
    intro b x y h
    cases b <;> simp [enc] at h
    obtain ⟨h1, h2⟩ := encStr_prefix h
    exact ⟨by rw [h1], h2⟩
  | reference n =>
    intro b x y h
    cases b <;> simp [enc] at h
    obtain ⟨h1, h2⟩ := encStr_prefix h
    exact ⟨by rw [h1], h2⟩
  | _ =>
    intro b x y h
    cases b <;> simp [enc] at h
    exact ⟨rfl, h⟩

theorem enc_injective : Function.Injective enc := by
  intro a b h
  exact (enc_prefix a b [] [] (by simpa using h)).1

instance : DecidableEq Ty := fun a b =>
  decidable_of_iff (enc a = enc b) ⟨fun h => enc_injective h, fun h => by rw [h]⟩

/-- `#[derive(PartialOrd, Ord)]` on `Type` (`lib/hir/src/types/type_.rs:9`), see `enc`. -/
instance : LinearOrder Ty := LinearOrder.lift' enc enc_injective

/-- Type alias tables: `FnvHashMap<String, Type>` from names to types
(`lib/hir/src/analysis/type_collector.rs:7-34`). -/
abbrev Aliases := String → Option Ty

/-- Fields of a record definition (`lib/hir/src/types/record_field.rs`). -/
structure RecordField where
  name : String
  type : Ty
  deriving Repr, DecidableEq

/-- Record tables: `FnvHashMap<String, Vec<RecordField>>`
(`lib/hir/src/analysis/type_collector.rs:36-42`). -/
abbrev Records := String → Option (List RecordField)

/-- `AnalysisError` (`lib/hir/src/analysis/error.rs`), only the variants the modelled code raises. -/
inductive Err where
  | typeNotFound (name : String)
  | recordNotFound (name : String)
  | anyTypeBranch
  | argumentCount
  | builtInFunctionNotCalled
  | collectionExpected
  | duplicateFunctionNames
  | duplicateTypeNames
  | functionExpected
  | impossibleRecord
  | invalidAdditionOperand
  /-- `CompileError::InvalidRecordEqualOperation` (`lib/hir-mir/src/error.rs:15`). -/
  | invalidRecordEqualOperation
  | invalidTryOperation
  | listComprehensionIterateeCount
  | listExpected
  | mapExpected
  | missingElseBlock
  | recordExpected
  | recordFieldNotFound
  | recordFieldPrivate
  | recursiveTypeAlias
  | spawnedFunctionArguments
  | tryOperationInList
  | typeNotComparable
  | typeNotInferred
  | typesNotMatched
  | unionExpected
  | unknownRecordField
  | unreachableCode
  | unusedErrorValue
  | variableNotFound
  | variantExpected
  /-- Not an error of the compiler: a failing `unwrap()`, i.e. a crash of the compiler. -/
  | panic
  /-- Not an error of the compiler: an input no parser or front end makes (see where it is raised). -/
  | notSource
  deriving Repr, DecidableEq

end Verif.Hir
