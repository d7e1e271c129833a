import Verif.Hir.Hash
import Verif.Hir.EqualitySpec

/-!
# What hashing values means

Values that are the same, in the sense of `Same` of `Hir/EqualitySpec.lean`, have the same hash.
-/

namespace Verif.Hir

/-- Types written as unions that denote a type that is not a union, as `number | number`. -/
inductive Degenerate (A : Aliases) : Ty → Prop
  | union {l r c} : Canon A (.union l r) c → NotUnion c → Degenerate A (.union l r)
  | reference {x t} : A x = some t → Degenerate A t → Degenerate A (.reference x)

/-- Names of the functions that calculate hashes. -/
def IsHashFunction (K : HashNames) (external : String → Bool) (x : String) : Prop :=
  x = K.numberHash ∨ x = K.stringHash ∨ x = K.combine ∨ ∃ n, external n = true ∧ x = hashFunctionName n

/-- `log'` is `log` after calls of functions that calculate hashes. -/
def OnlyHashes (K : HashNames) (external : String → Bool) (log log' : Log) : Prop :=
  ∃ es, log' = es ++ log ∧ ∀ e ∈ es, IsHashFunction K external e.name

/-- Functions of the prelude and of other modules calculate hashes: the results depend on the arguments only, and are the
same for arguments that are the same. -/
structure HashesExternals (W : World) (C : Ctx) (K : HashNames) (external : String → Bool) : Prop where
  number : ∃ f : UInt64 → UInt64, (∀ i j, W.equalNumbers i j = true → f i = f j) ∧
    ∀ log i, W.call log K.numberHash [.number i] = .number (f i)
  string : ∃ f : List UInt8 → UInt64, ∀ log s, W.call log K.stringHash [.string s] = .number (f s)
  combine : ∃ f : UInt64 → UInt64 → UInt64, ∀ log i j, W.call log K.combine [.number i, .number j] = .number (f i j)
  record : ∀ n, external n = true → ∀ log log' v w, Represents C v (.record n) → Represents C w (.record n) →
    FlatValue v → FlatValue w → ∃ h h', W.call log (hashFunctionName n) [v] = .number h ∧
      W.call log' (hashFunctionName n) [w] = .number h' ∧ (Same W C v w → h = h')

/-- A function of another module in scope. -/
def Imported (m : Module) (x : String) : Prop :=
  x ∈ m.declarations.map (·.1) ∧ ∀ d ∈ m.definitions, d.name ≠ x

end Verif.Hir
