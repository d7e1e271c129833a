import Verif.Hir.Equality
import Verif.Hir.SoundnessProperties

/-!
# What comparing values means
-/

namespace Verif.Hir

/-- Two values are the same: numbers if the processor says so, variants if they carry the same type and the same
value, records if they are of the same type and all fields are the same. Nothing is said of lists, maps, functions and
errors. -/
inductive Same (W : World) (C : Ctx) : Val → Val → Prop
  | none : Same W C .none .none
  | boolean (b) : Same W C (.boolean b) (.boolean b)
  | number {i j} : W.equalNumbers i j = true → Same W C (.number i) (.number j)
  | string (s) : Same W C (.string s) (.string s)
  | variant {tag v w} : Same W C v w → Same W C (.variant tag v) (.variant tag w)
  | record {n fs gs} : (∀ x c, FieldTy C n x c → ∃ v, lookupField fs x = some v) →
      (∀ x c, FieldTy C n x c → ∃ w, lookupField gs x = some w) →
      (∀ x c v w, FieldTy C n x c → lookupField fs x = some v → lookupField gs x = some w → Same W C v w) →
      Same W C (.record n fs) (.record n gs)

/-- Values without lists, maps, functions and errors in them. -/
inductive FlatValue : Val → Prop
  | none : FlatValue .none
  | boolean (b) : FlatValue (.boolean b)
  | number (i) : FlatValue (.number i)
  | string (s) : FlatValue (.string s)
  | variant {tag v} : FlatValue v → FlatValue (.variant tag v)
  | record {n fs} : (∀ x v, lookupField fs x = some v → FlatValue v) → FlatValue (.record n fs)

/-- `log'` is `log` after calls of functions that compare records of other modules. -/
def OnlyCompares (external : String → Bool) (log log' : Log) : Prop :=
  ∃ es, log' = es ++ log ∧ ∀ e ∈ es, ∃ n, external n = true ∧ e.name = equalFunctionName n

/-- Functions that compare records of other modules do. -/
def ComparesExternals (W : World) (C : Ctx) (external : String → Bool) : Prop :=
  ∀ n, external n = true → ∀ log v w, Represents C v (.record n) → Represents C w (.record n) → FlatValue v → FlatValue w →
    ∃ q, W.call log (equalFunctionName n) [v, w] = .boolean q ∧ (q = true ↔ Same W C v w)

end Verif.Hir
