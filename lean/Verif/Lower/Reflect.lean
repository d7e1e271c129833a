import Verif.Lower.TypedModules

/-!
# Reflection

Model of what `debug`, `_reflect_debug` and `_reflect_equal` are compiled to (`lib/hir-mir/src/built_in_call.rs:48-53`,
`:164-169`), which `packages/reflect/Any.pen` is made of, and what is expected of them.
-/

namespace Verif.Lower

open Verif.Hir (Ty Ctx Expr Module Definition RecordField Canon)
open Verif.Mir.Typed (TExpr TExprs TAlts TOp TDefinition TDeclaration TModule)
open Verif

/-- Values of the language without lists and maps. Numbers are bits of floating-point numbers; functions have types that they were
defined with. -/
inductive Data
  | none
  | boolean (b : Bool)
  | number (n : UInt64)
  | string (s : List UInt8)
  | error (source : Data)
  | record (name : String) (fields : List Data)
  | function (args : List Ty) (result : Ty) (f : Mir.Value)

/-- The type of a value. -/
def Data.type : Data → Ty
  | .none => .none
  | .boolean _ => .boolean
  | .number _ => .number
  | .string _ => .string
  | .error _ => .error
  | .record n _ => .record n
  | .function as r _ => .function as r

/-! ## What is expected -/

/-- Both are true; none if any is not known. -/
def both : Option Bool → Option Bool → Option Bool
  | some x, some y => some (x && y)
  | _, _ => none

mutual
/-- Whether values are equal, for an equality of numbers. It is not known for functions of the same type, and for values with those in
the same place. -/
def Data.equal (same : UInt64 → UInt64 → Bool) : Data → Data → Option Bool
  | .none, .none => some true
  | .boolean a, .boolean b => some (a == b)
  | .number a, .number b => some (same a b)
  | .string a, .string b => some (a == b)
  | .error a, .error b => a.equal same b
  | .record n as, .record m bs => if n = m then Data.equalAll same as bs else some false
  | .function as r _, .function bs s _ => if as = bs ∧ r = s then Option.none else some false
  | _, _ => some false
def Data.equalAll (same : UInt64 → UInt64 → Bool) : List Data → List Data → Option Bool
  | [], [] => some true
  | a :: as, b :: bs => both (a.equal same b) (Data.equalAll same as bs)
  | _, _ => some false
end

/-- Pieces separated by commas. -/
def commaSeparated : List (List UInt8) → List UInt8
  | [] => []
  | [s] => s
  | s :: ss => s ++ bytes ", " ++ commaSeparated ss

mutual
/-- How a value is printed, given how numbers are, names of records as they are written, and fields. -/
def Data.debug (number : UInt64 → List UInt8) (name : String → String) (fields : String → List String) : Data → List UInt8
  | .none => bytes "none"
  | .boolean true => bytes "true"
  | .boolean false => bytes "false"
  | .number n => number n
  | .string s => bytes "\"" ++ s ++ bytes "\""
  | .error d => bytes "error(" ++ d.debug number name fields ++ bytes ")"
  | .record n ds => bytes (name n ++ "{") ++ commaSeparated (Data.debugAll number name fields (fields n) ds) ++ bytes "}"
  | .function _ _ _ => bytes "<function>"
def Data.debugAll (number : UInt64 → List UInt8) (name : String → String) (fields : String → List String) :
    List String → List Data → List (List UInt8)
  | f :: fs, d :: ds => (bytes (f ++ ": ") ++ d.debug number name fields) :: Data.debugAll number name fields fs ds
  | _, _ => []
end

/-! ## Values at run time -/

section
variable (K : TypedConfig) (C : Ctx) (types : List Ty)

/-- The tag of values of a type in variants. -/
def tagOf (c : Ty) : Mir.TypeId := tagId K (concreteType K c)

mutual
/-- How a value is represented where its type is known. -/
inductive Payload : Data → Mir.Value → Prop
  | none : Payload .none .none
  | boolean (b) : Payload (.boolean b) (.boolean b)
  | number (n) : Payload (.number n) (.number n)
  | string (s) : Payload (.string s) (.string s)
  | error {d v} : Tagged d v → Payload (.error d) (.record (tagId K (.record "hir:error")) [v])
  | record {n fs ds vs} : C.records n = some fs → Fields fs ds vs → Payload (.record n ds) (.record (tagId K (.record n)) vs)
  | function {as r v} : Payload (.function as r v) v
/-- How a value is represented where its type is not known. There is type information of its type in the module. -/
inductive Tagged : Data → Mir.Value → Prop
  | plain {d v} : Payload d v → boxed d.type = false → d.type ∈ types → Tagged d (.variant (tagOf K d.type) v)
  | box {d v} : Payload d v → boxed d.type = true → d.type ∈ types →
      Tagged d (.variant (tagOf K d.type) (.record (tagId K (.record (typeName K.toConfig d.type))) [v]))
/-- How a field with a canonical type is represented. -/
inductive Field : Ty → Data → Mir.Value → Prop
  | tagged {c d v} : lowerType K c = .variant → Tagged d v → Field c d v
  | payload {c d v} : lowerType K c ≠ .variant → d.type = c → c ∈ types → Payload d v → Field c d v
/-- How fields are represented. -/
inductive Fields : List RecordField → List Data → List Mir.Value → Prop
  | nil : Fields [] [] []
  | cons {f fs c d ds v vs} : Canon C.types f.type c → Field c d v → Fields fs ds vs → Fields (f :: fs) (d :: ds) (v :: vs)
end

/-- Results of comparison: `boolean | none`. -/
def comparisonResult : Option Bool → Mir.Value
  | some b => .variant (tagId K .boolean) (.boolean b)
  | none => .variant (tagId K .none) .none

end

/-! ## What the built-in functions are compiled to -/

/-- `debug(e)` (`lib/hir-mir/src/built_in_call.rs:48-53`). -/
def debugBuiltIn (e : TExpr) : TExpr := operationT (.call [.byteString] .none) [.variable "__debug", debugCall e]

/-- `_reflect_debug(e)` (`built_in_call.rs:164-166`). -/
def reflectDebug (e : TExpr) : TExpr := debugCall e

/-- `_reflect_equal(l, r)` (`built_in_call.rs:167-169`). -/
def reflectEqual (l r : TExpr) : TExpr := equalCall l r

end Verif.Lower
