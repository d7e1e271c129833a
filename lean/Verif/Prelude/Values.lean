import Verif.Prelude.Map

/-
Model of the comparison and hash code that the compiler generates for comparable types:
`/repo/lib/hir-mir/src/transformation/{equal_operation/operation.rs, hash_calculation/expression.rs,
record_equal_function.rs, record_hash_function.rs, map_context/module.rs}` on run-time values.

* Types are canonical comparable types without lists (`ListModel.lean` has lists).
* Values carry the run-time tag that a type test looks at.
* The generated functions of a record type are recursive through the record environment, hence fuel. Out of fuel
  comparison is `false` and hashing is 0. The branches that cannot be reached in a type-checked program also are
  `false` and 0.
-/
namespace Verif.Prelude.Values

open Verif.Prelude

/-- Comparable types (lists left out). -/
inductive CTy where
  | none
  | boolean
  | number
  | string
  | record (name : String)
  | map (key value : CTy)
  | union (members : List CTy)

/-- Run-time values. A number is its binary64 bit pattern, a string is its bytes; a map carries the number of
the map type it was created at (its concrete type tag, `concrete_type.rs`). -/
inductive Val where
  | none
  | boolean (b : Bool)
  | number (bits : BitVec 64)
  | string (bytes : List UInt8)
  | record (name : String) (fields : List Val)
  | map (tag : Nat) (root : Fin 32 → Entry Val Val) (size : Int)

/-- Bit patterns of NaNs: exponent all ones, mantissa not zero. -/
def isNaN (x : BitVec 64) : Bool :=
  (x &&& 0x7FF0000000000000#64) == 0x7FF0000000000000#64 && (x &&& 0x000FFFFFFFFFFFFF#64) != 0#64

/-- Bit patterns of zeros. -/
def isZero (x : BitVec 64) : Bool := (x &&& 0x7FFFFFFFFFFFFFFF#64) == 0#64

/-- Number equality: the `==` of binary64 (ordered comparison, so that a NaN differs from everything).
equal_operation/operation.rs:113-120 keeps the comparison primitive. -/
def equalNumbers (x y : BitVec 64) : Bool := !isNaN x && !isNaN y && ((isZero x && isZero y) || x == y)

/-- `_pen_prelude_hash_number`: ffi/src/lib.rs:32-48; `sip` is the keyed SipHash of 8 bytes. -/
def hashNumber (sip : BitVec 64 → BitVec 64) (x : BitVec 64) : BitVec 64 :=
  sip (if isZero x then 0#64 else if isNaN x then 0x7FF8000000000000#64 else x)

/-- Everything the generated code depends on. -/
structure Env where
  /-- field types of a record type -/
  fields : String → List CTy
  /-- `compile_identity_hash`: record_hash_function.rs:163-172 -/
  identityHash : String → BitVec 64
  /-- the tag of a map type (its type identity) -/
  mapTag : CTy → CTy → Nat
  sip : BitVec 64 → BitVec 64
  sipString : List UInt8 → BitVec 64
  /-- bit patterns of the constants 0, 1, 2 (hash_calculation/expression.rs:17-19) and 5 (Map.pen:385) -/
  noneHash : BitVec 64
  trueHash : BitVec 64
  falseHash : BitVec 64
  mapHeader : BitVec 64

/-- The run-time test of a type alternative (`IfType` branches). -/
def hasTag (env : Env) : CTy → Val → Bool
  | .none, .none => true
  | .boolean, .boolean _ => true
  | .number, .number _ => true
  | .string, .string _ => true
  | .record n, .record m _ => n == m
  | .map k v, .map tag _ _ => env.mapTag k v == tag
  | _, _ => false

/-- The chain of `If`s of `record_equal_function.rs:83-140` (fields in order, stopping at a difference). -/
def equalFields (eq : CTy → Val → Val → Bool) : List CTy → List Val → List Val → Bool
  | t :: ts, x :: xs, y :: ys => if eq t x y then equalFields eq ts xs ys else false
  | [], _, _ => true
  | _, _, _ => false

/-- The fold of `record_hash_function.rs:117-152`: the fields are combined from the last to the first. -/
def hashFields (hash : CTy → Val → BitVec 64) (init : BitVec 64) : List CTy → List Val → BitVec 64
  | t :: ts, x :: xs => combineHashes (hashFields hash init ts xs) (hash t x)
  | _, _ => init

/-- The outer `IfType` of a union comparison: `operation.rs:159-219`, over the member types. -/
def equalUnion (env : Env) (eq : CTy → Val → Val → Bool) : List CTy → Val → Val → Bool
  | [], _, _ => false
  | t :: ts, x, y =>
    if hasTag env t x then (if hasTag env t y then eq t x y else false) else equalUnion env eq ts x y

/-- The `IfType` of a union hash: `hash_calculation/expression.rs:103-131`. -/
def hashUnion (env : Env) (hash : CTy → Val → BitVec 64) : List CTy → Val → BitVec 64
  | [], _ => 0
  | t :: ts, x => if hasTag env t x then hash t x else hashUnion env hash ts x

/-- The context of a map type: `map_context/module.rs:41-87` (comparable value types). -/
def mapContext (env : Env) (eq : CTy → Val → Val → Bool) (hash : CTy → Val → BitVec 64) (k v : CTy) :
    Ctx Val Val where
  equalKeys := eq k
  equalValues := eq v
  hashKey := hash k
  hashValue := hash v
  salt n := hashNumber env.sip (BitVec.ofNat 64 n)

mutual
/-- `hash_calculation/expression.rs:21-149` (`transform`), evaluated. -/
def hash (env : Env) : Nat → CTy → Val → BitVec 64
  | 0, _, _ => 0
  | n + 1, t, x =>
    match t, x with
    | .none, .none => env.noneHash
    | .boolean, .boolean b => if b then env.trueHash else env.falseHash
    | .number, .number x => hashNumber env.sip x
    | .string, .string x => env.sipString x
    | .record name, .record _ xs => hashFields (hash env n) (env.identityHash name) (env.fields name) xs
    | .map k v, .map _ h s => hashMap (mapContext env (equal env n) (hash env n) k v) env.mapHeader ⟨h, s⟩
    | .union ts, x => hashUnion env (hash env n) ts x
    | _, _ => 0

/-- `equal_operation/operation.rs:36-231` (`transform_canonical`), evaluated. -/
def equal (env : Env) : Nat → CTy → Val → Val → Bool
  | 0, _, _, _ => false
  | n + 1, t, x, y =>
    match t, x, y with
    | .none, .none, .none => true
    | .boolean, .boolean a, .boolean b => if a then b else (if b then false else true)
    | .number, .number a, .number b => equalNumbers a b
    | .string, .string a, .string b => a == b
    | .record name, .record _ xs, .record _ ys => equalFields (equal env n) (env.fields name) xs ys
    | .map k v, .map _ h s, .map _ h' s' =>
      equalMaps (mapContext env (equal env n) (hash env n) k v) ⟨h, s⟩ ⟨h', s'⟩
    | .union ts, x, y => equalUnion env (equal env n) ts x y
    | _, _, _ => false
end

end Verif.Prelude.Values
