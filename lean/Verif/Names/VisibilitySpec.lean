import Verif.Names.Specification
import Verif.Hir.Evaluation

/-! # Where an expression occurs in another one, and what it does to records -/

namespace Verif.Names

open Verif.Hir

/-- `Occurs x e`: the expression `x` occurs somewhere in `e`. -/
inductive Occurs (x : Expr) : Expr → Prop
  | here : Occurs x x
  | part {e k ts ps p} : parts [] e = some (k, ts, ps) → p ∈ ps → Occurs x p.2 → Occurs x e

/-- `OccursUnconditional x e`: the expression `x` occurs in `e` outside of all conditions of list comprehensions. -/
inductive OccursUnconditional (x : Expr) : Expr → Prop
  | here : OccursUnconditional x x
  | part {e k ts ps p} : (∀ t a b bs, e ≠ .comprehension t a b bs) → parts [] e = some (k, ts, ps) → p ∈ ps →
      OccursUnconditional x p.2 → OccursUnconditional x e
  | iteratee {t a b bs c i} : c ∈ b :: bs → i ∈ c.iteratees → OccursUnconditional x i.2 →
      OccursUnconditional x (.comprehension t a b bs)
  | element {t a b bs} : OccursUnconditional x a → OccursUnconditional x (.comprehension t a b bs)

/-- The record type an expression makes or looks into: constructing a record, updating one, reading a field.
The type of the last is what inference writes there. -/
def recordType : Expr → Option Ty
  | .record t _ => some t
  | .update t _ _ => some t
  | .deconstruct t _ _ => t
  | _ => none

/-- A name others may use: it begins with a capital letter (`lib/ast/src/analysis.rs:3-8`). -/
def PublicName (x : String) : Prop := ∃ c cs, x.toList = c :: cs ∧ c.isUpper = true

/-- The record types of a module as `lib/ast-hir/src/module.rs:11-28` makes them: a record is open when all its
fields have public names (`lib/ast/src/analysis.rs:10-15`). -/
def OpenByFields (m : Module) : Prop :=
  ∀ t ∈ m.types, t.isOpen = true ↔ ∀ f ∈ t.fields, PublicName f.name

/-- An error value, or one tagged as an error. -/
def IsError : Val → Prop
  | .error _ => True
  | .variant .error _ => True
  | _ => False

end Verif.Names
