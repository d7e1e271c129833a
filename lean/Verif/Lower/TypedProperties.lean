import Verif.Lower.TypedTotality
import Verif.Lower.TypedErasure

/-!
# Accepted modules are lowered to modules that the type check accepts

The last step of `hir_mir::compile` (`lib/hir-mir/src/lib.rs:50-60`) is a type check of the result: a failure there is an internal
error of the compiler that a user can do nothing about.
-/

namespace Verif.Lower

open Verif.Hir (Ty Ctx Expr Module Definition RecordField Vars Canon Typed)
open Verif.Mir.Typed (TExpr TExprs TAlts TOp TDefinition TDeclaration TModule)
open Verif.Names (children)
open Verif

/-- Hashes of the types of a module do not collide. -/
def Collisionless (K : Config) (m : Module) : Prop := ∀ a n ts, informationTypes a n m = some ts → NoCollisions K ts

/-- C65: what an accepted module is lowered to passes the type check: names are different, bodies of functions, also of those the
compiler adds for type information, have the types of their signatures, and type information is complete. -/
theorem c65_typed_partial {K : ReflectConfig} {X : Extras} {b a n : Nat} {m₀ m : Module} {t : TModule} (ha : Hir.analyze b m₀ = .ok m)
    (ht : Hir.TameModule m₀) (hN : Nameable K X m) (hc : Collisionless K.toConfig m) (hp : compileModuleT K X a n m = some t) :
    Mir.Typed.checkModule t = true := by
  obtain ⟨P, rfl⟩ := compileModuleT_parts hp
  exact (Mir.Typed.checkModule_iff _).2 (P.wellTyped hN (hc a n _ P.types_eq) (Hir.moduleOk_of_analyze ha ht))

/-- C65: accepted modules in the modelled part of the language are lowered, and what they are lowered to passes the type check. -/
theorem c65_total_partial {K : ReflectConfig} {X : Extras} {b : Nat} {m₀ m : Module} (ha : Hir.analyze b m₀ = .ok m)
    (ht : Hir.TameModule m₀) (hN : Nameable K X m) (hc : Collisionless K.toConfig m) (hl : LowerableModule m) :
    ∃ N, ∀ a n, N ≤ a → N ≤ n → ∃ t, compileModuleT K X a n m = some t ∧ Mir.Typed.checkModule t = true := by
  obtain ⟨N, h⟩ := compileModuleT_some (K := K) (X := X) (Hir.moduleOk_of_analyze ha ht) hl
  refine ⟨N, fun a n h1 h2 => ?_⟩
  obtain ⟨t, h⟩ := h a n h1 h2
  exact ⟨t, h, c65_typed_partial ha ht hN hc h⟩

/-- C65: functions of the source in the module are those of the lowering of C51, with types added. -/
theorem c65_erased {K : ReflectConfig} {X : Extras} {a n : Nat} {m : Module} {t : TModule} (hp : compileModuleT K X a n m = some t) :
    ∃ p, compileModule K.toConfig a n m = some p ∧
      p.globals = (t.definitions.take m.definitions.length).map (·.erase (tagId K.toTypedConfig)) := by
  obtain ⟨P, rfl⟩ := compileModuleT_parts hp
  have key : ∀ {ds : List Definition} {es : List TDefinition},
      ds.mapM (compileDefinitionT K.toTypedConfig a m.ctx n) = some es →
      es.length = ds.length ∧ ds.mapM (compileDefinition K.toConfig a m.ctx n) = some (es.map (·.erase (tagId K.toTypedConfig))) := by
    intro ds
    induction ds with
    | nil =>
      intro es h
      simp only [List.mapM_nil, Option.pure_def, Option.some.injEq] at h
      subst h
      exact ⟨rfl, rfl⟩
    | cons d ds ih =>
      intro es h
      simp only [List.mapM_cons, Option.pure_def, Option.bind_eq_bind, Option.bind_eq_some_iff, Option.some.injEq] at h
      obtain ⟨e, he, es', hes, rfl⟩ := h
      obtain ⟨h1, h2⟩ := ih hes
      refine ⟨by simp [h1], ?_⟩
      simp [compileDefinitionT_erase he, h2]
  obtain ⟨h1, h2⟩ := key P.definitions_eq
  refine ⟨_, by simp only [compileModule, h2, Option.bind_eq_bind, Option.bind_some]; rfl, ?_⟩
  simp only [Parts.module]
  rw [List.take_append_of_le_length (by omega), List.take_of_length_le (by omega)]

end Verif.Lower
