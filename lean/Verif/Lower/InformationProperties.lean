import Verif.Lower.Information
import Verif.Lower.Properties
import Verif.Names.Visibility

/-!
# C64, lowering

Lowered modules have type information for the types of all tags in them.
-/

namespace Verif.Lower

open Verif
open Verif.Hir (Ty Expr Module)

/-- Every tag in the code a module is lowered to is that of a type for which type information is generated. -/
theorem c64_lowered_partial (K : Config) (a d n : Nat) (m : Module) (p : Mir.Program) (ts : List Ty)
    (hp : compileModule K a d m = some p) (ht : informationTypes a n m = some ts) :
    ∀ g ∈ p.globals, ∀ t ∈ g.body.tagIds, ∃ τ ∈ ts, t = typeId K τ := by
  simp only [compileModule, Option.bind_eq_bind, Option.bind_eq_some_iff, Option.some.injEq] at hp
  obtain ⟨gs, hgs, rfl⟩ := hp
  intro g hg t htag
  obtain ⟨f, hf, he⟩ := mapM_source hgs hg
  obtain ⟨h1, h2⟩ := informationTypes_mem ht
  simp only [compileDefinition, Option.map_eq_map, Option.map_eq_some_iff] at he
  obtain ⟨b, hb, rfl⟩ := he
  rcases compile_tags d hb t htag with h | ⟨x, hx, τ, hτ, c, hc, u, hu, hany, h⟩
  · exact ⟨.error, h1 _ (by simp), h⟩
  · exact ⟨u, h2 f hf x hx τ hτ c hc u hu hany, h⟩

/-- The conditions are met by a module with tags. -/
example : (match compileModule sampleConfig 20 20 sampleModule, informationTypes 20 20 sampleModule with
    | some p, some ts => p.globals.any (fun g => !g.body.tagIds.isEmpty) && ts.contains .error
    | _, _ => false) = true := by decide +kernel

/-- `check = \(x any) boolean { true }` and
```
run = \() [number] {
  [number y() for y in [number 1] if check(\() none { none })]
}
``` -/
def conditionModule : Names.Module :=
  { types := [], aliases := [], foreigns := [], declarations := []
    definitions :=
      [⟨"check", "check", [⟨"x", .reference "any"⟩], .reference "boolean", .variable "true", false⟩,
       ⟨"run", "run", [], .list (.reference "number"),
        .comprehension (.reference "number") (.call none (.variable "y") [])
          ⟨["y"], [(none, .list (.reference "number") [.single (.number 1)])],
            some (.call none (.variable "check") [.lambda [] (.reference "none") (.variable "none")])⟩ [],
        false⟩] }

/-- Whether a function is made a variant in an expression, wherever it is. -/
def makesVariant : Nat → Expr → Bool
  | 0, _ => false
  | n + 1, e =>
    (match e with
      | .coercion (.function [] .none) .any _ => true
      | _ => false) ||
    match Names.parts [] e with
    | some (_, _, ps) => ps.any fun p => makesVariant n p.2
    | none => false

theorem makesVariant_occurs {n : Nat} {e : Expr} (h : makesVariant n e = true) :
    ∃ f, Names.Occurs (.coercion (.function [] .none) .any f) e := by
  induction n generalizing e with
  | zero => cases h
  | succ n ih =>
    simp only [makesVariant, Bool.or_eq_true] at h
    rcases h with h | h
    · split at h
      · exact ⟨_, .here⟩
      · cases h
    · split at h
      · rename_i hp
        obtain ⟨p, hm, h⟩ := List.any_eq_true.1 h
        obtain ⟨f, hf⟩ := ih h
        exact ⟨f, .part hp hm hf⟩
      · cases h

/-- Conditions of list comprehensions are not visited: an accepted module makes a variant of a function there, and there
is no type information for its type. -/
theorem c64_condition_counterexample : ∃ m, Names.checkMain conditionModule = .ok m ∧
    (∃ d ∈ m.definitions, ∃ f, Names.Occurs (.coercion (.function [] .none) .any f) d.body) ∧
    ∃ ts, informationTypes 20 20 m = some ts ∧ Ty.function [] .none ∉ ts := by
  have h : (match Names.checkMain conditionModule with
      | .ok m => m.definitions.any (fun d => makesVariant 20 d.body) &&
        match informationTypes 20 20 m with
        | some ts => !ts.contains (.function [] .none)
        | none => false
      | _ => false) = true := by decide +kernel
  split at h
  · rename_i m hm
    refine ⟨m, hm, ?_⟩
    simp only [Bool.and_eq_true] at h
    obtain ⟨h1, h2⟩ := h
    obtain ⟨d, hd, h1⟩ := List.any_eq_true.1 h1
    refine ⟨⟨d, hd, makesVariant_occurs h1⟩, ?_⟩
    split at h2
    · rename_i ts hts
      exact ⟨ts, hts, by simpa using h2⟩
    · cases h2
  · cases h

end Verif.Lower
