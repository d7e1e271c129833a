import Verif.Mir.TypeProperties

/-
C63: a module that meets the conditions, and modules that show that they are needed.
-/
namespace Verif.Mir.Typed

/-- `type p { x number  y number | boolean | p }`; `describe` of type information; and
```
f = \(v number | p | none, n number) number | p | none {
  g = \(k number) number { h(k + n) }
  if y = v? as number { describe(y)(); p{x: g(y), y: true} } else if none { v } else { p{...p{x: n, y: n}, y: p} }
}
```
with tags of their names. -/
def sampleTyped : TModule where
  types := [("p", [.number, .variant])]
  foreignDeclarations := [⟨"h", [.number], .number⟩]
  foreignDefinitions := ["f"]
  declarations := [⟨"describe", [], .byteString⟩]
  definitions := [⟨"f", [("v", .variant), ("n", .number)], .variant, false,
    .letRec "g" [] [("k", .number)] .number false
      (.op (.call [.number] .number) (.cons (.variable "h")
        (.cons (.op (.arithmetic .add) (.cons (.variable "k") (.cons (.variable "n") .nil))) .nil)))
      (.case (.try_ (.variable "v") "e" .boolean (.op (.variant .boolean) (.cons (.variable "e") .nil)))
        (.cons [.number] "y"
          (.let_ "s" .byteString (.op (.call [] .byteString)
              (.cons (.op .typeInformation (.cons (.op (.variant .number) (.cons (.variable "y") .nil)) .nil)) .nil))
            (.op (.variant (.record "p")) (.cons (.op (.record "p")
              (.cons (.op (.call [.number] .number) (.cons (.variable "g") (.cons (.variable "y") .nil)))
                (.cons (.op (.variant .boolean) (.cons (.literal (.boolean true)) .nil)) .nil))) .nil)))
        (.cons [.none, .boolean] "w" (.variable "w")
        (.default "w" (.op (.variant (.record "p")) (.cons (.op (.update "p" [1, 0])
          (.cons (.op (.record "p") (.cons (.variable "n") (.cons (.variable "w") .nil)))
            (.cons (.variable "w") (.cons (.variable "n") .nil)))) .nil))))))⟩]
  information := [(.number, "describe")]
  fallback := "describe"

/-- Ids of types. -/
def sampleId : Ty → TypeId
  | .boolean => "boolean"
  | .byteString => "string"
  | .function .. => "function"
  | .none => "none"
  | .number => "number"
  | .record n => "record " ++ n
  | .variant => "variant"

def sampleTags (τ : Ty) : Prop := τ ∈ [Ty.boolean, .number, .none, .record "p"]

/-- Native code that doubles numbers. -/
def sampleTypedWorld : World where
  arithmetic _ a b := a + b
  comparison _ a b := a == b
  foreign _ g args := if g = "h" then (match args with | [.number n] => .number (n + n) | _ => .number 0) else .string [1]

theorem sampleTyped_checked : checkModule sampleTyped = true := by decide +kernel

theorem sampleTyped_scoped : WellScoped sampleTyped sampleId sampleTags where
  scopes d hd := by
    simp only [sampleTyped, List.mem_singleton] at hd
    subst hd
    simp [Scoped, ScopedAll, ScopedAlts, sampleTyped]
  args d hd x hx := by
    simp only [sampleTyped, List.mem_singleton] at hd
    subst hd
    simp only [List.mem_cons, List.not_mem_nil, or_false] at hx
    rcases hx with rfl | rfl <;> simp [sampleTyped]
  tags d hd τ hτ := by
    simp only [sampleTyped, List.mem_singleton] at hd
    subst hd
    simp only [TExpr.tags, TExprs.tags, TAlts.tags, List.nil_append, List.append_nil, List.cons_append, List.mem_cons,
      List.not_mem_nil, or_false, List.mem_append, false_or] at hτ
    simp only [sampleTags, List.mem_cons, List.not_mem_nil, or_false]
    grind
  ids σ τ hσ hτ h := by
    simp only [sampleTags, List.mem_cons, List.not_mem_nil, or_false] at hσ hτ
    rcases hσ with rfl | rfl | rfl | rfl <;> rcases hτ with rfl | rfl | rfl | rfl <;> first | rfl | (revert h; decide)

theorem sampleTyped_honest : Honest sampleTyped sampleId sampleTags sampleTypedWorld := by
  intro d hd log args h
  simp only [TModule.native, sampleTyped, List.mem_append, List.mem_singleton] at hd
  rcases hd with rfl | rfl
  · obtain ⟨o, _, h1, h2, rfl⟩ := List.forall₂_cons_right_iff.1 h
    cases h2
    cases h1
    exact ⟨⟨_, rfl⟩, .number _⟩
  · exact ⟨⟨_, rfl⟩, .string _⟩

theorem sampleTyped_total : ∀ d ∈ sampleTyped.definitions, (d.body.erase sampleId).total = true := by
  intro d hd
  simp only [sampleTyped, List.mem_singleton] at hd
  subst hd
  rfl

/-- All conditions are met. -/
example : ∀ fuel, (sampleTyped.program sampleId).run sampleTypedWorld captureAll fuel "f"
    [.variant "number" (.number 3), .number 4] ≠ .stuck := fun fuel =>
  c63_total sampleTyped sampleTyped_checked sampleId sampleTags sampleTyped_scoped sampleTyped_total sampleTypedWorld
    sampleTyped_honest fuel "f" [.variant, .number] .variant (by simp [TModule.functions, sampleTyped]) _
    (.cons (.variant (τ := .number) (by simp [sampleTags]) (by simp) (.number _)) (.cons (.number _) .nil)) ⟨_, rfl⟩

theorem sampleTyped_frontEnd : FrontEnd (sampleTyped.program sampleId) where
  named d hd := by
    simp only [TModule.program, sampleTyped, List.map_cons, List.map_nil, List.mem_singleton] at hd
    subst hd
    refine ⟨by decide +kernel, ?_, by decide +kernel, by decide +kernel,
      by simp [distinctArguments, distinctArgumentsExprs, distinctArgumentsAlts, TDefinition.erase, TExpr.erase, TExprs.erase,
        TAlts.erase],
      by simp [noEnvironments, noEnvironmentsExprs, noEnvironmentsAlts, TDefinition.erase, TExpr.erase, TExprs.erase,
        TAlts.erase]⟩
    intro x hx
    refine sourceName_of_no_colon ?_
    revert x
    decide +kernel
  globals x hx := by
    have : ':' ∉ x.toList := by
      simp [TModule.program, sampleTyped, Program.isGlobal, Program.find, TDefinition.erase] at hx
      rcases hx with (rfl | rfl) | rfl <;> decide
    exact ⟨plain_of_no_colon this, sourceName_of_no_colon this⟩
  args d hd := by
    simp only [TModule.program, sampleTyped, List.map_cons, List.map_nil, List.mem_singleton] at hd
    subst hd
    refine ⟨by decide +kernel, fun x hx => ⟨plain_of_no_colon ?_, ?_⟩⟩ <;> revert x <;> decide +kernel
  bodies d hd := by
    simp only [TModule.program, sampleTyped, List.map_cons, List.map_nil, List.mem_singleton] at hd
    subst hd
    simp [shaped, shapedExprs, shapedAlts, Op.shaped, TDefinition.erase, TExpr.erase, TExprs.erase, TAlts.erase, TOp.erase,
      Exprs.toList]

/-- All conditions are met, and with a heap. -/
example (fuel : Nat) : ∃ q, middleEnd (sampleTyped.program sampleId) = some q ∧
    ((q.hrun sampleTypedWorld fuel "f" [.variant "number" (.number 3), .number 4]).outcome = some .timeout ∨
      ∃ v log, (q.hrun sampleTypedWorld fuel "f" [.variant "number" (.number 3), .number 4]).outcome = some (.value v log) ∧
        ObsHasType sampleTyped.context.types sampleId sampleTags v .variant) := by
  obtain ⟨q, hq⟩ := c50_accepts_partial _ sampleTyped_frontEnd
  exact ⟨q, hq, c63_middle_end_partial sampleTyped sampleTyped_checked sampleId sampleTags sampleTyped_scoped
    sampleTyped_total sampleTypedWorld sampleTyped_honest fuel "f" [.variant, .number] .variant
    (by simp [TModule.functions, sampleTyped]) _
    (.cons (.variant (τ := .number) (by simp [sampleTags]) (by simp) (.number _)) (.cons (.number _) .nil)) ⟨_, rfl⟩
    sampleTyped_frontEnd q hq⟩

/-- It is the double of 3 + 4 that the record has. -/
example : ((sampleTyped.program sampleId).run sampleTypedWorld captureAll 9 "f"
    [.variant "number" (.number 3), .number 4]).outcome =
    .value (.variant "record p" (.record "record p" [.number 14, .variant "boolean" (.boolean true)]))
      [⟨"h", [.number 7], .number 14⟩, ⟨"describe", [], .string [1]⟩] := by rfl

/-- What the checker rejects: a wrong operand, a wrong number of arguments, alternatives that differ, a nested variant, a
wrong field and a name that is defined twice. -/
example : ∀ e ∈ [
    TExpr.op (.arithmetic .add) (.cons (.variable "n") (.cons (.literal .none) .nil)),
    .op (.call [.number] .number) (.cons (.variable "h") .nil),
    .case (.variable "v") (.cons [.number] "x" (.variable "x") (.default "x" (.literal .none))),
    .op (.variant .variant) (.cons (.variable "v") .nil),
    .op (.record "p") (.cons (.variable "n") (.cons (.variable "n") .nil))],
    check sampleTyped.context .number (sampleTyped.scope.insertMany [("v", .variant), ("n", .number)]) e = none := by
  decide +kernel

example : checkModule { sampleTyped with declarations := [⟨"describe", [], .byteString⟩, ⟨"h", [], .number⟩] } = false := by
  decide +kernel

/-! ### The conditions are needed -/

/-- Native code for modules without native code. -/
def noWorld : World where
  arithmetic _ a b := a + b
  comparison _ a b := a == b
  foreign _ _ _ := .none

/-- The checker trusts environments of closures: here is one with a variable that is not in scope. -/
def wrongEnvironment : TModule where
  types := []
  foreignDeclarations := []
  foreignDefinitions := []
  declarations := []
  definitions := [⟨"f", [], .number, false,
    .letRec "g" [("x", .number)] [] .number false (.variable "x") (.op (.call [] .number) (.cons (.variable "g") .nil))⟩]
  information := []
  fallback := "f"

theorem c63_environment_counterexample :
    checkModule wrongEnvironment = true ∧ Honest wrongEnvironment sampleId sampleTags noWorld ∧
    (wrongEnvironment.program sampleId).run noWorld captureAll 3 "f" [] = .stuck ∧
    applyU true noWorld (wrongEnvironment.program sampleId) captureAll 3 (.global "f") [] [] = .stuck := by
  refine ⟨by decide +kernel, fun d hd => ?_, rfl, rfl⟩
  simp [TModule.native, wrongEnvironment] at hd

/-- The type of type information is that of a variable named as its fallback is, whatever variable it is. -/
def wrongFallback : TModule where
  types := []
  foreignDeclarations := []
  foreignDefinitions := []
  declarations := []
  definitions := [
    ⟨"t", [], .none, false, .literal .none⟩,
    ⟨"f", [("t", .number)], .number, false,
      .op (.arithmetic .add) (.cons (.variable "t")
        (.cons (.op .typeInformation (.cons (.op (.variant .none) (.cons (.literal .none) .nil)) .nil)) .nil))⟩]
  information := []
  fallback := "t"

theorem c63_fallback_counterexample :
    checkModule wrongFallback = true ∧
    (wrongFallback.program sampleId).run noWorld captureAll 3 "f" [.number 1] = .stuck ∧
    applyU true noWorld (wrongFallback.program sampleId) captureAll 3 (.global "f") [.number 1] [] = .stuck :=
  ⟨by decide +kernel, rfl, rfl⟩

/-- Types with the same id are taken for one another. -/
def sameId : TModule where
  types := []
  foreignDeclarations := []
  foreignDefinitions := []
  declarations := []
  definitions := [⟨"f", [], .number, false,
    .case (.op (.variant .none) (.cons (.literal .none) .nil))
      (.cons [.number] "x" (.op (.arithmetic .add) (.cons (.variable "x") (.cons (.variable "x") .nil)))
        (.default "x" (.literal (.number 0))))⟩]
  information := []
  fallback := "f"

theorem c63_ids_counterexample :
    checkModule sameId = true ∧
    (sameId.program sampleId).run noWorld captureAll 3 "f" [] = .ok (.number 0) [] ∧
    (sameId.program (fun _ => "")).run noWorld captureAll 3 "f" [] = .stuck :=
  ⟨by decide +kernel, rfl, rfl⟩

/-- A variant no alternative matches stops the program: the checker does not look for all types. -/
def missingAlternative : TModule where
  types := []
  foreignDeclarations := []
  foreignDefinitions := []
  declarations := []
  definitions := [⟨"f", [], .number, false,
    .case (.op (.variant .none) (.cons (.literal .none) .nil)) (.cons [.number] "x" (.variable "x") .nil)⟩]
  information := []
  fallback := "f"

theorem c63_missing_alternative :
    checkModule missingAlternative = true ∧
    (missingAlternative.program sampleId).run noWorld captureAll 3 "f" [] = .stuck ∧
    applyU true noWorld (missingAlternative.program sampleId) captureAll 3 (.global "f") [] [] = .timeout :=
  ⟨by decide +kernel, rfl, rfl⟩

end Verif.Mir.Typed
