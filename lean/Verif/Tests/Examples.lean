import Verif.Tests.Properties
import Verif.Front.Examples
import Verif.Hir.TameCheck

/-!
C69: tests that meet the hypotheses, and a test that is reported wrongly.
-/

namespace Verif.Tests

open Verif Hir

/-- A module that is tested. -/
def shop : Front.Source where
  file := "Shop.pen"
  text := "Price = \\(n number) number { n + 1 }\n".toList
  find := fun _ => none

def shopInterface : Names.Interface := ⟨[], [], [⟨"Shop.pen:Price", "Price", .function [.number] .number⟩]⟩

theorem shop_compiled :
    (Front.compileSource Front.someRounding 9 30 [] [] shop).map Front.Compiled.interface = some shopInterface := by
  decide +kernel

/-- Tests of it, with a function that is not one, and a result type under another name. -/
def shopTest : Front.Source where
  file := "Shop.test.pen"
  text := ("import 'Shop { Price }\n" ++
    "type result = none | error\n" ++
    "expect = \\(n number) result { if n < 1000 { none } else { error(\"no tea\") } }\n" ++
    "Cheap = \\() result { expect(Price(2)) }\n" ++
    "Twice = \\() none | error { expect(Price(2) + Price(2)) }\n").toList
  find := fun p => match p with
    | .internal [['S', 'h', 'o', 'p']] => some 0
    | _ => none

def otherTest : Front.Source where
  file := "Other.test.pen"
  text := "Odd = \\() error | none { error(3) }\n".toList
  find := fun _ => none

/-- Symbols, which are not hashed here. -/
def symbol (x : String) : String := "_pen_test_" ++ x

/-- Prices (`1000` is rounded to 4). -/
def shopWorld : World := { exampleWorld with call := fun _ _ _ => .number 3 }

/-- The paths of test modules, and their texts. -/
def tests : List (String × Front.Source) := [("Shop.test.pen", shopTest), ("Other.test.pen", otherTest)]

theorem tests_compiled : ((compileTestSources Front.someRounding 9 30 symbol [] [shopInterface] tests).map fun cs =>
    (cs.all fun c => c.resolved.toHir.definitions.all fun f =>
      Hir.tame c.resolved.toHir.ctx.types 20 false (.lambda f.params f.result f.body)) &&
    decide ((cs.flatMap fun c => c.tests.map symbol).Nodup) &&
    (cs.all fun c => decide (c.analyzed.declarations.map (·.2) = [] ∨ c.analyzed.declarations.map (·.2) = [([.number], .number)]))) =
    some true := by
  decide +kernel

/-- The results of tests. -/
def Result.report : Result Report → Option (Report × Nat)
  | .val r log => some (r, log.length)
  | _ => Option.none

/-- The report, and the number of calls. -/
theorem tests_run : ((compileTestSources Front.someRounding 9 30 symbol [] [shopInterface] tests).bind fun cs =>
    Result.report (runTests shopWorld 30 30 symbol cs [])) =
    some (⟨[.module "Other.test.pen", .test false "Odd", .message nonStringMessage,
      .module "Shop.test.pen", .test true "Cheap",
      .test false "Twice", .message [110, 111, 32, 116, 101, 97], .summary false 1 2], 1⟩, 3) := by
  decide +kernel

/-- The hypotheses of `c69_reports_partial` are met, and so the run ends with verdicts. -/
example : ∃ ms cs, Front.compileSources Front.someRounding 9 30 [] [] [shop] = some ms ∧
    compileTestSources Front.someRounding 9 30 symbol [] (ms.map fun m => Names.interface m.resolved) tests = some cs ∧
    ∃ cs' : List CompiledTest, cs'.Perm cs ∧ ∃ oss log', Ran shopWorld 30 29 cs' [] oss log' := by
  obtain ⟨c0, h0, e0⟩ := Option.map_eq_some_iff.mp shop_compiled
  have h1 : Front.compileSources Front.someRounding 9 30 [] [] [shop] = some [c0] := by
    simp [Front.compileSources, h0]
  obtain ⟨cs, h2, e2⟩ := Option.map_eq_some_iff.mp tests_compiled
  have h3 := tests_run
  rw [h2] at h3
  have e0' : Names.interface c0.resolved = shopInterface := e0
  have h4 : compileTestSources Front.someRounding 9 30 symbol [] ([c0].map fun m => Names.interface m.resolved) tests =
      some cs := by simp only [List.map_cons, List.map_nil, e0']; exact h2
  simp only [Bool.and_eq_true, decide_eq_true_eq, List.all_eq_true] at e2
  obtain ⟨⟨e2, e3⟩, e4⟩ := e2
  refine ⟨[c0], cs, h1, h4, ?_⟩
  have htame : ∀ c ∈ cs, TameModule c.resolved.toHir := fun c hc =>
    tameModule_sound (List.all_eq_true.mpr (e2 c hc))
  have hw : ∀ c ∈ cs, WorldOk c.analyzed shopWorld := by
    intro c hc log x d as r args hd hcan _
    have hmem : d ∈ c.analyzed.declarations.map (·.2) := by
      unfold lastLookup at hd
      obtain ⟨p, hp, rfl⟩ := Option.map_eq_some_iff.mp hd
      exact List.mem_map.mpr ⟨p, by simpa using List.mem_of_find?_eq_some hp, rfl⟩
    rcases e4 c hc with e | e <;> rw [e] at hmem
    · simp at hmem
    · simp only [List.mem_singleton] at hmem
      subst hmem
      obtain ⟨as', r', g1, _, g3⟩ := canon_function_inv hcan
      simp only [Ty.function.injEq] at g1
      obtain ⟨rfl, rfl⟩ := g1
      have : r = .number := g3.det ⟨_, .number, rfl⟩
      subst this
      exact .number 3
  obtain ⟨cs', g1, _, g3⟩ := c69_reports_partial (by simp) h1 h4 (by decide) e3 htame hw
  refine ⟨cs', g1, ?_⟩
  rcases g3 29 29 [] with ⟨g4, _⟩ | ⟨oss, log', g4, _⟩
  · have g4 : runTests shopWorld 30 30 symbol cs [] = .more := g4
    simp [g4, Result.report] at h3
  · exact ⟨oss, log', g4⟩

/-- The types of tests are those of `c69_accepted_tests`, and there are public functions. -/
example : ((compileTestSources Front.someRounding 9 30 symbol [] [shopInterface] tests).map fun cs =>
    cs.map fun c => c.resolved.definitions.filterMap fun f => if f.isPublic then some (f.original, f.params.length) else none) =
    some [[("Cheap", 0), ("Twice", 0)], [("Odd", 0)]] := by
  decide +kernel

/-- A module with a public function of another type is not accepted. -/
example : (compileTestSource Front.someRounding 9 30 symbol "A.test.pen" [] []
    ⟨"A.test.pen", "Check = \\() none | string { none }\n".toList, fun _ => none⟩).isNone = true ∧
    (compileTestSource Front.someRounding 9 30 symbol "A.test.pen" [] []
    ⟨"A.test.pen", "Check = \\(n number) none | error { none }\n".toList, fun _ => none⟩).isNone = true ∧
    (compileTestSource Front.someRounding 9 30 symbol "A.test.pen" [] []
    ⟨"A.test.pen", "Check = \\() none | error { none }\n".toList, fun _ => none⟩).isSome = true := by
  decide +kernel

/-! ## Errors with empty messages -/

/-- A test that fails. -/
def emptyError : Front.Source where
  file := "Empty.test.pen"
  text := "Check = \\() none | error { error(\"\") }\n".toList
  find := fun _ => none

/-- Whether the result of a call is an error. -/
def Result.isError : Result Val → Bool
  | .val v _ => match v with
    | .variant .error (.error _) => true
    | _ => false
  | _ => false

/-- **C69, errors with empty messages.** The only test of this module results in an error, and yet it is reported to
pass, and the exit code is 0: the wrapper of a test stands for success and for the message `""` with the same
string (`lib/hir-mir/src/test_function.rs:64-92`, `lib/infra/src/test_linker.rs:86-92`). -/
theorem c69_empty_error_passes : ((compileTestSource Front.someRounding 9 30 symbol "Empty.test.pen" [] [] emptyError).map
    fun c => (c.tests, Result.isError (callFunction exampleWorld c.analyzed 30 30 "Empty.test.pen:Check" [] []),
      Result.report (runTests exampleWorld 30 30 symbol [c] []))) =
    some (["Empty.test.pen:Check"], true,
      some (⟨[.module "Empty.test.pen", .test true "Check", .summary true 1 0], 0⟩, 0)) := by
  decide +kernel

end Verif.Tests
