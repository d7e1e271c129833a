import Verif.Front.Program
import Verif.Hir.Evaluation

/-!
# Test modules and the program that runs them

Modelled code
* `lib/hir-mir/src/test_function.rs:15-133` (`compile`, `compile_foreign_name`)
* `lib/hir-mir/src/lib.rs:67-76` (`compile_test`) up to the analysis, `lib/app/src/module_compiler.rs:100-130`
* `lib/app/src/package_test_information_compiler.rs:7-31`, `lib/test-info/src`
* `lib/infra/src/test_linker.rs:26-99`: the program it generates

Positions are left out.
-/

namespace Verif.Tests

open Verif

/-- The message of an error whose source is not a string: `NON_STRING_TEST_ERROR_MESSAGE`
(`lib/hir-mir/src/test_function.rs:11`), `<non-string test error>`. -/
def nonStringMessage : List UInt8 :=
  [60, 110, 111, 110, 45, 115, 116, 114, 105, 110, 103, 32, 116, 101, 115, 116, 32, 101, 114, 114, 111, 114, 62]

/-- The body of the wrapper of a test function (`lib/hir-mir/src/test_function.rs:47-93`):

    if $result = f() as none { "" }
    else if $message = source($result) as string { $message }
    else { "<non-string test error>" } -/
def wrapperBody (f : String) : Hir.Expr :=
  .ifType "$result" (.call none (.variable f) []) [(.none, .string [])]
    (some (none, .ifType "$message" (.builtInCall none .source [.variable "$result"])
      [(.string, .variable "$message")]
      (some (none, .string nonStringMessage))))

/-- Names of wrappers (`lib/hir-mir/src/test_function.rs:8`, `:42`). -/
def wrapperName (f : String) : String := f ++ "__wrapper"

/-- `test_info::Function` (`lib/test-info/src/function.rs:4-10`). -/
structure TestFunction where
  name : String
  foreign : String
  deriving DecidableEq

/-- `test_info::Module` (`lib/test-info/src/module.rs:4-8`). -/
structure TestModule where
  path : String
  functions : List TestFunction

/-- The wrapper of a definition; `foreign` is `compile_foreign_name` (`lib/hir-mir/src/test_function.rs:41-101`,
`:124-131`), a prefix followed by a hash of the name of the function. -/
def wrapper (foreign : String → String) (f : Names.FunctionDefinition) : Names.FunctionDefinition :=
  { name := wrapperName f.name, original := foreign f.name, params := [], result := .string
    body := wrapperBody f.name, isPublic := false }

/-- The public definitions of a module, its tests (`lib/hir-mir/src/test_function.rs:21-25`). -/
def testDefinitions (m : Names.Module) : List Names.FunctionDefinition := m.definitions.filter (·.isPublic)

/-- The module part of the result of `compile` (`lib/hir-mir/src/test_function.rs:27-107`). -/
def wrapModule (foreign : String → String) (m : Names.Module) : Names.Module :=
  { m with definitions := m.definitions ++ (testDefinitions m).map (wrapper foreign) }

/-- The information part of the result of `compile` (`lib/hir-mir/src/test_function.rs:108-121`). -/
def testInformation (foreign : String → String) (path : String) (m : Names.Module) : TestModule :=
  ⟨path, (testDefinitions m).map fun f => ⟨f.original, foreign f.name⟩⟩

/-- A compiled test module: after name resolution, after the analysis with the wrappers, and its
information. -/
structure CompiledTest where
  resolved : Names.Module
  analyzed : Hir.Module
  information : TestModule

/-- `compile_test` (`lib/hir-mir/src/lib.rs:67-76`) after name resolution, up to the analysis. -/
def compileTest (n : Nat) (foreign : String → String) (path : String) (m : Names.Module) :
    Option CompiledTest :=
  match Names.analyze n (wrapModule foreign m) with
  | .ok r => some ⟨m, r, testInformation foreign path m⟩
  | _ => none

/-- `compile_test` (`lib/app/src/module_compiler.rs:100-130`) of a text, up to the analysis; `path` is the path
positions of the module have. -/
def compileTestSource (R : Front.Rounding) (d n : Nat) (foreign : String → String) (path : String)
    (preludes before : List Names.Interface) (s : Front.Source) : Option CompiledTest := do
  let m ← Grammar.parse s.text
  let b ← Front.compileTree R d (s.file ++ ":") (s.interfaces before) preludes m
  compileTest n foreign path b

/-- The test modules of a package, with their paths; `before` is what they can import. -/
def compileTestSources (R : Front.Rounding) (d n : Nat) (foreign : String → String)
    (preludes before : List Names.Interface) : List (String × Front.Source) → Option (List CompiledTest)
  | [] => some []
  | (path, s) :: ss => do
    let c ← compileTestSource R d n foreign path preludes before s
    let cs ← compileTestSources R d n foreign preludes before ss
    some (c :: cs)

/-- Insertion into a `BTreeMap`, represented by its entries in the order of their keys. -/
def insertModule (m : TestModule) : List TestModule → List TestModule
  | [] => [m]
  | x :: xs => if m.path < x.path then m :: x :: xs else if m.path = x.path then m :: xs else x :: insertModule m xs

/-- `package_test_information_compiler::compile` (`lib/app/src/package_test_information_compiler.rs:7-31`):
later modules replace earlier ones of the same path. -/
def packageInformation (ms : List TestModule) : List TestModule := ms.foldl (fun s m => insertModule m s) []

/-- Lines of the output of the program `test_linker` generates. Texts are not formatted: `test ok name` is
`"\tOK\tname"` or `"\tFAIL\tname"`, `message` is `"\t\tMessage: .."` with the bytes decoded,
and `summary ok p f` is `"summary"` followed by `"\tOK\tp passed, f failed"` or `"\tFAIL\t.."`. -/
inductive Line where
  | module (path : String)
  | test (ok : Bool) (name : String)
  | message (bytes : List UInt8)
  | summary (ok : Bool) (passed failed : Nat)
  deriving DecidableEq

/-- The variables `success` and `error` of the generated program, and its output so far. -/
structure Progress where
  lines : List Line
  success : Nat
  error : Nat

/-- The code of `format_test_function` (`lib/infra/src/test_linker.rs:82-99`); `symbols` is what the foreign
names are linked to. -/
def runFunction (symbols : String → Hir.Out Hir.Val) (t : TestFunction) (p : Progress) : Hir.Out Progress := do
  let v ← symbols t.foreign
  let s ← v.asString
  if s.isEmpty then .val ⟨p.lines ++ [.test true t.name], p.success + 1, p.error⟩
  else .val ⟨p.lines ++ [.test false t.name, .message s], p.success, p.error + 1⟩

/-- The code of the functions of a module. -/
def runFunctions (symbols : String → Hir.Out Hir.Val) : List TestFunction → Progress → Hir.Out Progress
  | [], p => .val p
  | t :: ts, p => do
    let p ← runFunction symbols t p
    runFunctions symbols ts p

/-- The code of `format_tests` (`lib/infra/src/test_linker.rs:61-80`). -/
def runModules (symbols : String → Hir.Out Hir.Val) : List TestModule → Progress → Hir.Out Progress
  | [], p => .val p
  | m :: ms, p => do
    let p ← runFunctions symbols m.functions { p with lines := p.lines ++ [.module m.path] }
    runModules symbols ms p

/-- Output and exit code of a run. -/
structure Report where
  lines : List Line
  exit : Nat
  deriving DecidableEq

/-- The generated `main` (`lib/infra/src/test_linker.rs:30-59`). -/
def runMain (symbols : String → Hir.Out Hir.Val) (ms : List TestModule) : Hir.Out Report := do
  let p ← runModules symbols ms ⟨[], 0, 0⟩
  .val ⟨p.lines ++ [.summary (p.error == 0) p.success p.error], if p.error > 0 then 1 else 0⟩

/-- What foreign names are linked to: the wrappers exported under them (`lib/hir-mir/src/module.rs:45-60`), which
are evaluated in their modules. Linking finds the first of several modules with the same symbol here. -/
noncomputable def symbols (W : Hir.World) (a k : Nat) (foreign : String → String) :
    List CompiledTest → String → Hir.Out Hir.Val
  | [], _ => .stuck
  | c :: cs, x =>
    match (testDefinitions c.resolved).find? fun f => foreign f.name == x with
    | some f => Hir.callFunction W c.analyzed a k (wrapperName f.name) []
    | none => symbols W a k foreign cs x

/-- Running the tests of a package. -/
noncomputable def runTests (W : Hir.World) (a k : Nat) (foreign : String → String) (cs : List CompiledTest) :
    Hir.Out Report :=
  runMain (symbols W a k foreign cs) (packageInformation (cs.map (·.information)))

end Verif.Tests
