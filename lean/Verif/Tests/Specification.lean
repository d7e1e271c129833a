import Verif.Tests.Model

/-!
# What it means to run tests

The public functions of test modules are tests. They are called without arguments, one after the other, in
the order of the paths of their modules and then in the order in which they are written. One that results in
`none` passes, and one that results in an error fails; the source of the error is the message, if it is a
string. The log is that of calls of functions of other modules and of the system.
-/

namespace Verif.Tests

open Verif Hir

/-- Whether a test passes. -/
inductive Verdict where
  | passed
  | failed (message : List UInt8)
  deriving DecidableEq

/-- What the result of a test means. -/
inductive Judged : Val → Verdict → Prop
  | passed : Judged (.variant .none .none) .passed
  | failed (s) : Judged (.variant .error (.error (.variant .string (.string s)))) (.failed s)
  | other {tag v} : tag ≠ .string → Judged (.variant .error (.error (.variant tag v))) (.failed nonStringMessage)

/-- The functions, called in turn from the log on, end with these verdicts and this log. -/
inductive RanFunctions (W : World) (a k : Nat) (m : Hir.Module) : List String → Log → List Verdict → Log → Prop
  | nil {log} : RanFunctions W a k m [] log [] log
  | cons {f fs log log₁ log₂ v o os} : callFunction W m a k f [] log = .val v log₁ → Judged v o →
      RanFunctions W a k m fs log₁ os log₂ → RanFunctions W a k m (f :: fs) log (o :: os) log₂

/-- The names of the tests of a module: its public functions. -/
def CompiledTest.tests (c : CompiledTest) : List String :=
  (c.resolved.definitions.filter (·.isPublic)).map (·.name)

/-- What they are called in the text. -/
def CompiledTest.titles (c : CompiledTest) : List String :=
  (c.resolved.definitions.filter (·.isPublic)).map (·.original)

/-- The same for the tests of several modules. -/
inductive Ran (W : World) (a k : Nat) : List CompiledTest → Log → List (List Verdict) → Log → Prop
  | nil {log} : Ran W a k [] log [] log
  | cons {c cs log log₁ log₂ os oss} : RanFunctions W a k c.analyzed c.tests log os log₁ →
      Ran W a k cs log₁ oss log₂ → Ran W a k (c :: cs) log (os :: oss) log₂

/-- How a verdict is reported. -/
def Verdict.lines (title : String) : Verdict → List Line
  | .passed => [.test true title]
  | .failed s => [.test false title, .message s]

/-- Whether a test passes. -/
def Verdict.ok : Verdict → Bool
  | .passed => true
  | .failed _ => false

/-- How the verdicts on the tests of a module are reported. -/
def moduleLines (c : CompiledTest) (os : List Verdict) : List Line :=
  .module c.information.path :: (c.titles.zip os).flatMap fun p => p.2.lines p.1

/-- The report on the verdicts: all of them, how many tests passed and failed, and an exit code that is 0
if none failed. -/
def report (cs : List CompiledTest) (oss : List (List Verdict)) : Report :=
  ⟨((cs.zip oss).flatMap fun p => moduleLines p.1 p.2) ++
      [.summary (oss.flatten.all (·.ok)) (oss.flatten.countP (·.ok)) (oss.flatten.countP fun o => !o.ok)],
    if oss.flatten.all (·.ok) then 0 else 1⟩

end Verif.Tests
