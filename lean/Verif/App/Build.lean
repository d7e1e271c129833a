import Verif.App.Ninja

/-!
# Build scripts

Model of the build scripts that `lib/app/src/package_build_script_compiler.rs` and `lib/infra/src/ninja_build_script_compiler.rs` make, and
of the commands in them: `pen resolve-dependency` (`lib/app/src/module_dependency_resolver.rs`), `pen compile` and others
(`lib/app/src/module_compiler.rs`), `pen compile-package-test-information`, `opt`, `llc`, `llvm-ar` and the linkers.

What the compiler, the optimizer and linkers make of the contents of files they are given is a parameter (`Tools`). File names are abstract:
names made from modules by `lib/app/src/common/file_path_resolver.rs` are assumed to be different (they contain hashes of source paths).
Packages are named by their locations. Not modelled: packages with code in other languages (`compile_ffi`, `ar_ffi`), which are always built again, and the
target triple, which has its own output directory.
-/
namespace Verif.App.Build

/-- A module of a package, by the directory of the package and the components of its path. Test modules have their own extension. -/
structure Mod where
  package : String
  path : List String
  test : Bool
  deriving DecidableEq, Repr

/-- `ast::ModulePath`. -/
inductive Import where
  | internal (path : List String)
  | external (package : String) (path : List String)
  deriving DecidableEq, Repr

/-- `lib/app/src/package_configuration.rs:6-11`. -/
inductive PackageType where
  | application
  | library
  | system
  deriving DecidableEq, Repr

/-- `lib/app/src/package_configuration.rs:27-31`. -/
structure Config where
  type : PackageType
  dependencies : List (String × String)
  deriving DecidableEq, Repr

inductive Archive where
  | package (p : String)
  | tests
  deriving DecidableEq, Repr

/-- Files. `present` is the entry of a source file in its directory. -/
inductive File where
  | source (m : Mod)
  | present (m : Mod)
  | config (p : String)
  | dependency (m : Mod)
  | dynamic (m : Mod)
  | bitCode (m : Mod)
  | interface (m : Mod)
  | optimized (m : Mod)
  | object (m : Mod)
  | testInformation (m : Mod)
  | packageTests
  | archive (a : Archive)
  | application
  | tests
  deriving DecidableEq, Repr

/-- Contents of files. Files of dependencies list, for each import, the module whose interface file is imported, and the modules of the
prelude. Archives have objects of modules. -/
inductive Content where
  | bytes (s : String)
  | present
  | config (c : Config)
  | dependencies (imports : List (Import × Mod)) (preludes : List Mod)
  | dynamic (modules : List Mod)
  | archive (members : Mod → Option String)

abbrev Files := File → Option Content

/-- Commands in build scripts, `lib/infra/src/ninja_build_script_compiler.rs:45-138`. They have what is in their command lines. -/
inductive Command where
  | compile (m : Mod)
  | compileTest (m : Mod)
  | compileMain (m : Mod) (contexts : List (String × Mod))
  | compilePrelude (m : Mod)
  | resolve (m : Mod) (preludes : List Mod)
  | opt (m : Mod)
  | llc (m : Mod)
  | ar (a : Archive) (modules : List Mod)
  | packageTests (modules : List Mod)
  | link (archives : List Archive)
  | linkTest (archives : List Archive)
  deriving DecidableEq, Repr

/-- What commands make of contents of files. -/
structure Tools where
  parse : Mod → String → Option (List Import)
  compile : Mod → String → List String → List String → Option (String × String)
  compileTest : Mod → String → List String → List String → Option (String × String)
  compileMain : Mod → String → List String → List String → List (String × String) → Option String
  compilePrelude : Mod → String → Option (String × String)
  opt : String → Option String
  llc : String → Option String
  packageTests : List String → Option String
  link : List (Mod → Option String) → Option String
  linkTest : String → List (Mod → Option String) → Option String

/-! ### Commands -/

/-- The outputs of commands, `lib/infra/src/ninja_build_script_compiler.rs`, lines 163-170 (compile), 325-330 (resolve_dependency), 216-223
(compile_test), 278-290 (compile_main), 714-719 (compile_prelude), 439-450 (opt, llc), 392-398 (ar), 577-589, 643-656 and 675-690. -/
def outputs : Command → List File
  | .compile m => [.bitCode m, .interface m]
  | .compileTest m => [.bitCode m, .testInformation m]
  | .compileMain m _ => [.bitCode m]
  | .compilePrelude m => [.bitCode m, .interface m]
  | .resolve m _ => [.dependency m, .dynamic m]
  | .opt m => [.optimized m]
  | .llc m => [.object m]
  | .ar a _ => [.archive a]
  | .packageTests _ => [.packageTests]
  | .link _ => [.application]
  | .linkTest _ => [.tests]

/-- The inputs of commands in build scripts (same lines), without order-only ones. -/
def inputs : Command → List File
  | .compile m => [.source m, .dependency m]
  | .compileTest m => [.source m, .dependency m]
  | .compileMain m cs => [.source m, .dependency m] ++ cs.map fun c => .interface c.2
  | .compilePrelude m => [.source m]
  | .resolve m _ => [.source m]
  | .opt m => [.bitCode m]
  | .llc m => [.optimized m]
  | .ar _ ms => ms.map .object
  | .packageTests ms => ms.map .testInformation
  | .link as => as.map .archive
  | .linkTest as => .packageTests :: as.map .archive

/-- The file with more inputs of a command (`dyndep`), lines 171, 224, 300. -/
def dyndep : Command → Option File
  | .compile m => some (.dynamic m)
  | .compileTest m => some (.dynamic m)
  | .compileMain m _ => some (.dynamic m)
  | _ => none

/-- Inputs of a command that are compared with those of its last run, with those listed in files that
`lib/infra/src/ninja_build_script_dependency_compiler.rs:16-42` writes. -/
def compared (k : Command) (fs : Files) : List File :=
  inputs k ++ match dyndep k with
    | some f => match fs f with
      | some (.dynamic ms) => ms.map .interface
      | _ => []
    | none => []

/-- All files that are made before a command is run. Files with more inputs are order-only inputs (`||` in the same lines). -/
def prerequisites (k : Command) (fs : Files) : List File := (dyndep k).toList ++ compared k fs

def readBytes (fs : Files) (f : File) : Option String :=
  match fs f with
  | some (.bytes s) => some s
  | _ => none

def readConfig (fs : Files) (p : String) : Option Config :=
  match fs (.config p) with
  | some (.config c) => some c
  | _ => none

def readDependencies (fs : Files) (m : Mod) : Option (List (Import × Mod) × List Mod) :=
  match fs (.dependency m) with
  | some (.dependencies is ps) => some (is, ps)
  | _ => none

def readArchive (fs : Files) (a : Archive) : Option (Mod → Option String) :=
  match fs (.archive a) with
  | some (.archive f) => some f
  | _ => none

/-- The module that is imported: `lib/app/src/module_dependency_resolver.rs:31-45`. -/
def target (c : Config) (package : String) : Import → Option Mod
  | .internal path => some ⟨package, path, false⟩
  | .external name path => (c.dependencies.lookup name).map fun p => ⟨p, path, false⟩

/-- One import: `lib/app/src/module_dependency_resolver.rs:30-65`. -/
def resolveImport (fs : Files) (c : Config) (package : String) (i : Import) : Option (Import × Mod) :=
  match target c package i with
  | some m => if (fs (.present m)).isSome then some (i, m) else none
  | none => none

/-- `resolve`: `lib/app/src/module_dependency_resolver.rs:9-90`. -/
def resolve (T : Tools) (m : Mod) (preludes : List Mod) (fs : Files) : Option (List (Import × Mod)) := do
  let config ← readConfig fs m.package
  let text ← readBytes fs (.source m)
  let imports ← T.parse m text
  imports.mapM (resolveImport fs config m.package)

/-- What `compile_to_hir` reads: `lib/app/src/module_compiler.rs:146-187`. -/
def readModule (T : Tools) (m : Mod) (fs : Files) : Option (String × List String × List String) := do
  let (files, preludes) ← readDependencies fs m
  let text ← readBytes fs (.source m)
  let imports ← T.parse m text
  let interfaces ← imports.mapM fun i => (files.lookup i).bind fun m => readBytes fs (.interface m)
  let preludeInterfaces ← preludes.mapM fun m => readBytes fs (.interface m)
  return (text, interfaces, preludeInterfaces)

def pair (a b : Content) (f : File) : File → Content := fun g => if g = f then a else b

/-- What commands write. `llvm-ar crs` replaces members of an archive, or makes a new one. -/
def make (T : Tools) (k : Command) (fs : Files) : Option (File → Content) :=
  match k with
  | .compile m => do
    let (text, is, ps) ← readModule T m fs
    let (code, interface) ← T.compile m text is ps
    return pair (.bytes code) (.bytes interface) (.bitCode m)
  | .compileTest m => do
    let (text, is, ps) ← readModule T m fs
    let (code, information) ← T.compileTest m text is ps
    return pair (.bytes code) (.bytes information) (.bitCode m)
  | .compileMain m cs => do
    let contexts ← cs.mapM fun c => (readBytes fs (.interface c.2)).map fun s => (c.1, s)
    let (text, is, ps) ← readModule T m fs
    let code ← T.compileMain m text is ps contexts
    return fun _ => .bytes code
  | .compilePrelude m => do
    let text ← readBytes fs (.source m)
    let (code, interface) ← T.compilePrelude m text
    return pair (.bytes code) (.bytes interface) (.bitCode m)
  | .resolve m ps => do
    let is ← resolve T m ps fs
    return pair (.dependencies is ps) (.dynamic (is.map (·.2) ++ ps)) (.dependency m)
  | .opt m => do
    let code ← readBytes fs (.bitCode m)
    let code ← T.opt code
    return fun _ => .bytes code
  | .llc m => do
    let code ← readBytes fs (.optimized m)
    let code ← T.llc code
    return fun _ => .bytes code
  | .ar a ms => do
    let objects ← ms.mapM fun m => (readBytes fs (.object m)).map fun s => (m, s)
    let old := (readArchive fs a).getD fun _ => none
    return fun _ => .archive fun m => match objects.lookup m with
      | some s => some s
      | none => old m
  | .packageTests ms => do
    let is ← ms.mapM fun m => readBytes fs (.testInformation m)
    let s ← T.packageTests is
    return fun _ => .bytes s
  | .link as => do
    let as ← as.mapM (readArchive fs)
    let s ← T.link as
    return fun _ => .bytes s
  | .linkTest as => do
    let tests ← readBytes fs .packageTests
    let as ← as.mapM (readArchive fs)
    let s ← T.linkTest tests as
    return fun _ => .bytes s

/-! ### Scripts -/

/-- Locations of packages; `cmd/pen/src/file_path_configuration.rs:14-15`. -/
structure Setup where
  main : String
  prelude : String
  ffi : String

/-- What build scripts are made of. -/
structure Plan where
  packages : List String
  modules : List Mod
  contexts : List (String × Mod)
  application : Bool

/-- `cmd/pen/src/application_configuration.rs:7`. -/
def Setup.mainModule (S : Setup) : Mod := ⟨S.main, ["main"], false⟩

/-- `prelude_interface_file_finder.rs`. -/
def preludes (S : Setup) (P : Plan) : List Mod := P.modules.filter fun m => m.package == S.prelude

/-- Commands for a module: `lib/infra/src/ninja_build_script_compiler.rs`, lines 140-313 and 694-737. -/
def moduleCommands (S : Setup) (P : Plan) (m : Mod) : List Command :=
  (if m.package = S.prelude then [.compilePrelude m]
  else if m.test then [.compileTest m, .resolve m (preludes S P)]
  else if m = S.mainModule then [.compileMain m P.contexts, .resolve m (preludes S P)]
  else [.compile m, .resolve m (preludes S P)]) ++ [.opt m, .llc m]

def packageModules (P : Plan) (p : String) : List Mod := P.modules.filter fun m => m.package == p && !m.test

def testModules (P : Plan) : List Mod := P.modules.filter (·.test)

/-- The whole build script: `lib/app/src/package_build_script_compiler.rs:13-85`. -/
def script (S : Setup) (P : Plan) : List Command :=
  P.modules.flatMap (moduleCommands S P) ++ P.packages.map (fun p => .ar (.package p) (packageModules P p)) ++
    [.ar .tests (testModules P), .packageTests (testModules P)] ++
    (if P.application then [.link (P.packages.map .package)] else []) ++ [.linkTest (.tests :: P.packages.map .package)]

/-- Packages that the main package depends on: `external_package_configuration_reader.rs:28-70` and
`package_build_script_compiler.rs:41-59`. -/
inductive Reachable (S : Setup) (fs : Files) : String → Prop
  | main : Reachable S fs S.main
  | prelude : Reachable S fs S.prelude
  | ffi : Reachable S fs S.ffi
  | dependency {p q n : String} {c : Config} : Reachable S fs p → readConfig fs p = some c → (n, q) ∈ c.dependencies → Reachable S fs q

/-- What a plan is made of: module_target_collector.rs, test_module_target_collector.rs, system_package_finder.rs and
package_build_script_compiler.rs:155-190, 60-75. -/
structure Plans (S : Setup) (fs : Files) (P : Plan) : Prop where
  packages : ∀ p, p ∈ P.packages ↔ Reachable S fs p
  modules : ∀ m, m ∈ P.modules ↔ (fs (.present m)).isSome = true ∧ m.package ∈ P.packages ∧ (m.test = true → m.package = S.main)
  contexts : ∀ c ∈ P.contexts, ∃ C q C', readConfig fs S.main = some C ∧ (c.1, q) ∈ C.dependencies ∧ readConfig fs q = some C' ∧
    C'.type = .system ∧ c.2 = ⟨q, ["Context"], false⟩
  application : P.application = true ↔ ∃ C, readConfig fs S.main = some C ∧ C.type = .application

/-! ### Histories -/

structure State where
  tool : Ninja.State File Content Command
  plan : Plan

def State.fs (s : State) : Files := s.tool.fs

def isInput : File → Bool
  | .source _ => true
  | .present _ => true
  | .config _ => true
  | _ => false

/-- Who does a step. -/
inductive Label where
  | edit
  | delete
  | configure
  | tool
  deriving DecidableEq

inductive Step (T : Tools) (S : Setup) : Label → State → State → Prop
  /-- A source file is written, or made. -/
  | edit {s : State} (m : Mod) (text : String) : Step T S .edit s
      ⟨s.tool.change (fun f => decide (f = .source m ∨ f = .present m))
        (fun f => if f = .present m then some .present else some (.bytes text)), s.plan⟩
  | delete {s : State} (m : Mod) : Step T S .delete s
      ⟨s.tool.change (fun f => decide (f = .source m ∨ f = .present m)) (fun _ => none), s.plan⟩
  | configure {s : State} (p : String) (c : Config) : Step T S .configure s
      ⟨s.tool.change (fun f => decide (f = .config p)) (fun _ => some (.config c)), s.plan⟩
  /-- Build scripts are written, and outputs of other commands removed (`-t cleandead`, ninja_build_script_runner.rs:31-39). -/
  | start {s : State} (P : Plan) : Plans S s.fs P → Step T S .tool s
      ⟨s.tool.change (fun f => !isInput f && (script S P).all fun k => decide (f ∉ outputs k)) (fun _ => none), P⟩
  | run {s : State} (k : Command) (o : File → Content) : k ∈ script S s.plan → make T k s.fs = some o → Step T S .tool s
      ⟨s.tool.finish (outputs k) k o, s.plan⟩
  /-- A command is killed. `llvm-ar` replaces archives at once. -/
  | crash {s : State} (k : Command) (new : Files) : k ∈ script S s.plan → (∀ a ms, k ≠ .ar a ms) →
      (∀ f ∈ outputs k, s.tool.log f = none) → Step T S .tool s
      ⟨s.tool.change (fun f => decide (f ∈ outputs k)) new, s.plan⟩
  /-- Outputs are removed. -/
  | clean {s : State} (D : File → Bool) : (∀ f, D f = true → isInput f = false) → Step T S .tool s
      ⟨s.tool.change D (fun _ => none), s.plan⟩
  | forget {s : State} (D : File → Bool) : Step T S .tool s ⟨s.tool.forget D, s.plan⟩

/-- Source files and configurations, and nothing built. -/
structure Initial (s : State) : Prop where
  present : ∀ m, s.fs (.present m) = (s.fs (.source m)).map fun _ => .present
  outputs : ∀ f, isInput f = false → s.fs f = none
  log : ∀ f, s.tool.log f = none
  plan : s.plan.modules = [] ∧ s.plan.packages = []

/-- States after histories with steps of some labels. -/
inductive Reach (T : Tools) (S : Setup) (L : Label → Prop) : State → Prop
  | initial {s : State} : Initial s → Reach T S L s
  | step {l : Label} {s s' : State} : Reach T S L s → L l → Step T S l s s' → Reach T S L s'

/-! ### Builds -/

/-- A command is not run again: its inputs and outputs exist, and it was run last with the same inputs. -/
structure UpToDate (s : State) (k : Command) : Prop where
  prerequisites : ∀ i ∈ prerequisites k s.fs, (s.fs i).isSome = true
  outputs : ∀ g ∈ outputs k, (s.fs g).isSome = true ∧ ∃ fs, s.tool.log g = some (k, fs) ∧ ∀ i ∈ compared k s.fs, fs i = s.fs i

/-- Commands that are needed for a file. -/
inductive Needed (S : Setup) (s : State) (goal : File) : Command → Prop
  | goal {k : Command} : k ∈ script S s.plan → goal ∈ outputs k → Needed S s goal k
  | input {k k' : Command} {f : File} : Needed S s goal k → f ∈ prerequisites k s.fs → k' ∈ script S s.plan → f ∈ outputs k' →
      Needed S s goal k'

/-- A build of a file has ended: nothing needed is to be done, and no file depends on itself. -/
structure Done (S : Setup) (s : State) (goal : File) : Prop where
  plan : Plans S s.fs s.plan
  producer : ∃ k ∈ script S s.plan, goal ∈ outputs k
  upToDate : ∀ k, Needed S s goal k → UpToDate s k
  acyclic : ∃ rank : File → Nat, ∀ k, Needed S s goal k → ∀ i ∈ prerequisites k s.fs, ∀ g ∈ outputs k, rank i < rank g

/-- Files that are built for users. -/
def isGoal : File → Bool
  | .application => true
  | .tests => true
  | .archive _ => true
  | _ => false

/-- Sources, configurations and build scripts are the same. -/
def SameInputs (s s' : State) : Prop := s.plan = s'.plan ∧ ∀ f, isInput f = true → s.fs f = s'.fs f

/-- Commands are run one after another. -/
inductive Runs (T : Tools) (S : Setup) : State → State → Prop
  | refl (s : State) : Runs T S s s
  | step {s s' : State} (k : Command) (o : File → Content) : Runs T S s s' → k ∈ script S s'.plan → make T k s'.fs = some o →
      Runs T S s ⟨s'.tool.finish (outputs k) k o, s'.plan⟩

end Verif.App.Build
