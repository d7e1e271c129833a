import Verif.Front.Written
import Verif.Grammar.Properties
import Verif.Names.Closed

/-
Programs of several modules, compiled one after the other from their texts.

Modelled code
* `lib/app/src/module_compiler.rs:20-49` (`compile`), `:132-172` (`compile_to_hir`), up to the analysis
  in `lib/hir-mir/src/lib.rs:78-84`
-/

namespace Verif.Front

open Verif

/-- One module of a program: its file, its text, and which of the modules compiled before it the paths of
its imports stand for (the dependency file of `lib/app/src/module_compiler.rs:137-139`). -/
structure Source where
  file : String
  text : List Char
  find : Grammar.ModulePath → Option Nat

/-- A module after name resolution, and after the analysis. -/
structure Compiled where
  resolved : Names.Module
  analyzed : Hir.Module

/-- The interfaces a module can import, of those of the modules compiled before it. -/
def Source.interfaces (s : Source) (before : List Names.Interface) (p : Grammar.ModulePath) :
    Option Names.Interface := (s.find p).bind (before[·]?)

/-- `compile` of `lib/app/src/module_compiler.rs:20-49`, with `compile_to_hir` (`:132-172`), up to the
analysis; `d` and `n` are the depths to which expressions are transformed and analyzed. -/
def compileSource (R : Rounding) (d n : Nat) (preludes before : List Names.Interface) (s : Source) :
    Option Compiled := do
  let m ← Grammar.parse s.text
  let b ← compileTree R d (s.file ++ ":") (s.interfaces before) preludes m
  match Names.analyze n b with
  | .ok r => some ⟨b, r⟩
  | _ => none

/-- All modules of a program, in the order of their dependencies. -/
def compileSources (R : Rounding) (d n : Nat) (preludes : List Names.Interface) :
    List Names.Interface → List Source → Option (List Compiled)
  | _, [] => some []
  | before, s :: ss => do
    let c ← compileSource R d n preludes before s
    let cs ← compileSources R d n preludes (before ++ [Names.interface c.resolved]) ss
    some (c :: cs)

/-- An interface other modules can be compiled with. -/
def Good (i : Names.Interface) : Prop := i.Compiled ∧ i.Closed

theorem importedModules_interface {f : Grammar.ModulePath → Option Names.Interface} :
    ∀ {is : List Grammar.Import} {js}, importedModules f is = some js →
      ∀ j ∈ js, ∃ i ∈ is, f i.path = some j.interface
  | [], _, h => by cases h; simp
  | i :: is, _, h => by
    simp only [importedModules, Option.bind_eq_bind, Option.bind_eq_some_iff, Option.some.injEq] at h
    obtain ⟨g, h1, js, h2, rfl⟩ := h
    rw [List.forall_mem_cons]
    exact ⟨⟨i, List.mem_cons_self, h1⟩, fun j hj =>
      let ⟨k, hk, e⟩ := importedModules_interface h2 j hj; ⟨k, List.mem_cons_of_mem _ hk, e⟩⟩

theorem full_file (file : String) : Names.Full (file ++ ":") := by simp [Names.Full]

/-- The stages of `ast_hir::compile`. -/
theorem compileTree_some {R : Rounding} {d : Nat} {pre : String}
    {interfaces : Grammar.ModulePath → Option Names.Interface} {preludes : List Names.Interface}
    {m : Grammar.Module} {b : Names.Module}
    (h : compileTree R d pre interfaces preludes m = some b) :
    ∃ is h', importedModules interfaces m.imports = some is ∧ convertModule R m = some h' ∧
      Names.compile d pre h' is preludes = some b := by
  simp only [compileTree, Option.bind_eq_bind, Option.bind_eq_some_iff] at h
  obtain ⟨is, h1, h', h2, h3⟩ := h
  exact ⟨is, h', h1, h2, h3⟩

theorem compileSource_some {R : Rounding} {d n : Nat} {preludes before : List Names.Interface} {s : Source}
    {c : Compiled} (h : compileSource R d n preludes before s = some c) :
    ∃ m, Grammar.parse s.text = some m ∧
      compileTree R d (s.file ++ ":") (s.interfaces before) preludes m = some c.resolved ∧
      Names.analyze n c.resolved = .ok c.analyzed := by
  simp only [compileSource, Option.bind_eq_bind, Option.bind_eq_some_iff] at h
  obtain ⟨m, h1, b, h2, h3⟩ := h
  split at h3
  · rename_i r hr
    cases h3
    exact ⟨m, h1, h2, hr⟩
  · cases h3

theorem good_imports {s : Source} {preludes before : List Names.Interface} (hp : ∀ i ∈ preludes, Good i)
    (hb : ∀ i ∈ before, Good i) {m : Grammar.Module} {is : List Names.Import}
    (h : importedModules (s.interfaces before) m.imports = some is) :
    ∀ i ∈ is.map (·.interface) ++ preludes, Good i := by
  intro i hi
  rcases List.mem_append.mp hi with hi | hi
  · obtain ⟨j, hj, rfl⟩ := List.mem_map.mp hi
    obtain ⟨k, _, hk⟩ := importedModules_interface h j hj
    simp only [Source.interfaces, Option.bind_eq_some_iff] at hk
    obtain ⟨x, _, hx⟩ := hk
    exact hb _ (List.mem_of_getElem? hx)
  · exact hp i hi

/-- The name under which an import is known: the one given to it, or else the last component of its path. -/
inductive CalledAs : Grammar.Import → String → Prop
  | alias_ {i a} : i.alias? = some a → CalledAs i (text a)
  | internal {i cs c} : i.alias? = none → i.path = .internal (cs ++ [c]) → CalledAs i (text c)
  | external {i p cs c} : i.alias? = none → i.path = .external p (cs ++ [c]) → CalledAs i (text c)

/-- What the imports of a module stand for: the interfaces of modules compiled before it, those its
paths are found at. -/
def Imports (s : Source) (all : List Names.Interface) : List Grammar.Import → List Names.Import → Prop :=
  List.Forall₂ fun i j => (∃ k, s.find i.path = some k ∧ all[k]? = some j.interface) ∧ CalledAs i j.pre ∧
    j.unqualified = i.names.map text

theorem calledAs_prefixOf {i : Grammar.Import} (h : Grammar.PlainImport i) : CalledAs i (prefixOf i) := by
  unfold prefixOf
  cases ha : i.alias? with
  | some a => exact .alias_ ha
  | none =>
    have h := h.1
    cases hp : i.path with
    | external p cs =>
      rw [hp] at h
      obtain ⟨cs', c, rfl⟩ := List.eq_nil_or_concat' cs |>.resolve_left h.2.1
      have : (cs' ++ [c]).getLastD [] = c := by simp [List.getLastD_eq_getLast?]
      simp only [this]
      exact .external ha hp
    | internal cs =>
      rw [hp] at h
      obtain ⟨cs', c, rfl⟩ := List.eq_nil_or_concat' cs |>.resolve_left h.1
      have : (cs' ++ [c]).getLastD [] = c := by simp [List.getLastD_eq_getLast?]
      simp only [this]
      exact .internal ha hp

theorem importedModules_imports {s : Source} {before all : List Names.Interface} (hb : before <+: all) :
    ∀ {is : List Grammar.Import} {js}, (∀ i ∈ is, Grammar.PlainImport i) →
      importedModules (s.interfaces before) is = some js → Imports s all is js
  | [], _, _, h => by cases h; exact .nil
  | i :: is, _, hi, h => by
    simp only [importedModules, Option.bind_eq_bind, Option.bind_eq_some_iff, Option.some.injEq,
      Source.interfaces] at h
    obtain ⟨g, ⟨k, h1, h3⟩, js, h2, rfl⟩ := h
    refine .cons ⟨⟨k, h1, ?_⟩, calledAs_prefixOf (hi i List.mem_cons_self), rfl⟩
      (importedModules_imports hb (fun j hj => hi j (List.mem_cons_of_mem _ hj)) h2)
    obtain ⟨t, rfl⟩ := hb
    rw [List.getElem?_append_left (List.getElem?_eq_some_iff.mp h3).1, h3]

/-- What is known of each module of a program. -/
structure Known (R : Rounding) (d n : Nat) (preludes all : List Names.Interface) (s : Source) (c : Compiled) :
    Prop where
  facts : ∃ m is h, Grammar.parse s.text = some m ∧ convertModule R m = some h ∧ Names.Written h ∧
    (∀ i ∈ is.map (·.interface) ++ preludes, Good i) ∧
    Imports s all m.imports is ∧
    Names.compile d (s.file ++ ":") h is preludes = some c.resolved ∧
    Names.analyze n c.resolved = .ok c.analyzed

theorem compileSource_known {R : Rounding} {d n : Nat} {preludes before all : List Names.Interface}
    (hp : ∀ i ∈ preludes, Good i) (hb : ∀ i ∈ before, Good i) (ha : before <+: all) {s : Source} {c : Compiled}
    (h : compileSource R d n preludes before s = some c) :
    Known R d n preludes all s c ∧ Good (Names.interface c.resolved) := by
  obtain ⟨m, h1, h2, h3⟩ := compileSource_some h
  obtain ⟨is, h', h4, h5, h6⟩ := compileTree_some h2
  have hw := convertModule_written (Grammar.parse_made h1) h5
  have hg := good_imports hp hb h4
  exact ⟨⟨m, is, h', h1, h5, hw, hg, importedModules_imports ha (Grammar.parse_made h1).1 h4, h6, h3⟩,
    Names.c53_interfaces_compiled d _ h' _ is preludes hw (full_file _) (fun i hi => (hg i hi).1) h6,
    Names.interface_closed hw (fun i hi => (hg i hi).1) (fun i hi => (hg i hi).2) h6 h3⟩

theorem compileSources_known {R : Rounding} {d n : Nat} {preludes all : List Names.Interface}
    (hp : ∀ i ∈ preludes, Good i) : ∀ {ss : List Source} {before : List Names.Interface} {cs : List Compiled},
    (∀ i ∈ before, Good i) → compileSources R d n preludes before ss = some cs →
    (before ++ cs.map (fun c => Names.interface c.resolved)) = all →
    List.Forall₂ (Known R d n preludes all) ss cs
  | [], _, _, _, h, _ => by cases h; exact .nil
  | s :: ss, before, cs, hb, h, ha => by
    simp only [compileSources, Option.bind_eq_bind, Option.bind_eq_some_iff, Option.some.injEq] at h
    obtain ⟨c, h1, cs', h2, rfl⟩ := h
    obtain ⟨h3, h4⟩ := compileSource_known hp hb ⟨_, ha⟩ h1
    refine .cons h3 (compileSources_known hp ?_ h2 (by simpa using ha))
    simpa [or_imp, forall_and] using ⟨hb, h4⟩

end Verif.Front
