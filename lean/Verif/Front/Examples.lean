import Verif.Front.Properties

/-
C68: programs that meet the hypotheses, and one of which formatting changes the meaning.
-/

namespace Verif.Front

open Verif

/-! ## A program of two modules -/

/-- Numbers, rounded somehow. -/
def someRounding : Rounding := ⟨fun s => s.length.toUInt64, Nat.toUInt64⟩

def shop : Source where
  file := "Shop.pen"
  text := ("# Items\ntype Item { value number }\n" ++
    "Make = \\(value number) Item { Item{value: value} }\n").toList
  find := fun _ => none

/-- It has a local variable and functions named like others, and literals of three kinds. -/
def main : Source where
  file := "Main.pen"
  text := ("import 'Shop { Make }\n" ++
    "type own { Item number }\n" ++
    "size = \\(Make number) Shop'Item {\n  x = own{Item: Make + 0xff - 0b11 * 1.5}\n  if x.Item > 2 { build(x.Item) } else { build(0) }\n}\n" ++
    "build = \\(n number) Shop'Item { Make(n) }\n").toList
  find := fun p => match p with
    | .internal [['S', 'h', 'o', 'p']] => some 0
    | _ => none

deriving instance DecidableEq for Hir.RecordField
deriving instance DecidableEq for Names.InterfaceType, Names.InterfaceAlias, Names.InterfaceFunction
deriving instance DecidableEq for Names.Interface

/-- The interface of a compiled module. -/
def Compiled.interface (c : Compiled) : Names.Interface := Names.interface c.resolved

/-- Programs are compiled one module after the other. -/
theorem compileSources_step {R : Rounding} {d n : Nat} {preludes before : List Names.Interface}
    {s : Source} {ss : List Source} {i : Names.Interface}
    (h : (compileSource R d n preludes before s).map Compiled.interface = some i)
    (h' : ∃ cs, compileSources R d n preludes (before ++ [i]) ss = some cs) :
    ∃ cs, compileSources R d n preludes before (s :: ss) = some cs := by
  obtain ⟨c, hc, rfl⟩ := Option.map_eq_some_iff.mp h
  obtain ⟨cs, hcs⟩ := h'
  exact ⟨c :: cs, by simp only [compileSources, hc, Option.bind_eq_bind, Option.bind_some]; rw [← Compiled.interface, hcs]; rfl⟩

theorem compileSources_last {R : Rounding} {d n : Nat} {preludes before : List Names.Interface} {s : Source}
    (h : (compileSource R d n preludes before s).isSome = true) :
    ∃ cs, compileSources R d n preludes before [s] = some cs := by
  obtain ⟨c, hc⟩ := Option.isSome_iff_exists.mp h
  exact ⟨[c], by simp [compileSources, hc]⟩

def shopInterface : Names.Interface :=
  ⟨[⟨"Shop.pen:Item", "Item", [⟨"value", .number⟩], false, true⟩], [],
    [⟨"Shop.pen:Make", "Make", .function [.number] (.reference "Shop.pen:Item")⟩]⟩

theorem shop_compiled : (compileSource someRounding 9 30 [] [] shop).map Compiled.interface = some shopInterface := by
  decide +kernel

theorem shopProgram : ∃ cs, compileSources someRounding 9 30 [] [] [shop, main] = some cs :=
  compileSources_step shop_compiled (compileSources_last (by decide +kernel))

/-- Hypotheses of the theorems about programs are met. -/
example : ∃ cs, compileSources someRounding 9 30 [] [] [shop, main] = some cs ∧
    (∀ i ∈ ([] : List Names.Interface), Good i ∧ FromPrelude i) ∧
    ([shop, main].map (·.file)).Nodup ∧ "prelude" ∉ [shop, main].map (·.file) := by
  obtain ⟨cs, h⟩ := shopProgram
  exact ⟨cs, h, by simp, by decide, by decide⟩

/-- The names of called functions of the program: in `size` the argument `Make` is no function, and in
`build` it is that of the other module. -/
def callees : Hir.Expr → List String
  | .call _ (.variable x) _ => [x]
  | .let_ _ _ _ e => callees e
  | .if_ _ a b => callees a ++ callees b
  | _ => []

example : ((compileSource someRounding 9 30 [] [shopInterface] main).map fun c =>
      c.resolved.definitions.map fun f => (f.name, callees f.body)) =
    some [("Main.pen:size", ["Main.pen:build", "Main.pen:build"]), ("Main.pen:build", ["Shop.pen:Make"])] := by
  decide +kernel

/-- The type definitions of a module are one of a record with one field. -/
def oneField (y : Grammar.Name) : List Grammar.TypeDefinition → Bool
  | [.record _ [f]] => f.1 = y
  | _ => false

/-- The first module has a private field. -/
example : ∃ m x fs y, Grammar.parse shop.text = some m ∧ Grammar.TypeDefinition.record x fs ∈ m.types ∧
    y ∈ fs ∧ ¬ ∃ a as, y.1 = a :: as ∧ a.isUpper = true := by
  have h : ((Grammar.parse shop.text).map fun m => oneField "value".toList m.types) = some true := by
    decide +kernel
  obtain ⟨m, hm, h⟩ := Option.map_eq_some_iff.mp h
  refine ⟨m, ?_⟩
  rw [hm]
  clear hm
  unfold oneField at h
  split at h
  · rename_i x y ht
    refine ⟨x, [y], y, rfl, by rw [ht]; exact List.mem_singleton_self _, List.mem_singleton_self _, ?_⟩
    rintro ⟨a, as, e, ha⟩
    rw [decide_eq_true_eq] at h
    rw [h] at e
    obtain rfl : 'v' = a := (List.cons.inj e).1
    revert ha; decide
  · cases h

/-- Another module that reads the private field is rejected. -/
def thief : Source := { main with
  text := "import 'Shop\nsteal = \\(x Shop'Item) number { x.value }\n".toList }

example : compileSource someRounding 9 30 [] [shopInterface] thief = none := by
  have : (compileSource someRounding 9 30 [] [shopInterface] thief).isNone = true := by decide +kernel
  simpa using this

/-! ## What is written -/

/-- How the body of `build` reads. -/
example : ((Grammar.parse main.text).map fun m => (m.functions.drop 1).map fun f =>
    tokensBlock someRounding f.lambda.body) =
    some [[.word "(", .name "Make", .word ",", .name "n", .word ")"]] := by decide +kernel

example : ((Grammar.parse "f = \\(x number) [a] { [a g(x) for x in [b 0x10] for y in z if !y == 1] }".toList).map
    fun m => m.functions.map fun f => tokensBlock someRounding f.lambda.body) =
    some [[.word "(", .word "[", .type ["a"], .word "(", .name "g", .word ",", .name "x", .word ")",
      .word "for", .name "x", .word "in", .word ",", .word "(", .word "[", .type ["b"], .word ",", .number 16,
      .word ")", .word "for", .name "y", .word "in", .word ",", .name "z", .word "if", .word "(",
      .word "(", .word "!", .name "y", .word ")", .word "==", .number 1, .word ")", .word ")"]] := by
  decide +kernel

/-- Both modules are converted. -/
example : ((Grammar.parse shop.text).bind (convertModule someRounding)).isSome = true ∧
    ((Grammar.parse main.text).bind (convertModule someRounding)).isSome = true := by decide +kernel

/-! ## Literals -/

example : (Grammar.parse "f = \\() number { 0xffffffffffffffff + 0b0 + 18446744073709551616 }".toList).map
    (fun m => (convertModule someRounding m).isSome) = some true := by decide +kernel

example : (Grammar.parse "f = \\() number { 0x10000000000000000 }".toList).map
    (fun m => (convertModule someRounding m).isSome) = some false := by decide +kernel

/-! ## The order of imports -/

/-- `Bar` of one module, and of another one in another directory. -/
def fooA : Source := ⟨"A/Foo.pen", "Bar = \\() number { 1 }\n".toList, fun _ => none⟩
def fooB : Source := ⟨"B/Foo.pen", "Bar = \\() number { 2 }\n".toList, fun _ => none⟩

/-- A module that imports both of them. -/
def both (text : List Char) : Source where
  file := "Main.pen"
  text := text
  find := fun p => match p with
    | .internal [['A'], ['F', 'o', 'o']] => some 0
    | .internal [['B'], ['F', 'o', 'o']] => some 1
    | _ => none

/-- The second one is imported first. -/
def bothText : List Char := "import 'B'Foo\nimport 'A'Foo\n\nMain = \\() number { Foo'Bar() }\n".toList

open Verif.Grammar (Module shortSort mergeSort_short)

/-- Sorted imports without names, if there are at most two of each kind: a form in which they can be
computed. -/
def sortedShort (m : Module) : Module :=
  { m with
    imports := (shortSort (fun i j => Grammar.pathLe i.path j.path) (m.imports.filter Grammar.Import.isExternal) ++
      shortSort (fun i j => Grammar.pathLe i.path j.path) (m.imports.filter fun i => !i.isExternal)).map
        fun i => { i with names := shortSort Grammar.nameLe i.names } }

theorem sorted_short {m : Module} (h : m.imports.length ≤ 2) (hn : ∀ i ∈ m.imports, i.names.length ≤ 2) :
    m.sorted = sortedShort m := by
  have h1 : (m.imports.filter Grammar.Import.isExternal).length ≤ 2 := (List.length_filter_le _ _).trans h
  have h2 : (m.imports.filter fun i => !i.isExternal).length ≤ 2 := (List.length_filter_le _ _).trans h
  unfold Module.sorted sortedShort Grammar.orderedImports Grammar.sortImports
  rw [← mergeSort_short _ h1, ← mergeSort_short _ h2]
  congr 1
  refine List.map_congr_left fun i hi => ?_
  rw [mergeSort_short]
  apply hn
  rcases List.mem_append.mp hi with hi | hi
  · exact (List.mem_filter.mp ((List.mergeSort_perm _ _).mem_iff.mp hi)).1
  · exact (List.mem_filter.mp ((List.mergeSort_perm _ _).mem_iff.mp hi)).1

/-- Their interfaces. -/
def interfaceA : Names.Interface := ⟨[], [], [⟨"A/Foo.pen:Bar", "Bar", .function [] .number⟩]⟩
def interfaceB : Names.Interface := ⟨[], [], [⟨"B/Foo.pen:Bar", "Bar", .function [] .number⟩]⟩

theorem fooA_compiled : (compileSource someRounding 9 30 [] [] fooA).map Compiled.interface = some interfaceA := by
  decide +kernel

theorem fooB_compiled :
    (compileSource someRounding 9 30 [] [interfaceA] fooB).map Compiled.interface = some interfaceB := by
  decide +kernel

/-- Which functions the functions of a compiled module call. -/
def calleesOf (b : Option Names.Module) : Option (List String) :=
  b.map fun b => b.definitions.flatMap fun f => callees f.body

/-- A syntax tree, compiled with the interfaces of the two modules. -/
def compileBoth (m : Module) : Option Names.Module :=
  compileTree someRounding 9 "Main.pen:" ((both []).interfaces [interfaceA, interfaceB]) [] m

/-- The module before it is formatted. -/
def bothTree : Module := (Grammar.parse bothText).getD ⟨[], [], [], []⟩

theorem bothTree_parsed : Grammar.parse bothText = some bothTree := by
  have : (Grammar.parse bothText).isSome = true := by decide +kernel
  obtain ⟨m, hm⟩ := Option.isSome_iff_exists.mp this
  rw [bothTree, hm]
  rfl

theorem bothTree_safe : bothTree.Safe := by
  have : decide bothTree.Safe = true := by decide +kernel
  simpa using this

/-- **C68, the restriction on imports is needed.** Formatting sorts imports
(`lib/format/src/lib.rs:103-121`), and of two imports that offer the same name the last one counts
(`lib/ast-hir/src/import.rs:87-114`). The module `bothText` calls the function `Bar` of `A/Foo.pen`, and
that of `B/Foo.pen` after every formatting of it. Both are accepted. -/
theorem c68_formatting_changes_meaning :
    Grammar.parse bothText = some bothTree ∧ bothTree.Safe ∧
    calleesOf (compileBoth bothTree) = some ["A/Foo.pen:Bar"] ∧
    (∃ t, Grammar.Formatted bothTree t) ∧
    ∀ t, Grammar.Formatted bothTree t → ∃ m', Grammar.parse t = some m' ∧
      calleesOf (compileBoth m') = some ["B/Foo.pen:Bar"] := by
  refine ⟨bothTree_parsed, bothTree_safe, by decide +kernel, ⟨_, Grammar.formatted_render _⟩, fun t ht => ?_⟩
  refine ⟨bothTree.sorted, Grammar.parse_ok ((Grammar.parse_made bothTree_parsed).plain bothTree_safe) ht, ?_⟩
  have hl : decide (bothTree.imports.length ≤ 2 ∧ ∀ i ∈ bothTree.imports, i.names.length ≤ 2) = true := by
    decide +kernel
  rw [decide_eq_true_eq] at hl
  rw [sorted_short hl.1 hl.2]
  decide +kernel

/-- Both of them are accepted, as the last module of the program. -/
example : ∃ cs, compileSources someRounding 9 30 [] [] [fooA, fooB, both bothText] = some cs :=
  compileSources_step fooA_compiled (compileSources_step fooB_compiled (compileSources_last (by decide +kernel)))

/-- With one of them renamed, no name has two meanings, and the hypotheses of
`c68_formatting_keeps_meaning_partial` are met. -/
def renamedText : List Char :=
  "import 'B'Foo as other\nimport 'A'Foo\n\nMain = \\() number { Foo'Bar() + other'Bar() }\n".toList

/-- The imports of this module. -/
def renamedImports : List Names.Import := [⟨interfaceB, "other", []⟩, ⟨interfaceA, "Foo", []⟩]

deriving instance DecidableEq for Names.Import

example : (Grammar.parse renamedText).bind (fun m =>
    importedModules ((both renamedText).interfaces [interfaceA, interfaceB]) m.imports) = some renamedImports ∧
    OffersOne renamedImports ∧ (∀ i ∈ renamedImports.map (·.interface), i.Compiled) := by
  refine ⟨by decide +kernel, ⟨?_, ?_⟩, ?_⟩
  · simp [renamedImports, interfaceA, interfaceB, Names.Import.sees]
  · simp [renamedImports, interfaceA, interfaceB]
  · simp only [renamedImports, List.map_cons, List.map_nil, List.mem_cons, List.not_mem_nil, or_false,
      forall_eq_or_imp, forall_eq]
    exact ⟨⟨by simp [interfaceB, Names.Full], by simp [interfaceB], by simp [interfaceB]⟩,
      ⟨by simp [interfaceA, Names.Full], by simp [interfaceA], by simp [interfaceA]⟩⟩

/-- The module `bothText` does not meet them. -/
example : ¬ OffersOne [⟨interfaceB, "Foo", []⟩, ⟨interfaceA, "Foo", []⟩] := by
  intro h
  have := h.functions ⟨interfaceB, "Foo", []⟩ (by simp) ⟨interfaceA, "Foo", []⟩ (by simp)
    _ (List.mem_singleton_self _) _ (List.mem_singleton_self _) rfl
  revert this
  decide

end Verif.Front
