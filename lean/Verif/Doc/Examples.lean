import Verif.Doc.ReadBack
import Verif.Grammar.FormatterExamples

/-
C71: packages that meet the hypotheses of the theorems, and comments that are shown although they are not about what
they are shown at.
-/

namespace Verif.Doc

open Verif.Grammar
open Verif.Front (isNamePublic)

/-- `lib/app/src/package_documentation_generator.rs:35-46`: a module that is read from a text. -/
def read (components : List Name) (l : Layout) (s : List Char) : Option DocModule := do
  let m ← parse s
  let cs ← parseComments s
  pure ⟨components, m, l, cs⟩

def fooName : Name := "Foo".toList

def barName : Name := "bar".toList

def package : Package := ⟨fooName, "https://foo".toList, "A package".toList, "library".toList⟩

def configuration : Configuration := ⟨"pen".toList, ["Hidden".toList]⟩

def number : Ty := .reference "number".toList

def lambda (body : Name) : Lambda := ⟨[(['x'], number)], number, ⟨[], .variable body⟩⟩

def addOne (x : Name) (body : Name) : FunctionDefinition := ⟨x, lambda body, none⟩

/-- A module with a comment, a closed and an open record, and public, private and hidden functions. -/
def module₀ (components : List Name) : DocModule where
  components := components
  module := ⟨[], [], [.record "A".toList [("x".toList, .reference "number".toList)],
    .record "B".toList [("X".toList, .reference "number".toList)]],
    [addOne "f".toList "x".toList, addOne "Hidden".toList "x".toList, addOne "G".toList "x".toList]⟩
  layout := linesOf [([0, 2], 4), ([0, 0, 2], 5), ([1, 2], 9), ([0, 1, 2], 10), ([0, 3], 13), ([0, 0, 3], 13),
    ([1, 3], 16), ([0, 1, 3], 16), ([2, 3], 19), ([0, 2, 3], 19), ([2, 0, 2, 3], 19)]
  comments := [⟨" About".toList, 1⟩, ⟨" Foo".toList, 2⟩, ⟨" Open.".toList, 8⟩, ⟨" Hidden".toList, 15⟩, ⟨" Adds".toList, 18⟩]

/-- The documentation of a package of this module and a private one. -/
def shown : List Char :=
  "# `Foo` package\n\nA package\n\n```json\n{\n  \"type\": \"library\"\n}\n```\n\n## Install\n\n```json\n{\n  \"dependencies\": {\n    \"Foo\": \"https://foo\"\n  } \n}\n```\n\n## `Foo'Foo` module\n\nAbout\nFoo\n\n### Types\n\n#### `A`\n\n```pen\ntype A {\n  # ...\n}\n```\n\n#### `B`\n\nOpen.\n\n```pen\ntype B {\n  X number\n}\n```\n\n### Functions\n\n#### `G`\n\nAdds\n\n```pen\n\\(x number) number\n```\n".toList

example : generate package [module₀ [barName], module₀ [fooName]] configuration = shown := by decide +kernel

/-- Two modules that look the same from outside: the body of the function is another, and the function is moved by a
private one in front of it. -/
def module₁ : DocModule := ⟨[['F']], ⟨[], [], [], [addOne ['F'] ['x']]⟩, ⟨fun _ => 2, false⟩, [⟨['a'], 1⟩]⟩

def module₂ : DocModule := ⟨[['F']], ⟨[], [], [], [addOne ['g'] ['y'], addOne ['F'] ['y']]⟩,
  ⟨fun p => if p.drop (p.length - 2) = [0, 3] then 1 else 5, false⟩, [⟨['a'], 4⟩]⟩

example : SameInterface ⟨['p'], []⟩ module₁ module₂ := by
  have f1 : documentedFunctions ⟨['p'], []⟩ module₁ = [(addOne ['F'] ['x'], [0, 3])] := rfl
  have f2 : documentedFunctions ⟨['p'], []⟩ module₂ = [(addOne ['F'] ['y'], [1, 3])] := rfl
  have r1 : module₁.Read := ⟨⟨by simp [module₁], by simp [module₁]⟩, fun _ => by simp [module₁]⟩
  have r2 : module₂.Read := ⟨⟨by simp [module₂], by simp [module₂]⟩, fun _ => by simp only [module₂]; split <;> omega⟩
  refine ⟨rfl, ⟨r1, r2⟩, fun ts => ?_, .nil, ?_⟩
  · have h1 : firstBlock module₁.comments (firstChild module₁) = none := by decide +kernel
    have h2 : firstBlock module₂.comments (firstChild module₂) = none := by decide +kernel
    constructor
    · rintro ⟨ds, h, h', _⟩
      rw [(c71_module_comment module₁ ds).mpr ⟨h, h'⟩] at h1
      cases h1
    · rintro ⟨ds, h, h', _⟩
      rw [(c71_module_comment module₂ ds).mpr ⟨h, h'⟩] at h2
      cases h2
  · rw [f1, f2]
    have hl : ∀ q : Path, module₂.layout.line (q ++ [1, 3]) = 5 := fun q => by
      simp only [module₂]
      rw [if_neg]
      simp
    refine .cons ⟨rfl, fun ts => ?_, rfl, rfl, 2, 5, ?_, fun i _ q => ?_⟩ .nil
    · have h1 : lastBlock module₁.comments 2 = some [⟨['a'], 1⟩] := by decide +kernel
      have h2 : lastBlock module₂.comments 5 = some [⟨['a'], 4⟩] := by decide +kernel
      have e : module₂.layout.line [1, 3] = 5 := hl []
      show (∃ ds, IsBlockBefore module₁.comments 2 ds ∧ _) ↔ ∃ ds, IsBlockBefore module₂.comments (module₂.layout.line [1, 3]) ds ∧ _
      rw [e]
      simp only [← lastBlock_iff r1.comments (Nat.le_succ 1), ← lastBlock_iff r2.comments (show 1 ≤ 5 by omega), h1, h2]
      simp
    · show 2 + 5 = module₂.layout.line ([0] ++ [1, 3]) + 2
      rw [hl]
    · show 2 + 5 = module₂.layout.line (q ++ ([i, 0] ++ [1, 3])) + 2
      rw [← List.append_assoc, hl]

/-! ## Comments that are not about what they are shown at -/

/-- A comment at the end of the line of a private definition. -/
def trailingSource : List Char := "f = \\() none { x } # s\nG = \\() none { x }\n".toList

/-- **C71, counterexample.** A comment at the end of the line of a definition is shown as the comment of the next
definition, if this is on the next line. So the comments of what is private can be shown. -/
theorem c71_trailing_comment_counterexample (l : Layout) (h1 : l.line [0, 3] = 1) (h2 : l.line [1, 3] = 2) :
    ∃ m, read [['A']] l trailingSource = some m ∧
      (documentedFunctions ⟨['p'], []⟩ m).map (fun d => (d.1.name, lastBlock m.comments (m.layout.line d.2))) =
        [(['G'], some [⟨" s".toList, m.layout.line [0, 3]⟩])] := by
  have h : (parse trailingSource).map (fun m => m.functions.map FunctionDefinition.name) = some [['f'], ['G']] := by
    decide +kernel
  have hc : parseComments trailingSource = some [⟨" s".toList, 1⟩] := by decide +kernel
  obtain ⟨m, hm, e⟩ := Option.map_eq_some_iff.mp h
  refine ⟨⟨[['A']], m, l, [⟨" s".toList, 1⟩]⟩, by simp [read, hm, hc], ?_⟩
  have hf : ∃ f g, m.functions = [f, g] ∧ f.name = ['f'] ∧ g.name = ['G'] := by
    obtain ⟨f, g, hf⟩ := List.length_eq_two.mp (show m.functions.length = 2 by simpa using congrArg List.length e)
    rw [hf] at e
    exact ⟨f, g, hf, by simpa using e⟩
  obtain ⟨f, g, hf, e1, e2⟩ := hf
  have p1 : isDocumented ⟨['p'], []⟩ ['f'] = false := by decide
  have p2 : isDocumented ⟨['p'], []⟩ ['G'] = true := by decide
  have hb : lastBlock [⟨" s".toList, 1⟩] 2 = some [⟨" s".toList, 1⟩] := by decide +kernel
  simp only [documentedFunctions, hf, numbered, List.filter_cons, List.filter_nil, e1, e2, p1, p2, h1, h2, hb,
    List.map_cons, List.map_nil, if_true, Bool.false_eq_true, if_false]

/-- A comment at the end of the line of an import. -/
def importSource : List Char := "import 'B # s\n".toList

/-- **C71, counterexample.** A comment at the end of the first line is shown as the comment of the module. -/
theorem c71_import_comment_counterexample (l : Layout) (h : l.line [0, 0] = 1) :
    ∃ m, read [['A']] l importSource = some m ∧ m.module.imports.length = 1 ∧
      firstBlock m.comments (firstChild m) = some [⟨" s".toList, m.layout.line [0, 0]⟩] := by
  have hp : (parse importSource).map (fun m => m.imports.length) = some 1 := by decide +kernel
  have hc : parseComments importSource = some [⟨" s".toList, 1⟩] := by decide +kernel
  obtain ⟨m, hm, e⟩ := Option.map_eq_some_iff.mp hp
  refine ⟨⟨[['A']], m, l, [⟨" s".toList, 1⟩]⟩, by simp [read, hm, hc], e, ?_⟩
  obtain ⟨i, hi⟩ := List.length_eq_one_iff.mp e
  have hf : firstChild ⟨[['A']], m, l, [⟨" s".toList, 1⟩]⟩ = some 1 := by
    simp [firstChild, hi, numbered, h]
  have hb : firstBlock [⟨" s".toList, 1⟩] (some 1) = some [⟨" s".toList, 1⟩] := by decide +kernel
  rw [hf]
  show firstBlock [⟨" s".toList, 1⟩] (some 1) = some [⟨" s".toList, l.line [0, 0]⟩]
  rw [hb, h]

/-- A source of a type that is shown, and read back. -/
def typeSource : List Char := "type B { X number }\n".toList

example : ∃ m, parse typeSource = some m ∧ (∀ d ∈ m.types, SafeTypeDefinition d) ∧
    documentedTypes ⟨['p'], []⟩ ⟨[['A']], m, linesOf [], []⟩ ≠ [] := by
  have hp : (parse typeSource).map (fun m => m.types.map typeName) = some [['B']] := by decide +kernel
  obtain ⟨m, hm, e⟩ := Option.map_eq_some_iff.mp hp
  obtain ⟨d, hd⟩ := List.length_eq_one_iff.mp (show m.types.length = 1 by simpa using congrArg List.length e)
  have hs : (parse typeSource).any (fun m => m.types.all fun
    | .record _ [(_, .reference _)] => true
    | _ => false) = true := by decide +kernel
  refine ⟨m, hm, ?_, ?_⟩
  · rw [hm] at hs
    simp only [Option.any_some, hd, List.all_cons, List.all_nil, Bool.and_true] at hs
    rw [hd]
    intro d' hd'
    rw [List.mem_singleton.mp hd']
    split at hs
    · simp [SafeTypeDefinition, Ty.Safe]
    · cases hs
  · rw [hd] at e
    have e : typeName d = ['B'] := by simpa using e
    have p : isDocumented ⟨['p'], []⟩ ['B'] = true := by decide
    simp [documentedTypes, hd, numbered, e, p]

end Verif.Doc
