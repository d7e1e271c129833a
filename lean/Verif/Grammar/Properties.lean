import Verif.Grammar.Order
import Verif.Grammar.Sources
import Verif.Grammar.Decisions
import Mathlib.Data.List.Forall2

/-
C57: a formatted module is parsed to the module that was formatted.

`parse` is the parser of modules on characters, and `Formatted m s` says that the text `s` is a
rendering of the module `m` by the formatter, with any white space, line breaks and comments in the
places where the formatter puts some.  Both are models of the code, for the whole syntax of modules.
What the parser makes of a text is compared with the tree that was formatted, in which only imports
(and the names in each of them) are sorted.
-/

namespace Verif.Grammar

/-! ## Renderings exist -/

/-- The rendering of pieces on a line: every gap is a space. -/
def render : List Piece → List Char
  | [] => []
  | .txt t :: ps => t ++ render ps
  | .gap :: ps => ' ' :: render ps
  | .soft :: ps => render ps
  | .trail :: ps => render ps

theorem fills_render : ∀ ps : List Piece, Fills ps (render ps)
  | [] => rfl
  | .txt _ :: ps => ⟨_, _, rfl, rfl, fills_render ps⟩
  | .gap :: ps => ⟨[' '], _, rfl, ⟨.space rfl .nil, by simp⟩, fills_render ps⟩
  | .soft :: ps => ⟨[], _, rfl, .nil, fills_render ps⟩
  | .trail :: ps => ⟨[], _, rfl, .inl rfl, fills_render ps⟩

/-- Every module has a rendering. -/
theorem formatted_render (m : Module) : Formatted m (render (printModule m)) := fills_render _

/-! ## Only imports are sorted -/

/-- Two lists of imports have the same imports up to the order of the imports and of the names in
each of them. -/
def SameImports (is js : List Import) : Prop :=
  ∃ ks : List Import, ks.Perm is ∧ List.Forall₂ (fun j k =>
    j.path = k.path ∧ j.alias? = k.alias? ∧ j.names.Perm k.names) js ks

/-- Two modules are the same up to the order of imports. -/
def SameModule (m m' : Module) : Prop :=
  SameImports m.imports m'.imports ∧ m'.foreignImports = m.foreignImports ∧ m'.types = m.types ∧
    m'.functions = m.functions

theorem forall₂_map {α : Type} {f : α → α} {R : α → α → Prop} (h : ∀ a, R (f a) a) :
    ∀ l : List α, List.Forall₂ R (l.map f) l
  | [] => .nil
  | a :: l => .cons (h a) (forall₂_map h l)

theorem sorted_same (m : Module) : SameModule m m.sorted :=
  ⟨⟨orderedImports m.imports, orderedImports_perm _, by
    rw [sorted_imports]
    exact forall₂_map (fun i => ⟨rfl, rfl, List.mergeSort_perm _ _⟩) _⟩, rfl, rfl, rfl⟩

/-! ## The round trip -/

/-- What a rendering of a module is parsed to does not depend on its layout and comments: it is the
module, with its imports sorted.  (Missing: the shapes that `Module.Plain` excludes, for which this
is false, see below.) -/
theorem c57_formatted_module_is_parsed_back_partial {m : Module} (hm : m.Plain) {s : List Char}
    (h : Formatted m s) : parse s = some m.sorted := parse_ok hm h

/-- If a source is parsed, and if what it is parsed to has none of the six shapes that `Module.Safe`
excludes, then every formatting of it is parsed to the same module up to the order of imports. -/
theorem c57_format_then_parse_partial {s t : List Char} {m : Module} (hs : parse s = some m)
    (hm : m.Safe) (ht : Formatted m t) :
    ∃ m', parse t = some m' ∧ SameModule m m' :=
  ⟨m.sorted, parse_ok ((parse_made hs).plain hm) ht, sorted_same m⟩

/-- Formatting is idempotent: a formatted text, parsed and formatted again, can only change in its
white space and comments. -/
theorem c57_formatting_is_idempotent_partial {s t : List Char} {m : Module} (hs : parse s = some m)
    (hm : m.Safe) (ht : Formatted m t) :
    ∃ m', parse t = some m' ∧ m'.Safe ∧ printModule m' = printModule m ∧
      ∀ u, Formatted m' u ↔ Formatted m u := by
  refine ⟨m.sorted, parse_ok ((parse_made hs).plain hm) ht, hm, printModule_sorted m, fun u => ?_⟩
  unfold Formatted
  rw [printModule_sorted]

/-- Two formattings of a module, in whatever layout, are parsed to the same module. -/
theorem c57_layout_does_not_matter_partial {s t u : List Char} {m : Module} (hs : parse s = some m)
    (hm : m.Safe) (ht : Formatted m t) (hu : Formatted m u) : parse t = parse u :=
  (parse_ok ((parse_made hs).plain hm) ht).trans (parse_ok ((parse_made hs).plain hm) hu).symm

/-- Imports are sorted: after formatting, every import comes after those with smaller paths, and
those of other packages come first. -/
theorem c57_imports_are_sorted_partial {s t : List Char} {m : Module} (hs : parse s = some m)
    (hm : m.Safe) (ht : Formatted m t) :
    ∃ m', parse t = some m' ∧
      m'.imports.Pairwise (fun i j => pathLe i.path j.path = true) ∧
      ∀ i ∈ m'.imports, i.names.Pairwise fun x y => nameLe x y = true := by
  refine ⟨m.sorted, parse_ok ((parse_made hs).plain hm) ht, sorted_ordered m, ?_⟩
  intro i hi
  rw [sorted_imports] at hi
  obtain ⟨j, _, rfl⟩ := List.mem_map.mp hi
  exact sortNames_ordered _

/-- Whatever the source is, the names and literals of what it is parsed to are well-formed: no
identifier is a keyword, number and string literals are such, every list that has to have elements
has some, and no record expression has two fields of the same name. -/
theorem c57_parsed_modules_are_well_formed {s : List Char} {m : Module} (h : parse s = some m) :
    m.Made := parse_made h

/-! ## The hypotheses can be met -/

/-- A module with imports in the wrong order, comments, a union, loops over lists and operators. -/
def exampleSource : List Char :=
  ("# A module\n" ++
    "import 'Foo import Core'List as list { Zip, First }\n" ++
    "import foreign \"c\" puts \\(string) none\n" ++
    "type pair { x number y [number | none] }\n" ++
    "foreign \"c\" Main = \\(a number, b {string: any}) none | error {\n" ++
    "  x = a*(1+2) - 0xFF # more\n" ++
    "  f = \\(p pair) [number] { [number v + 1 for v in p.y() if !(v == 1 & x < -1)] }\n" ++
    "  if y = g(pair{x: x, y: f(q)})? as none { go(h)\n none } else { {string: any \"a\": 1, ...b}\n z } }\n").toList

/-- The source is parsed, and what it is parsed to has none of the six shapes. -/
def parsesSafely (s : List Char) : Bool :=
  match parse s with
  | none => false
  | some m => decide m.Safe

theorem parsesSafely_spec {s : List Char} (h : parsesSafely s = true) :
    ∃ m, parse s = some m ∧ m.Safe := by
  unfold parsesSafely at h
  split at h
  · cases h
  · exact ⟨_, by assumption, by simpa using h⟩

theorem example_safe : ∃ m, parse exampleSource = some m ∧ m.Safe :=
  parsesSafely_spec (by decide +kernel)

/-- The hypotheses of the theorems above are met by `exampleSource` (whose imports are in the wrong
order). -/
example : ∃ m t, parse exampleSource = some m ∧ m.Safe ∧ Formatted m t ∧ parse t = some m.sorted := by
  obtain ⟨m, h, h'⟩ := example_safe
  exact ⟨m, _, h, h', formatted_render m, parse_ok ((parse_made h).plain h') (formatted_render m)⟩

/-- A module with a type. -/
def smallModule : Module := ⟨[], [], [.alias_ "a".toList (.reference "b".toList)], []⟩

theorem small_plain : smallModule.Plain := by
  refine ⟨by simp [smallModule], by simp [smallModule], fun d hd => ?_, by simp [smallModule]⟩
  cases List.mem_singleton.mp hd
  exact ⟨⟨'a', [], rfl, by decide, by decide, by decide⟩,
    .inl ⟨'b', [], rfl, by decide, by decide, by decide⟩⟩

/-- A layout of it with comments and line breaks. -/
theorem small_formatted : Formatted smallModule "#x\ntype #y\n a\n=  b\n".toList := by
  have e : printModule smallModule = [.soft, text "type", .gap, .txt "a".toList, .gap, text "=", .gap,
      .txt "b".toList, .gap, .soft] := by
    simp [printModule, smallModule, orderedImports, sortImports, printTypeDefinition, printType_reference]
  unfold Formatted
  rw [e]
  exact ⟨"#x\n".toList, _, rfl, .comment (t := ['x']) (c := '\n') (by decide) (by decide) .nil,
    "type".toList, _, rfl, rfl,
    " #y\n ".toList, _, rfl,
      ⟨.space (by decide) (.comment (t := ['y']) (c := '\n') (by decide) (by decide)
        (.space (by decide) .nil)), by decide⟩,
    "a".toList, _, rfl, rfl,
    "\n".toList, _, rfl, ⟨.space (by decide) .nil, by decide⟩,
    "=".toList, _, rfl, rfl,
    "  ".toList, _, rfl, ⟨.space (by decide) (.space (by decide) .nil), by decide⟩,
    "b".toList, _, rfl, rfl,
    "\n".toList, _, rfl, ⟨.space (by decide) .nil, by decide⟩,
    [], _, rfl, .nil, rfl⟩

example : parse "#x\ntype #y\n a\n=  b\n".toList = some smallModule.sorted :=
  c57_formatted_module_is_parsed_back_partial small_plain small_formatted

/-! ## The six shapes -/

/-- What `Expr` is made with. -/
def kind : Expr → Nat
  | .binary .. => 1
  | .call .. => 2
  | .if_ .. => 3
  | .ifList .. => 4
  | .ifMap .. => 5
  | .ifType .. => 6
  | .lambda .. => 7
  | .list .. => 8
  | .comprehension .. => 9
  | .map .. => 10
  | .number _ => 11
  | .record .. => 12
  | .field .. => 13
  | .string _ => 14
  | .unary .. => 15
  | .variable _ => 16

/-- A number that tells definitions apart: the number of statements of the first function, and what
its result and the right operand of the result are made with. -/
def code : List FunctionDefinition → Nat
  | ⟨_, ⟨_, _, .mk ss e⟩, _⟩ :: _ =>
    ss.length * 1000 + kind e * 20 +
      match e with
      | .binary _ _ r => kind r
      | _ => 0
  | [] => 0

/-- The same for the first type definition. -/
def typeCode : List TypeDefinition → Nat
  | .alias_ _ (.union _ (.union _ _)) :: _ => 1
  | _ => 0

/-- The source is parsed, but what it is parsed to is not what its formatting is parsed to. -/
def changes (s : List Char) : Bool :=
  match parse s with
  | none => false
  | some m =>
    match parse (render (printModule m)) with
    | none => true
    | some m' => code m'.functions != code m.functions || typeCode m'.types != typeCode m.types

/-- A source that is parsed, with a formatting of it that is parsed to something else, or that is
not parsed. -/
def Broken (s : List Char) : Prop :=
  ∃ m t, parse s = some m ∧ Formatted m t ∧ ∀ m', parse t = some m' → ¬ SameModule m m'

theorem changes_spec {s : List Char} (h : changes s = true) : Broken s := by
  unfold changes at h
  split at h
  · cases h
  · rename_i m hm
    refine ⟨m, _, hm, formatted_render m, fun m' hm' h' => ?_⟩
    rw [hm'] at h
    simp only [h'.2.2.1, h'.2.2.2, bne_self_eq_false, Bool.or_self, Bool.false_eq_true] at h

/-- Shape 1: `a + (b + c)` becomes `a + b + c`, which is `(a + b) + c`. -/
theorem c57_right_operand_counterexample :
    Broken "f = \\() number { a + (b + c) }".toList := changes_spec (by decide +kernel)

/-- Shape 2: `(a + b)(c)` becomes `a + b(c)`. -/
theorem c57_called_operation_counterexample :
    Broken "f = \\() number { (a + b)(c) }".toList := changes_spec (by decide +kernel)

/-- Shape 2: `(a + b).x()` becomes `a + b.x()`. -/
theorem c57_field_of_operation_counterexample :
    Broken "f = \\() number { (a + b).x }".toList := changes_spec (by decide +kernel)

/-- Shape 2: `(!a)(b)` becomes `!a(b)`. -/
theorem c57_called_negation_counterexample :
    Broken "f = \\() number { (!a)(b) }".toList := changes_spec (by decide +kernel)

/-- Shape 3: `(1).x` becomes `1.x`, which is `1.` and `x`. -/
theorem c57_field_of_number_counterexample :
    Broken "f = \\() number { (1).x }".toList := changes_spec (by decide +kernel)

/-- Shape 4: `number | (\(number) none)` becomes `number | \(number) none`, which is not a type. -/
theorem c57_union_with_function_counterexample :
    Broken "type t = number | (\\(number) none)".toList := changes_spec (by decide +kernel)

/-- Shape 4: `a | (b | c)` is regrouped. -/
theorem c57_union_counterexample :
    Broken "type t = a | (b | c)".toList := changes_spec (by decide +kernel)

/-- Shape 5: `if ([number 1]) == x { … }` becomes `if [number 1] == x { … }`, which is parsed as a
match of a list. -/
theorem c57_condition_counterexample :
    Broken "f = \\() number { if ([number 1]) == x { a } else { b } }".toList :=
  changes_spec (by decide +kernel)

/-- Shape 6: two statements `g()` and `(-1)` become `g() - 1`. -/
theorem c57_signed_number_counterexample :
    Broken "f = \\() number { g() (-1) }".toList := changes_spec (by decide +kernel)

/-- Shape 6: two statements `g` and `({a: b})` become the record `g{a: b}`. -/
theorem c57_record_counterexample :
    Broken "f = \\() number { g ({a: b}) }".toList := changes_spec (by decide +kernel)

end Verif.Grammar
