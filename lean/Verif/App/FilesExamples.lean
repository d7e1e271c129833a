import Verif.App.FilesProperties
import Verif.Grammar.FormatterExamples

/-
C72: packages that meet the hypotheses of the theorems, and what formatting of packages does not do.
-/

namespace Verif.App

/-- A package with a module, a test module in a directory, other files, and a hidden directory. -/
def someEntries : List (List Char × Node) :=
  [("A.pen".toList, .file), ("pen.json".toList, .file), ("a.b.pen".toList, .file),
   ("d".toList, .directory [("B.test.pen".toList, .file), (".C.pen".toList, .file)]),
   (".pen".toList, .directory [("A.pen".toList, .file)])]

example : DistinctEntries someEntries := by
  simp only [someEntries, DistinctEntries, Node.Distinct, String.reduceToList]
  simp

example : (Files.mk ["p".toList] someEntries fun _ => []).modules =
    [["p".toList, "A.pen".toList], ["p".toList, "d".toList, "B.test.pen".toList]] := by decide +kernel

/-- A module in a directory is imported and found. -/
example : resolveSourceFile ["p".toList] ["d".toList, "A".toList] sourceExtension ∈ findFiles sourceExtension ["p".toList]
    [("d".toList, .directory [("A.pen".toList, .file)])] := by decide +kernel

/-- A package of two modules. -/
def twoModules (a b : Text) : Files where
  directory := []
  entries := [("A.pen".toList, .file), ("B.pen".toList, .file)]
  content p := if p = ["A.pen".toList] then a else b

theorem twoModules_distinct (a b : Text) : DistinctEntries (twoModules a b).entries := by
  simp only [twoModules, DistinctEntries, Node.Distinct, String.reduceToList]
  simp

theorem twoModules_modules (a b : Text) : (twoModules a b).modules = [["A.pen".toList], ["B.pen".toList]] := by
  show findFiles _ [] [("A.pen".toList, .file), ("B.pen".toList, .file)] ++
    findFiles _ [] [("A.pen".toList, .file), ("B.pen".toList, .file)] = _
  decide +kernel

/-- **C72, counterexample.** Formatting a package is not all or nothing: where it fails because of a module, modules
before this one have been written, and are other than before. -/
theorem c72_format_is_not_atomic : ∃ (layout : Text → Grammar.Layout) (f : Files) (p : Path), DistinctEntries f.entries ∧
    (formatPackage (formatText layout) f).2 = false ∧ (formatPackage (formatText layout) f).1.content p ≠ f.content p := by
  have h1 : formatText (fun _ => Grammar.importsLayout) Grammar.importsSource =
      some "# B\n\n# A\nimport 'A\nimport 'B\n".toList := Grammar.c67_comments_can_leave_their_imports
  have h2 : formatText (fun _ => Grammar.importsLayout) ['('] = none := by
    have : Grammar.parse ['('] = none := by
      have : (Grammar.parse ['(']).isNone = true := by decide +kernel
      simpa using this
    unfold formatText Grammar.formatSource
    rw [this]
  have hn : ["B.pen".toList] ≠ ["A.pen".toList] := by decide +kernel
  refine ⟨fun _ => Grammar.importsLayout, twoModules Grammar.importsSource ['('], ["A.pen".toList], twoModules_distinct _ _, ?_, ?_⟩
  · unfold formatPackage
    rw [twoModules_modules]
    simp only [formatFiles, twoModules, if_true, h1, if_neg hn, h2]
  · unfold formatPackage
    rw [twoModules_modules]
    simp only [formatFiles, twoModules, if_true, h1, if_neg hn, h2]
    decide +kernel

/-- What the source of `Grammar.c67_comments_can_be_swapped` is formatted to. -/
def onceFormatted : Text := "f = \\(x number, # c # a\ny number) number {\n  x\n}\n".toList

/-- Lines of the nodes of both texts. -/
def swappedLayouts (s : Text) : Grammar.Layout :=
  if s = onceFormatted then Grammar.linesOf [([3, 0, 0, 3], 2), ([0, 3, 0, 0, 3], 2), ([0, 0, 0, 3], 2), ([1, 0, 0, 3], 2), ([0, 1, 0, 0, 3], 3)]
  else Grammar.swappedLayout

/-- **C72, counterexample.** What the formatter writes can be other than what it is formatted to, so that a package is
found not to be formatted right after it has been formatted. -/
theorem c72_format_is_not_stable (display : Path → Text) (le : Text → Text → Bool) :
    ∃ (layout : Text → Grammar.Layout) (f : Files), DistinctEntries f.entries ∧
      (formatPackage (formatText layout) f).2 = true ∧
      checkPackage (formatText layout) display le (formatPackage (formatText layout) f).1 ≠ .formatted := by
  have h1 : formatText swappedLayouts Grammar.swappedSource = some onceFormatted := by
    have hne : Grammar.swappedSource ≠ onceFormatted := by decide +kernel
    unfold formatText swappedLayouts
    rw [if_neg hne]
    exact Grammar.computed (by decide +kernel)
  have h2 : formatText swappedLayouts onceFormatted =
      some "f = \\(x number, y number) number { # c # a\n  x\n}\n".toList := by
    unfold formatText swappedLayouts
    rw [if_pos rfl]
    exact Grammar.computed (by decide +kernel)
  have h3 : onceFormatted ≠ "f = \\(x number, y number) number { # c # a\n  x\n}\n".toList := by decide +kernel
  let f := twoModules Grammar.swappedSource Grammar.swappedSource
  have hf : ∀ p, f.content p = Grammar.swappedSource := fun p => by
    show (if _ then _ else _) = _
    split <;> rfl
  have hs : (formatPackage (formatText swappedLayouts) f).2 = true :=
    (c72_format _ f (twoModules_distinct _ _)).1.mpr fun p _ => ⟨_, by rw [hf, h1]⟩
  refine ⟨swappedLayouts, f, twoModules_distinct _ _, hs, fun hc => ?_⟩
  have := (c72_format_then_check_partial _ display le f (twoModules_distinct _ _) hs).mp hc ["A.pen".toList]
    ((mem_modules f _).mp (by rw [twoModules_modules]; simp)) _ (by rw [hf, h1])
  rw [h2] at this
  exact h3 (Option.some.inj this).symm

/-- A text that stays as it is, so that the hypotheses of the theorems about formatting are met. -/
example (display : Path → Text) (le : Text → Text → Bool) : checkPackage (formatText fun _ => Grammar.linesOf []) display le
    (twoModules "import 'A\n".toList "import 'A\n".toList) = .formatted := by
  refine (c72_check _ display le _ (twoModules_distinct _ _)).1.mpr fun p _ => ?_
  have hf : (twoModules "import 'A\n".toList "import 'A\n".toList).content p = "import 'A\n".toList := by
    show (if _ then _ else _) = _
    split <;> rfl
  rw [hf]
  exact Grammar.computed (by decide +kernel)

end Verif.App
