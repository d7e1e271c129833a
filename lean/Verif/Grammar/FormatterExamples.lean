import Verif.Grammar.FormatterProperties

/-
C67: sources whose comments are merged, moved or put in another order by the formatter, and sources
that meet the hypotheses of the theorems.
-/

namespace Verif.Grammar

/-! ## What can go wrong -/

/-- A layout from the lines of some nodes; all others are on the first line. -/
def linesOf (ls : List (Path × Nat)) : Layout where
  line p := match ls.find? fun x => x.1 == p with
    | none => 1
    | some x => x.2
  otherwise := false

/-- Lists of at most two elements, sorted. -/
def shortSort {α : Type} (le : α → α → Bool) : List α → List α
  | [a, b] => if le a b then [a, b] else [b, a]
  | as => as

theorem mergeSort_short {α : Type} (le : α → α → Bool) {as : List α} (h : as.length ≤ 2) :
    as.mergeSort le = shortSort le as := by
  match as, h with
  | [], _ => simp [shortSort]
  | [a], _ => simp [shortSort]
  | [a, b], _ =>
    simp [shortSort, List.mergeSort, List.MergeSort.Internal.splitInTwo, List.splitAt, List.splitAt.go, List.merge]

/-- `compileModule` for at most two imports: a form in which it can be computed. -/
def compileShort (l : Layout) (m : Module) : F Doc := do
  let is := numbered [0] 0 m.imports
  let importsShort := fun (is : List (Import × Path)) => do
    let ds ← mapDocs (importDoc l) (shortSort (fun i j => pathLe i.1.path j.1.path) is)
    pure (.cat ds)
  let a ← importsShort (is.filter fun i => i.1.isExternal)
  let b ← importsShort (is.filter fun i => !i.1.isExternal)
  let c ← mapDocs (foreignImportDoc l) (numbered [1] 0 m.foreignImports)
  let d ← mapDocs (typeDefinitionDoc l) (numbered [2] 0 m.types)
  let e ← mapDocs (functionDoc l) (numbered [3] 0 m.functions)
  let r ← remainingComment
  pure ([a, b, .cat c, .cat (Doc.intersperse .line d), .cat (Doc.intersperse .line e), r].foldl
    addSection .empty)

theorem numbered_length {α : Type} (p : Path) : ∀ (n : Nat) (as : List α),
    (numbered p n as).length = as.length
  | _, [] => rfl
  | n, _ :: as => by simp [numbered, numbered_length p (n + 1) as]

theorem compileModule_short (l : Layout) {m : Module} (h : m.imports.length ≤ 2) :
    compileModule l m = compileShort l m := by
  have hn : (numbered [0] 0 m.imports).length ≤ 2 := by rw [numbered_length]; exact h
  have h1 : ((numbered [0] 0 m.imports).filter fun i => i.1.isExternal).length ≤ 2 :=
    Nat.le_trans (List.length_filter_le _ _) hn
  have h2 : ((numbered [0] 0 m.imports).filter fun i => !i.1.isExternal).length ≤ 2 :=
    Nat.le_trans (List.length_filter_le _ _) hn
  unfold compileModule compileShort importsDoc
  simp only [mergeSort_short _ h1, mergeSort_short _ h2]

/-- Computes what a source is formatted to. -/
def formatShort (l : Layout) (s : List Char) : Option (List Char) :=
  match parse s, parseComments s with
  | some m, some cs =>
    if m.imports.length ≤ 2 then some ((compileShort l m) cs).1.format else none
  | _, _ => none

theorem computed {l : Layout} {s t : List Char} (h : formatShort l s = some t) :
    formatSource l s = some t := by
  unfold formatShort at h
  unfold formatSource
  split at h
  · next m cs h1 h2 =>
    split at h
    · next hl =>
      rw [h1, h2]
      simp only [formatModule, compileModule_short l hl]
      exact h
    · cases h
  · cases h

/-- The comments of a text, computed. -/
def commentTexts (s : List Char) : Option (List (List Char)) :=
  (parseComments s).map fun cs => cs.map Comment.text

theorem computedComments {s : List Char} {xs : List (List Char)} (h : commentTexts s = some xs) :
    CommentsOf s xs := by
  unfold commentTexts at h
  obtain ⟨cs, hc, rfl⟩ := Option.map_eq_some_iff.mp h
  exact (parseComments_sound hc).1

/-- Comments at ends of lines can be written on the same line, where they are a single comment. -/
def mergedSource : List Char :=
  "f = \\() [number] {\n  [number 1, # a\n    2 # b\n  ]\n}\n".toList

def mergedLayout : Layout :=
  linesOf [([0, 1, 0, 0, 3], 2), ([1, 0, 1, 0, 0, 3], 2), ([2, 0, 1, 0, 0, 3], 3)]

theorem c67_comments_can_be_merged : ∃ t, formatSource mergedLayout mergedSource = some t ∧
    CommentsOf mergedSource [" a".toList, " b".toList] ∧ CommentsOf t [" a # b".toList] :=
  ⟨"f = \\() [number] {\n  [number 1, 2] # a # b\n}\n".toList, computed (by decide +kernel),
    computedComments (by decide +kernel), computedComments (by decide +kernel)⟩

/-- Comments between the arguments of a function are written in another order, and on the same
line. -/
def swappedSource : List Char :=
  "f = \\(x number, # a\n  # c\n  y number) number {\n  x\n}\n".toList

def swappedLayout : Layout := linesOf [([3, 0, 0, 3], 3), ([0, 1, 0, 0, 3], 4)]

theorem c67_comments_can_be_swapped : ∃ t, formatSource swappedLayout swappedSource = some t ∧
    CommentsOf swappedSource [" a".toList, " c".toList] ∧ CommentsOf t [" c # a".toList] :=
  ⟨"f = \\(x number, # c # a\ny number) number {\n  x\n}\n".toList, computed (by decide +kernel),
    computedComments (by decide +kernel), computedComments (by decide +kernel)⟩

/-- Imports are sorted but the comments in front of them are not: both comments are in front of the
same import. -/
def importsSource : List Char := "# B\nimport 'B\n\n# A\nimport 'A\n".toList

def importsLayout : Layout := linesOf [([0, 0], 2), ([1, 0], 5)]

theorem c67_comments_can_leave_their_imports :
    formatSource importsLayout importsSource =
      some "# B\n\n# A\nimport 'A\nimport 'B\n".toList :=
  computed (by decide +kernel)

/-! ## The hypotheses can be met -/

/-- A source with a comment in front of a definition, one in a block and one at the end of a line,
whose function has its argument on a line of its own. -/
def tidySource : List Char :=
  ("# one\nf = \\(\n  x number,\n) number {\n  # two  \n  y = x + 1 # three\n\n  y * 2\n}\n").toList

def tidyLayout : Layout := linesOf [
  ([0, 3], 2), ([0, 0, 3], 2), ([2, 0, 0, 3], 3), ([1, 0, 0, 3], 4),
  ([1, 1, 0, 0, 3], 6), ([0, 1, 1, 0, 0, 3], 6), ([0, 0, 1, 1, 0, 0, 3], 6),
  ([1, 0, 1, 1, 0, 0, 3], 6), ([0, 1, 0, 0, 3], 8), ([0, 0, 1, 0, 0, 3], 8),
  ([1, 0, 1, 0, 0, 3], 8)]

/-- The source is parsed, to a module that is safe and spread. -/
def parsesTidily (l : Layout) (s : List Char) : Bool :=
  match parse s with
  | none => false
  | some m => decide m.Safe && m.lambdas.all fun x =>
      x.2.isEmpty || decide (l.line (2 :: x.1) ≠ l.line x.1)

theorem parsesTidily_spec {l : Layout} {s : List Char} (h : parsesTidily l s = true) :
    ∃ m, parse s = some m ∧ m.Safe ∧ Spread l m := by
  unfold parsesTidily at h
  split at h
  · cases h
  · refine ⟨_, by assumption, ?_⟩
    simp only [Bool.and_eq_true, decide_eq_true_eq, List.all_eq_true, Bool.or_eq_true] at h
    refine ⟨h.1, fun x hx => ?_⟩
    rcases h.2 x hx with h | h
    · exact .inl (by simpa using h)
    · exact .inr h

/-- What `tidySource` is formatted to: its comments stay, in order. -/
theorem tidy_formatted : formatSource tidyLayout tidySource = some
    ("# one\nf = \\(\n  x number,\n) number {\n  # two\n  y = x + 1 # three\n\n  y * 2\n}\n").toList :=
  computed (by decide +kernel)

example : ∃ m t, parse tidySource = some m ∧ m.Safe ∧ Spread tidyLayout m ∧
    formatSource tidyLayout tidySource = some t ∧
    CommentsOf tidySource [" one".toList, " two  ".toList, " three".toList] := by
  obtain ⟨m, h1, h2, h3⟩ := parsesTidily_spec (l := tidyLayout) (s := tidySource) (by decide +kernel)
  exact ⟨m, _, h1, h2, h3, tidy_formatted, computedComments (by decide +kernel)⟩

/-- A source whose comments are on lines of their own. -/
def aloneSource : List Char := "# one\nf = \\() number {\n  # two\n  1\n}\n".toList

/-- The layout of `aloneSource`. -/
def aloneLayout : Layout where
  line p := if p = [0, 1, 0, 0, 3] then 4 else 2
  otherwise := false

example : ∃ t, formatSource aloneLayout aloneSource = some t ∧
    CommentsOf aloneSource [" one".toList, " two".toList] ∧
    ∀ cs, parseComments aloneSource = some cs → ∀ c ∈ cs, ∀ p, aloneLayout.line p ≠ c.line := by
  refine ⟨aloneSource, computed (by decide +kernel), computedComments (by decide +kernel), ?_⟩
  have e : parseComments aloneSource = some [⟨" one".toList, 1⟩, ⟨" two".toList, 3⟩] := by
    decide +kernel
  intro cs h c hc p
  rw [e] at h
  cases h
  have hp : aloneLayout.line p = 4 ∨ aloneLayout.line p = 2 := by
    show (if _ then _ else _) = _ ∨ (if _ then _ else _) = _
    split <;> simp
  simp only [List.mem_cons, List.not_mem_nil, or_false] at hc
  rcases hc with rfl | rfl <;> rcases hp with h | h <;> rw [h] <;> decide

end Verif.Grammar
