import Verif.Doc.Comments
import Verif.Doc.Order
import Verif.Doc.Shift

/-
C71: the documentation of a package.
-/

namespace Verif.Doc

open Verif.Grammar
open Verif.Front (isNamePublic)

/-! ## Which modules and definitions are documented -/

theorem isNamePublic_iff {x : Name} : isNamePublic x = true ↔ IsPublicName x := by
  cases x with
  | nil => simp [isNamePublic, IsPublicName]
  | cons c cs =>
    simp only [isNamePublic, IsPublicName, Char.isUpper, Bool.and_eq_true, decide_eq_true_eq, List.cons.injEq]
    constructor
    · rintro ⟨h1, h2⟩
      exact ⟨c, cs, ⟨rfl, rfl⟩, h1, h2⟩
    · rintro ⟨_, _, ⟨rfl, rfl⟩, h1, h2⟩
      exact ⟨h1, h2⟩

/-- The modules of a package that are documented. -/
def documented (ms : List DocModule) : List DocModule := (collect ms).filter fun m => m.components.all isNamePublic

/-- **C71, modules.** The modules that are documented are those all components of whose paths are public, each once,
in the order of their paths. -/
theorem c71_documented_modules (ms : List DocModule) (h : ms.Pairwise fun a b => a.components ≠ b.components) :
    (∀ m, m ∈ documented ms ↔ m ∈ ms ∧ ∀ x ∈ m.components, IsPublicName x) ∧
    (documented ms).Pairwise fun a b => pathLt a.components b.components = true := by
  refine ⟨fun m => ?_, (collect_sorted ms).filter _⟩
  unfold documented
  rw [List.mem_filter, mem_collect, List.all_eq_true]
  simp only [isNamePublic_iff]
  refine and_congr_left fun _ => ⟨?_, fun hm => ?_⟩
  · rintro ⟨a, b, rfl, _⟩
    simp
  · obtain ⟨a, b, rfl⟩ := List.append_of_mem hm
    refine ⟨a, b, rfl, fun y hy => ?_⟩
    exact ((List.pairwise_cons.mp (List.pairwise_append.mp h).2.1).1 y hy).symm

/-- The definitions of a module that are documented. -/
def documentedTypes (c : Configuration) (m : DocModule) : List (TypeDefinition × Path) :=
  (numbered [2] 0 m.module.types).filter fun d => isDocumented c (typeName d.1)

def documentedFunctions (c : Configuration) (m : DocModule) : List (FunctionDefinition × Path) :=
  (numbered [3] 0 m.module.functions).filter fun d => isDocumented c d.1.name

theorem numbered_fst {α : Type} (p : Path) : ∀ (i : Nat) (xs : List α), (numbered p i xs).map (·.1) = xs
  | _, [] => rfl
  | i, x :: xs => by simp [numbered, numbered_fst p (i + 1) xs]

/-- **C71, definitions.** The definitions that are documented are the public ones that are not configured to be
private, in the order in which they are written. -/
theorem c71_documented_definitions (c : Configuration) (m : DocModule) :
    ((documentedTypes c m).map (·.1)).Sublist m.module.types ∧
    ((documentedFunctions c m).map (·.1)).Sublist m.module.functions ∧
    (∀ d ∈ m.module.types, d ∈ (documentedTypes c m).map (·.1) ↔
      IsPublicName (typeName d) ∧ typeName d ∉ c.privateNames) ∧
    (∀ d ∈ m.module.functions, d ∈ (documentedFunctions c m).map (·.1) ↔
      IsPublicName d.name ∧ d.name ∉ c.privateNames) := by
  have key : ∀ {α : Type} (p : Path) (f : α → Name) (xs : List α),
      (((numbered p 0 xs).filter fun d => isDocumented c (f d.1)).map (·.1)).Sublist xs ∧
      ∀ d ∈ xs, d ∈ ((numbered p 0 xs).filter fun d => isDocumented c (f d.1)).map (·.1) ↔
        IsPublicName (f d) ∧ f d ∉ c.privateNames := by
    intro α p f xs
    refine ⟨?_, fun d hd => ?_⟩
    · have := (List.filter_sublist (p := fun d : α × Path => isDocumented c (f d.1)) (l := numbered p 0 xs)).map (·.1)
      rwa [numbered_fst] at this
    · rw [← isNamePublic_iff]
      simp only [List.mem_map, List.mem_filter, isDocumented, Bool.and_eq_true, Bool.not_eq_true']
      constructor
      · rintro ⟨⟨d', q⟩, ⟨_, h1, h2⟩, rfl⟩
        exact ⟨h1, by simpa using h2⟩
      · rintro ⟨h1, h2⟩
        rw [← numbered_fst p 0 xs] at hd
        obtain ⟨x, hx, rfl⟩ := List.mem_map.mp hd
        exact ⟨x, ⟨hx, h1, by simpa using h2⟩, rfl⟩
  exact ⟨(key [2] typeName _).1, (key [3] FunctionDefinition.name _).1, (key [2] typeName _).2, (key [3] FunctionDefinition.name _).2⟩

/-! ## What is written -/

/-- A comment, as it is written: its lines, without white space at their ends. -/
def commentLines (ds : List Comment) : Text := ((ds.map fun d => trim d.text).intersperse ['\n']).flatten

/-- A comment is a paragraph of its own. -/
def commentText : Option (List Comment) → Text
  | none => []
  | some ds => "\n".toList ++ commentLines ds ++ "\n".toList

/-- The entry of a definition. -/
def entryText (c : Configuration) (name : Text) (comment : Option (List Comment)) (code : Text) : Text :=
  "\n#### `".toList ++ name ++ "`\n".toList ++ commentText comment ++
    "\n```".toList ++ trim c.language ++ "\n".toList ++ trim code ++ "\n```\n".toList

/-- The entries of a module. -/
def moduleText (package : Text) (c : Configuration) (m : DocModule) : Text :=
  "\n## `".toList ++ pathText package m.components ++ "` module\n".toList
    ++ commentText (firstBlock m.comments (firstChild m))
    ++ "\n### Types\n".toList
    ++ (if (documentedTypes c m).isEmpty then "\nNo types are defined.\n".toList else [])
    ++ (documentedTypes c m).flatMap (fun d =>
      entryText c (typeName d.1) (lastBlock m.comments (m.layout.line d.2)) (typeCode m.layout d))
    ++ "\n### Functions\n".toList
    ++ (if (documentedFunctions c m).isEmpty then "\nNo functions are defined.\n".toList else [])
    ++ (documentedFunctions c m).flatMap (fun d =>
      entryText c d.1.name (lastBlock m.comments (m.layout.line d.2)) (formatSignature m.layout d))

/-- What is written about a package before its modules. -/
def headText (p : Package) : Text :=
  "# `".toList ++ p.name ++ "` package\n\n".toList ++ p.description ++
  "\n\n```json\n".toList ++ trim ("{\n  \"type\": \"".toList ++ p.type ++ "\"\n}\n".toList) ++
  "\n```\n\n## Install\n\n```json\n".toList ++
  trim ("{\n  \"dependencies\": {\n    \"".toList ++ p.name ++ "\": \"".toList ++ p.url ++ "\"\n  } \n}\n".toList) ++
  "\n```\n".toList

theorem trim_json : trim "json".toList = "json".toList := by decide +kernel

attribute [local irreducible] trim

theorem sectionsText_eq (n : Nat) (ss : List Section) : sectionsText n ss = ss.flatMap fun s => '\n' :: sectionText n s := by
  induction ss with
  | nil => rfl
  | cons s ss ih => simp [sectionsText, ih]

theorem intersperse_flatMap {α : Type} (f : α → Text) (s : α) :
    ∀ xs : List α, (xs.intersperse s).flatMap f = ((xs.map f).intersperse (f s)).flatten
  | [] => rfl
  | [x] => by simp
  | x :: y :: xs => by
    have := intersperse_flatMap f s (y :: xs)
    simp only [List.intersperse_cons_cons, List.flatMap_cons, List.map_cons, List.flatten_cons] at this ⊢
    rw [this]

theorem commentParagraph_text (ds : List Comment) : paragraphText (commentParagraph ds) = commentLines ds ++ ['\n'] := by
  simp only [commentParagraph, paragraphText, spansText, commentLines, intersperse_flatMap, List.map_map, Function.comp_def, spanText]

theorem comment_paragraphs (o : Option (List Comment)) :
    ((o.map commentParagraph).toList.flatMap fun p => '\n' :: paragraphText p) = commentText o := by
  cases o with
  | none => rfl
  | some ds => simp [commentParagraph_text, commentText]

theorem sectionText_mk (n : Nat) (t : List Span) (ps : List Paragraph) (ss : List Section) :
    sectionText n (.mk t ps ss) = List.replicate (n + 1) '#' ++ ' ' :: (spansText t ++ '\n' ::
      (ps.flatMap (fun p => '\n' :: paragraphText p) ++ ss.flatMap fun s => '\n' :: sectionText (n + 1) s)) := by
  simp only [sectionText, sectionsText_eq, List.append_assoc, List.cons_append, List.nil_append]

theorem paragraphText_code (a b : Text) : paragraphText (.code a b) =
    '`' :: '`' :: '`' :: (trim a ++ '\n' :: (trim b ++ ['\n', '`', '`', '`', '\n'])) := by
  simp only [paragraphText, String.reduceToList, List.append_assoc, List.cons_append, List.nil_append]

theorem paragraphText_normal (a : Text) : paragraphText (.text [.normal a]) = a ++ ['\n'] := by
  simp only [paragraphText, spansText, spanText, List.flatMap_cons, List.flatMap_nil, List.append_nil]

theorem title_normal (a : Text) : spansText [.normal a] = a := by
  simp only [spansText, spanText, List.flatMap_cons, List.flatMap_nil, List.append_nil]

theorem title_code (a : Text) : spansText [.code a] = '`' :: (a ++ ['`']) := by
  simp only [spansText, spanText, List.flatMap_cons, List.flatMap_nil, List.append_nil, List.cons_append]

theorem title_both (a b : Text) : spansText [.code a, .normal b] = '`' :: (a ++ '`' :: b) := by
  simp only [spansText, spanText, List.flatMap_cons, List.flatMap_nil, List.append_nil, List.cons_append, List.append_assoc, List.nil_append]

theorem replicate_sharp : List.replicate (0 + 1) '#' = ['#'] ∧ List.replicate (1 + 1) '#' = ['#', '#'] ∧
    List.replicate (1 + 1 + 1) '#' = ['#', '#', '#'] ∧ List.replicate (3 + 1) '#' = ['#', '#', '#', '#'] := ⟨rfl, rfl, rfl, rfl⟩

theorem entry_text (c : Configuration) (m : DocModule) (name code : Text) (line : Nat) :
    '\n' :: sectionText 3 (.mk [.code name] (commentParagraphs m line ++ [.code c.language code]) []) =
      entryText c name (lastBlock m.comments line) code := by
  delta entryText commentParagraphs
  simp only [sectionText_mk, List.flatMap_append, comment_paragraphs, title_code, paragraphText_code, replicate_sharp.2.2.2,
    List.flatMap_cons, List.flatMap_nil, String.reduceToList, List.cons_append, List.append_assoc, List.nil_append, List.append_nil]

theorem none_text {α : Type} (ds : List α) (t : Text) :
    ((if ds.isEmpty then [Paragraph.text [.normal t]] else []).flatMap fun p => '\n' :: paragraphText p) =
      if ds.isEmpty then '\n' :: t ++ ['\n'] else [] := by
  cases ds <;> simp [paragraphText, spansText, spanText]

theorem types_text (c : Configuration) (m : DocModule) : '\n' :: sectionText 2 (typesSection c m) =
    "\n### Types\n".toList
    ++ (if (documentedTypes c m).isEmpty then "\nNo types are defined.\n".toList else [])
    ++ (documentedTypes c m).flatMap (fun d =>
      entryText c (typeName d.1) (lastBlock m.comments (m.layout.line d.2)) (typeCode m.layout d)) := by
  have ht : ∀ ds : List (TypeDefinition × Path), ((ds.map (typeSection c m)).flatMap fun s => '\n' :: sectionText 3 s) =
      ds.flatMap fun d => entryText c (typeName d.1) (lastBlock m.comments (m.layout.line d.2)) (typeCode m.layout d) := by
    intro ds
    rw [List.flatMap_map]
    exact List.flatMap_congr fun d _ => entry_text c m _ _ _
  delta typesSection documentedTypes
  generalize (numbered [2] 0 m.module.types).filter (fun d => isDocumented c (typeName d.1)) = ds
  have e1 : "\n### Types\n".toList = '\n' :: '#' :: '#' :: '#' :: ' ' :: ("Types".toList ++ ['\n']) := by
    simp only [String.reduceToList, List.cons_append, List.nil_append]
  have e2 : "\nNo types are defined.\n".toList = '\n' :: "No types are defined.".toList ++ ['\n'] := by
    simp only [String.reduceToList, List.cons_append, List.nil_append]
  rw [e1, e2]
  generalize "Types".toList = a
  generalize "No types are defined.".toList = b
  rw [sectionText_mk, none_text, title_normal, show 2 + 1 = 3 from rfl, ht, show List.replicate 3 '#' = ['#', '#', '#'] from rfl]
  simp only [List.cons_append, List.append_assoc, List.nil_append]

theorem functions_text (c : Configuration) (m : DocModule) : '\n' :: sectionText 2 (functionsSection c m) =
    "\n### Functions\n".toList
    ++ (if (documentedFunctions c m).isEmpty then "\nNo functions are defined.\n".toList else [])
    ++ (documentedFunctions c m).flatMap (fun d =>
      entryText c d.1.name (lastBlock m.comments (m.layout.line d.2)) (formatSignature m.layout d)) := by
  have hf : ∀ ds : List (FunctionDefinition × Path), ((ds.map (functionSection c m)).flatMap fun s => '\n' :: sectionText 3 s) =
      ds.flatMap fun d => entryText c d.1.name (lastBlock m.comments (m.layout.line d.2)) (formatSignature m.layout d) := by
    intro ds
    rw [List.flatMap_map]
    exact List.flatMap_congr fun d _ => entry_text c m _ _ _
  delta functionsSection documentedFunctions
  generalize (numbered [3] 0 m.module.functions).filter (fun d => isDocumented c d.1.name) = ds
  have e1 : "\n### Functions\n".toList = '\n' :: '#' :: '#' :: '#' :: ' ' :: ("Functions".toList ++ ['\n']) := by
    simp only [String.reduceToList, List.cons_append, List.nil_append]
  have e2 : "\nNo functions are defined.\n".toList = '\n' :: "No functions are defined.".toList ++ ['\n'] := by
    simp only [String.reduceToList, List.cons_append, List.nil_append]
  rw [e1, e2]
  generalize "Functions".toList = a
  generalize "No functions are defined.".toList = b
  rw [sectionText_mk, none_text, title_normal, show 2 + 1 = 3 from rfl, hf, show List.replicate 3 '#' = ['#', '#', '#'] from rfl]
  simp only [List.cons_append, List.append_assoc, List.nil_append]

theorem module_text (package : Text) (c : Configuration) (m : DocModule) :
    '\n' :: sectionText 1 (moduleSection package c m) = moduleText package c m := by
  delta moduleText moduleSection
  rw [sectionText_mk, comment_paragraphs, title_both, replicate_sharp.2.1, List.flatMap_cons, List.flatMap_cons, List.flatMap_nil,
    List.append_nil, show 1 + 1 = 2 from rfl, types_text, functions_text]
  have e1 : "\n## `".toList = ['\n', '#', '#', ' ', '`'] := by simp only [String.reduceToList]
  have e2 : "` module\n".toList = '`' :: " module".toList ++ ['\n'] := by
    simp only [String.reduceToList, List.cons_append, List.nil_append]
  rw [e1, e2]
  generalize " module".toList = s1
  generalize "\n### Types\n".toList = s2
  generalize "\n### Functions\n".toList = s3
  generalize "\nNo types are defined.\n".toList = s4
  generalize "\nNo functions are defined.\n".toList = s5
  simp only [List.cons_append, List.append_assoc, List.nil_append]

/-- **C71, the text.** The documentation of a package is what is written about it, and then the entries of the
documented modules, one after the other. -/
theorem c71_text (p : Package) (ms : List DocModule) (c : Configuration) :
    generate p ms c = headText p ++ (documented ms).flatMap (moduleText p.name c) := by
  delta generate markdown packageSection headText documented
  have hj := trim_json
  simp only [String.reduceToList] at hj ⊢
  rw [sectionText_mk, show (0 + 1) = 1 from rfl, List.flatMap_cons (f := fun s => '\n' :: sectionText 1 s), List.flatMap_map]
  simp only [module_text]
  rw [sectionText_mk, title_both, title_normal, show List.replicate 1 '#' = ['#'] from rfl, replicate_sharp.2.1]
  simp only [List.flatMap_cons, List.flatMap_nil, paragraphText_normal, paragraphText_code, hj]
  simp only [String.reduceToList, List.cons_append, List.append_assoc, List.nil_append]

end Verif.Doc
