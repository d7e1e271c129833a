import Verif.Grammar.FormatterProperties
import Verif.Front.Convert

/-
Model of the generator of documentation of packages.

Modelled code
* `lib/doc/src/lib.rs`, `lib/doc/src/ir/{build, document}.rs`, `lib/doc/src/markdown.rs`
* `lib/format/src/lib.rs:23-37` (`format_type_definition`, `format_function_signature`)
* `lib/app/src/package_documentation_generator.rs:33-50`, with files that are found and read

As in `Verif.Grammar.Formatter`, positions are lines of nodes, which a layout gives. Texts are lists of characters.
-/

namespace Verif.Doc

open Verif.Grammar
open Verif.Front (isNamePublic)

abbrev Text := List Char

/-! ## Documents -/

/-- `lib/doc/src/ir/document.rs:19-23` (`Span`). -/
inductive Span where
  | normal (text : Text)
  | code (text : Text)
deriving DecidableEq

/-- `lib/doc/src/ir/document.rs:8-12` (`Paragraph`); `Text` (`:14-17`) is a list of spans. -/
inductive Paragraph where
  | text (spans : List Span)
  | code (language code : Text)
deriving DecidableEq

/-- `lib/doc/src/ir/document.rs:1-6` (`Section`). -/
inductive Section where
  | mk (title : List Span) (paragraphs : List Paragraph) (children : List Section)

/-- `str::trim`. -/
def trim (t : Text) : Text := (trimEnd t).dropWhile isWhite

/-- `generate_span` (`lib/doc/src/markdown.rs:56-63`). -/
def spanText : Span → Text
  | .normal s => s
  | .code s => '`' :: s ++ ['`']

/-- `generate_text` (`lib/doc/src/markdown.rs:50-54`). -/
def spansText (spans : List Span) : Text := spans.flatMap spanText

/-- `generate_paragraph` (`lib/doc/src/markdown.rs:34-48`). -/
def paragraphText : Paragraph → Text
  | .text spans => spansText spans ++ ['\n']
  | .code language code => "```".toList ++ trim language ++ ['\n'] ++ trim code ++ ['\n'] ++ "```".toList ++ ['\n']

mutual
/-- `generate_section` (`lib/doc/src/markdown.rs:16-32`). -/
def sectionText (level : Nat) : Section → Text
  | .mk title paragraphs children =>
    List.replicate (level + 1) '#' ++ [' '] ++ spansText title ++ ['\n']
      ++ paragraphs.flatMap (fun p => '\n' :: paragraphText p)
      ++ sectionsText (level + 1) children
/-- The loop over children (`lib/doc/src/markdown.rs:28-31`). -/
def sectionsText (level : Nat) : List Section → Text
  | [] => []
  | s :: ss => '\n' :: sectionText level s ++ sectionsText level ss
end

/-- `markdown::generate` (`lib/doc/src/markdown.rs:8-14`). -/
def markdown (s : Section) : Text := sectionText 0 s

/-! ## Comments -/

/-- `Iterator::rposition`: the last index. -/
def rposition (p : Comment → Bool) (cs : List Comment) : Option Nat :=
  (List.range cs.length).reverse.find? fun i => cs[i]?.any p

/-- `comments[index].position().line_number()`. -/
def lineOf (cs : List Comment) (i : Nat) : Nat := (cs[i]?.map Comment.line).getD 0

/-- `comments.iter().map(|comment| normal(comment.line().trim())).intersperse(normal("\n"))`
(`lib/doc/src/lib.rs:251-256`, `:277-282`). -/
def commentParagraph (cs : List Comment) : Paragraph :=
  .text ((cs.map fun c => Span.normal (trim c.text)).intersperse (.normal ['\n']))

/-- The comments of `compile_last_block_comment` (`lib/doc/src/lib.rs:263-273`). -/
def lastBlock (cs : List Comment) (line : Nat) : Option (List Comment) := do
  let e ← rposition (fun c => c.line = line - 1) cs
  let cs := cs.take (e + 1)
  let s := ((List.range' 1 (cs.length - 1)).reverse.find? fun i => lineOf cs (i - 1) ≠ lineOf cs i - 1).getD 0
  some (cs.drop s)

/-- The comments of `compile_first_block_comment` (`lib/doc/src/lib.rs:222-247`). -/
def firstBlock (cs : List Comment) (line : Option Nat) : Option (List Comment) :=
  if cs.head?.map Comment.line ≠ some 1 then none
  else
    let cs := cs.take (((List.range' 1 (cs.length - 1)).find? fun i =>
      lineOf cs (i - 1) + 1 ≠ lineOf cs i).getD cs.length)
    if cs.getLast?.map (fun c => c.line + 1) = line then none else some cs

/-! ## Packages -/

/-- `Package` (`lib/doc/src/lib.rs:14-20`). -/
structure Package where
  name : Text
  url : Text
  description : Text
  type : Text

/-- `Configuration` (`lib/doc/src/lib.rs:22-26`). -/
structure Configuration where
  language : Text
  privateNames : List Name

/-- A module of a package: the components of its path (`ExternalModulePath`, whose package is that of the
documentation), its syntax tree, the lines of its nodes, and its comments
(`lib/app/src/package_documentation_generator.rs:35-46`). -/
structure DocModule where
  components : List Name
  module : Grammar.Module
  layout : Layout
  comments : List Comment

/-- `format_type_definition` (`lib/format/src/lib.rs:23-28`). -/
def formatTypeDefinition (l : Layout) (d : TypeDefinition × Path) : Text := ((typeDefinitionDoc l d) []).1.format

/-- `format_function_signature` (`lib/format/src/lib.rs:30-37`). -/
def formatSignature (l : Layout) (d : FunctionDefinition × Path) : Text :=
  ((signature l (0 :: d.2) d.1.lambda.arguments d.1.lambda.result) []).1.format

/-- `TypeDefinition::name` (`lib/ast/src/ast/type_definition.rs`). -/
def typeName : TypeDefinition → Name
  | .record x _ => x
  | .alias_ x _ => x

/-- `ast::analysis::is_record_open` (`lib/ast/src/analysis.rs:10-15`). -/
def isRecordOpen (fs : List (Name × Ty)) : Bool := fs.all fun f => isNamePublic f.1

/-- The filters of `lib/doc/src/lib.rs:138-144` and `:193-199`. -/
def isDocumented (c : Configuration) (x : Name) : Bool := isNamePublic x && !c.privateNames.contains x

/-- The paragraphs of `compile_last_block_comment(..).into_iter()` (`lib/doc/src/lib.rs:263-285`). -/
def commentParagraphs (m : DocModule) (line : Nat) : List Paragraph :=
  ((lastBlock m.comments line).map commentParagraph).toList

/-- The code of a type definition (`lib/doc/src/lib.rs:171-179`). -/
def typeCode (l : Layout) : TypeDefinition × Path → Text
  | (.record x fs, p) =>
    if isRecordOpen fs then formatTypeDefinition l (.record x fs, p)
    else "type ".toList ++ x ++ " {\n  # ...\n}".toList
  | (.alias_ x t, p) => formatTypeDefinition l (.alias_ x t, p)

/-- `compile_type_definition` (`lib/doc/src/lib.rs:164-184`). -/
def typeSection (c : Configuration) (m : DocModule) (d : TypeDefinition × Path) : Section :=
  .mk [.code (typeName d.1)]
    (commentParagraphs m (m.layout.line d.2) ++ [.code c.language (typeCode m.layout d)]) []

/-- `compile_type_definitions` (`lib/doc/src/lib.rs:135-162`). -/
def typesSection (c : Configuration) (m : DocModule) : Section :=
  let ds := (numbered [2] 0 m.module.types).filter fun d => isDocumented c (typeName d.1)
  .mk [.normal "Types".toList]
    (if ds.isEmpty then [.text [.normal "No types are defined.".toList]] else [])
    (ds.map (typeSection c m))

/-- `compile_function_definition` (`lib/doc/src/lib.rs:209-220`). -/
def functionSection (c : Configuration) (m : DocModule) (d : FunctionDefinition × Path) : Section :=
  .mk [.code d.1.name]
    (commentParagraphs m (m.layout.line d.2) ++ [.code c.language (formatSignature m.layout d)]) []

/-- `compile_function_definitions` (`lib/doc/src/lib.rs:186-207`). -/
def functionsSection (c : Configuration) (m : DocModule) : Section :=
  let ds := (numbered [3] 0 m.module.functions).filter fun d => isDocumented c d.1.name
  .mk [.normal "Functions".toList]
    (if ds.isEmpty then [.text [.normal "No functions are defined.".toList]] else [])
    (ds.map (functionSection c m))

/-- `get_first_child_position` (`lib/doc/src/lib.rs:111-133`): the imports, the foreign imports, the types and the
functions of a module are written in this order. -/
def firstChild (m : DocModule) : Option Nat :=
  (((numbered [0] 0 m.module.imports).map (·.2) ++ (numbered [1] 0 m.module.foreignImports).map (·.2)
    ++ (numbered [2] 0 m.module.types).map (·.2) ++ (numbered [3] 0 m.module.functions).map (·.2)).head?).map
    m.layout.line

/-- `Display for ExternalModulePath` (`lib/ast/src/ast/external_module_path.rs`). -/
def pathText (package : Text) (components : List Name) : Text :=
  package ++ ['\''] ++ (components.intersperse ['\'']).flatten

/-- `compile_module` (`lib/doc/src/lib.rs:100-109`). -/
def moduleSection (package : Text) (c : Configuration) (m : DocModule) : Section :=
  .mk [.code (pathText package m.components), .normal " module".toList]
    ((firstBlock m.comments (firstChild m)).map commentParagraph).toList
    [typesSection c m, functionsSection c m]

/-- Order of `str`. -/
def nameLt : Name → Name → Bool
  | _, [] => false
  | [], _ :: _ => true
  | a :: as, b :: bs => a.toNat < b.toNat || (a == b && nameLt as bs)

/-- Order of `Vec<String>`. -/
def pathLt : List Name → List Name → Bool
  | _, [] => false
  | [], _ :: _ => true
  | a :: as, b :: bs => nameLt a b || (a == b && pathLt as bs)

/-- Insertion into the `BTreeMap`, represented by its entries in the order of their keys
(`lib/app/src/package_documentation_generator.rs:34-48`). -/
def insertModule (m : DocModule) : List DocModule → List DocModule
  | [] => [m]
  | x :: xs =>
    if pathLt m.components x.components then m :: x :: xs
    else if m.components = x.components then m :: xs
    else x :: insertModule m xs

/-- `collect` into a `BTreeMap`: later modules replace earlier ones of the same path. -/
def collect (ms : List DocModule) : List DocModule := ms.foldl (fun s m => insertModule m s) []

/-- `compile_package` (`lib/doc/src/lib.rs:42-98`) with `is_module_path_public` (`lib/ast/src/analysis.rs:17-24`). -/
def packageSection (p : Package) (ms : List DocModule) (c : Configuration) : Section :=
  .mk [.code p.name, .normal " package".toList]
    [.text [.normal p.description],
     .code "json".toList ("{\n  \"type\": \"".toList ++ p.type ++ "\"\n}\n".toList)]
    (.mk [.normal "Install".toList]
      [.code "json".toList ("{\n  \"dependencies\": {\n    \"".toList ++ p.name ++ "\": \"".toList ++ p.url ++
        "\"\n  } \n}\n".toList)] []
    :: (ms.filter fun m => m.components.all isNamePublic).map (moduleSection p.name c))

/-- `generate` (`lib/doc/src/lib.rs:34-40`), with the collection of modules. -/
def generate (p : Package) (ms : List DocModule) (c : Configuration) : Text :=
  markdown (packageSection p (collect ms) c)

end Verif.Doc
