import Verif.App.FilePathProperties
import Verif.Grammar.FormatterProperties

/-
Model of the files of packages, and of the formatter of packages.

Modelled code
* `lib/app/src/file_finder.rs`, `lib/app/src/module_finder.rs`, `lib/app/src/test_module_finder.rs`
* `lib/app/src/package_formatter.rs`, `lib/app/src/package_format_checker.rs`
* `lib/app/src/module_formatter.rs`, with the model of the formatter of C67

Files are text and can be read and written; directories can be read, in any order of their entries. Symbolic links are
not modelled.
-/

namespace Verif.App

abbrev Text := List Char

/-- What is at a path of a file system: a file, or a directory and its entries in the order in which
`FileSystem::read_directory` (`lib/app/src/infra/file_system.rs`) lists them. Contents of files are in `Files`. -/
inductive Node where
  | file
  | directory (entries : List (List Char × Node))

/-- `path.relative_to(directory).unwrap().components().next().unwrap().starts_with('.')`
(`lib/app/src/file_finder.rs:15-22`). -/
def isHidden (directory path : Path) : Bool :=
  (((relativeTo path directory).bind List.head?).bind List.head?) == some '.'

mutual
/-- The branches of the loop of `file_finder::find` for a path that is not hidden (`lib/app/src/file_finder.rs:23-27`). -/
def findNode (extension : List Char) (path : Path) : Node → List Path
  | .directory entries => findEntries extension path entries
  | .file => if hasExtension path extension then [path] else []
/-- The loop of `file_finder::find` (`lib/app/src/file_finder.rs:11-28`). -/
def findEntries (extension : List Char) (directory : Path) : List (List Char × Node) → List Path
  | [] => []
  | (name, node) :: entries =>
    (if isHidden directory (join directory [name]) then [] else findNode extension (join directory [name]) node)
      ++ findEntries extension directory entries
end

/-- `file_finder::find` (`lib/app/src/file_finder.rs:4-31`), for a directory with these entries. -/
def findFiles (extension : List Char) (directory : Path) (entries : List (List Char × Node)) : List Path :=
  findEntries extension directory entries

/-- `source_file_extension` (`cmd/pen/src/file_path_configuration.rs:23`). -/
def sourceExtension : List Char := "pen".toList

/-- `test_file_extension` (`cmd/pen/src/file_path_configuration.rs:29`). -/
def testExtension : List Char := "test.pen".toList

/-- A package on a file system. -/
structure Files where
  directory : Path
  entries : List (List Char × Node)
  content : Path → Text

/-- The files that are formatted and checked: `module_finder::find(..)?.into_iter().chain(test_module_finder::find(..)?)`
(`lib/app/src/package_formatter.rs:11-13`, `lib/app/src/package_format_checker.rs:14-16`). -/
def Files.modules (f : Files) : List Path :=
  findFiles sourceExtension f.directory f.entries ++ findFiles testExtension f.directory f.entries

/-- The loop of `package_formatter::format` (`lib/app/src/package_formatter.rs:11-23`): the contents of files
afterwards, and if all files were formatted. -/
def formatFiles (format : Text → Option Text) : List Path → (Path → Text) → (Path → Text) × Bool
  | [], content => (content, true)
  | path :: paths, content =>
    match format (content path) with
    | none => (content, false)
    | some text => formatFiles format paths fun p => if p = path then text else content p

/-- `package_formatter::format` (`lib/app/src/package_formatter.rs:7-26`). -/
def formatPackage (format : Text → Option Text) (f : Files) : Files × Bool :=
  let r := formatFiles format f.modules f.content
  ({ f with content := r.1 }, r.2)

/-- The loop of `package_format_checker::check` (`lib/app/src/package_format_checker.rs:14-24`); `none` for an error of
the formatter. -/
def unformatted (format : Text → Option Text) (content : Path → Text) : List Path → Option (List Path)
  | [] => some []
  | path :: paths =>
    match format (content path) with
    | none => none
    | some text => (unformatted format content paths).map fun ps => if content path ≠ text then path :: ps else ps

/-- Results of `package_format_checker::check`. -/
inductive Checked where
  | formatted
  | notFormatted (paths : List Text)
  | failed

/-- `package_format_checker::check` (`lib/app/src/package_format_checker.rs:8-33`); `display` is the displayer of file
paths and `le` the order of strings. -/
def checkPackage (format : Text → Option Text) (display : Path → Text) (le : Text → Text → Bool) (f : Files) : Checked :=
  match unformatted format f.content f.modules with
  | none => .failed
  | some ps => if ps.isEmpty then .formatted else .notFormatted ((ps.map display).mergeSort le)

/-- `module_formatter::format` (`lib/app/src/module_formatter.rs`), where the parser gives positions of nodes. -/
def formatText (layout : Text → Grammar.Layout) (s : Text) : Option Text := Grammar.formatSource (layout s) s

end Verif.App
