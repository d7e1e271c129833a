import Verif.App.FilePath
/-
Model of how paths of the build system are paths of the operating system: `/repo/lib/infra/src/file_path_converter.rs`,
`/repo/lib/infra/src/file_system.rs`, `/repo/cmd/pen/src/main_package_directory_finder.rs`, and the directories in
`/repo/cmd/pen/src/package_creator.rs`.

Paths of the operating system are those of Unix. Two of them are equal if their components are (`PartialEq` of
`std::path::Path`), so a path is the sequence of its components here. Names are strings of characters: names that are not
UTF-8, which `to_string_lossy` changes, are not modelled. Symbolic links are not modelled.
-/
namespace Verif.App.OsPath

open Verif.App (Path)

/-- Components of paths: `std::path::Component` on Unix. -/
inductive Component where
  | root
  | current
  | parent
  | normal (name : List Char)
deriving DecidableEq

/-- Paths of the operating system. -/
abbrev OsPath := List Component

/-- What the library makes of a name without separators: `std::path::Components::parse_single_component`. -/
def component (name : List Char) : OsPath :=
  if name = [] then [] else if name = ['.'] then [.current] else if name = ['.', '.'] then [.parent] else [.normal name]

/-- Current directories are components at the beginning only: `std::path::Components`. -/
def dropCurrent (path : OsPath) : OsPath := path.filter (· ≠ .current)

/-- `std::path::Path::join` and `PathBuf::push`. -/
def osJoin (base path : OsPath) : OsPath :=
  match path with
  | .root :: _ => path
  | _ => if base = [] then path else base ++ dropCurrent path

/-- The text before and after the first separator. -/
def splitSeparators : List Char → List (List Char)
  | [] => [[]]
  | c :: s =>
    if c = '/' then [] :: splitSeparators s
    else match splitSeparators s with
      | [] => [[c]]
      | name :: names => (c :: name) :: names

/-- The path of a text: `std::path::Path::components`. -/
def parse (text : List Char) : OsPath :=
  let root : OsPath := if text.head? = some '/' then [.root] else []
  (splitSeparators text).foldl (fun path name => osJoin path (component name)) root

/-- `component.replace(['/', '\\'], "_")`: lib/infra/src/file_path_converter.rs:20. -/
def sanitize (name : List Char) : List Char := name.map fun c => if c = '/' ∨ c = '\\' then '_' else c

/-- `convert_to_os_path`: lib/infra/src/file_path_converter.rs:17-23. -/
def convertToOsPath (base : OsPath) (path : Path) : OsPath :=
  osJoin base (path.foldl (fun os name => osJoin os (component (sanitize name))) [])

/-- `convert_components`: lib/infra/src/file_path_converter.rs:45-54. -/
def convertComponents (path : OsPath) : Path :=
  path.filterMap fun c => match c with
    | .normal name => some name
    | _ => none

/-- `std::path::Path::strip_prefix`. -/
def stripPrefix : OsPath → OsPath → Option OsPath
  | path, [] => some path
  | [], _ :: _ => none
  | c :: path, d :: base => if c = d then stripPrefix path base else none

/-- `convert_to_file_path`: lib/infra/src/file_path_converter.rs:25-43. -/
def convertToFilePath (base path : OsPath) : Option Path :=
  if path.head? = some .root then (stripPrefix path base).map convertComponents else some (convertComponents path)

/-- `std::path::Path::parent`. -/
def parentOf (path : OsPath) : Option OsPath :=
  match path.getLast? with
  | none => none
  | some .root => none
  | some _ => some path.dropLast

/-- `read_directory` on a directory with entries of names: lib/infra/src/file_system.rs:16-31. None if it panics. -/
def readDirectory (base : OsPath) (path : Path) (names : List (List Char)) : Option (List Path) :=
  names.mapM fun name => convertToFilePath base (osJoin (convertToOsPath base path) [.normal name])

/-- `find`: cmd/pen/src/main_package_directory_finder.rs:3-16, for the test if a directory has the file. -/
def findDirectory (has : OsPath → Bool) (directory : OsPath) : Option OsPath :=
  if has directory then some directory
  else match h : parentOf directory with
    | none => none
    | some parent => findDirectory has parent
termination_by directory.length
decreasing_by
  unfold parentOf at h
  split at h
  · simp at h
  · simp at h
  · rename_i c hc _
    simp only [Option.some.injEq] at h
    subst h
    cases directory with
    | nil => simp_all
    | cons d ds => simp

/-- The directory that `pen create` makes a package in: cmd/pen/src/package_creator.rs:8-15, with the paths of files that
are joined to it (lib/app/src/package_creator.rs). None if it is refused. -/
def createdDirectory (path : OsPath) : Option OsPath :=
  (parentOf path).bind fun base => (convertToFilePath base path).map fun p => convertToOsPath base p

end Verif.App.OsPath
