/-
Model of file paths of the build system.

Modelled code
* `lib/app/src/infra/file_path.rs:8-97` (`FilePath`)
* `lib/app/src/common/file_path_resolver.rs:30-38, 167-178`
* `lib/app/src/common/package_id_calculator.rs`

Strings are lists of characters.
-/

namespace Verif.App

/-- `lib/app/src/infra/file_path.rs:8-10` (`FilePath`): the components of a path. -/
abbrev Path := List (List Char)

/-- `Regex::new(r"(\..*)?$").replace(last, replacement)`, `lib/app/src/infra/file_path.rs:49-58`:
the leftmost match starts at the first period that no line break follows (`.` does not match line
breaks), or is the empty string at the end.  Replacement strings with `$` are not modelled. -/
def replaceExtension (replacement : List Char) : List Char → List Char
  | [] => replacement
  | c :: s => if c = '.' ∧ '\n' ∉ s then replacement else c :: replaceExtension replacement s

/-- `lib/app/src/infra/file_path.rs:42-64` (`with_extension`). -/
def withExtension (path : Path) (extension : List Char) : Path :=
  match path.getLast? with
  | some last =>
    path.dropLast ++
      [replaceExtension (if extension.isEmpty then [] else '.' :: extension) last]
  | none => path

/-- `lib/app/src/infra/file_path.rs:66-69` (`join`). -/
def join (path other : Path) : Path := path ++ other

/-- `str::split_once('.')`. -/
def splitOnce : List Char → Option (List Char × List Char)
  | [] => none
  | c :: s => if c = '.' then some ([], s) else (splitOnce s).map fun (a, b) => (c :: a, b)

/-- `lib/app/src/infra/file_path.rs:71-84` (`has_extension`, `check_extension`). -/
def hasExtension (path : Path) (extension : List Char) : Bool :=
  match path.getLast? with
  | none => false
  | some component =>
    let suffix := ((splitOnce component).getD ([], [])).2
    if suffix = component then extension.isEmpty else decide (suffix = extension)

/-- `lib/app/src/infra/file_path.rs:86-97` (`relative_to`). -/
def relativeTo (path base : Path) : Option Path :=
  if (path.zip base).all fun (one, other) => decide (one = other) then
    some (path.drop base.length)
  else none

/-- `lib/app/src/common/file_path_resolver.rs:30-38` (`resolve_source_file`). -/
def resolveSourceFile (packageDirectory : Path) (components : List (List Char))
    (extension : List Char) : Path :=
  withExtension (join packageDirectory components) extension

/-- `lib/app/src/common/file_path_resolver.rs:167-178` (`resolve_module_path_components`); `none`
for the panic of `unwrap`. -/
def resolveModulePath (packageDirectory moduleFile : Path) : Option (List (List Char)) :=
  (relativeTo moduleFile packageDirectory).map fun path => withExtension path []

/-- The characters of the class `[.:/]`. -/
def isSeparator (c : Char) : Bool := c = '.' || c = ':' || c = '/'

/-- `Regex::new(r"[.:/]+").replace_all(url, "_")`,
`lib/app/src/common/package_id_calculator.rs:6-12`.  `inside` says whether the last character was
part of a match. -/
def packageIdFrom (inside : Bool) : List Char → List Char
  | [] => []
  | c :: s =>
    if isSeparator c then
      if inside then packageIdFrom true s else '_' :: packageIdFrom true s
    else c :: packageIdFrom false s

/-- `lib/app/src/common/package_id_calculator.rs:8-12` (`calculate`), on the text of a URL. -/
def packageId (url : List Char) : List Char := packageIdFrom false url

end Verif.App
