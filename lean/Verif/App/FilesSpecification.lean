import Verif.App.Files

/-
Which files belong to a package (C72).
-/

namespace Verif.App

/-- A path leads to a file through the entries of directories. -/
inductive LeadsTo : List (List Char × Node) → Path → Prop
  | file {entries name} : (name, Node.file) ∈ entries → LeadsTo entries [name]
  | directory {entries name inner path} : (name, Node.directory inner) ∈ entries → LeadsTo inner path →
    LeadsTo entries (name :: path)

/-- Names of files of a kind: something without periods, a period, and the extension. -/
def IsNamed (extension name : List Char) : Prop := ∃ base, name = base ++ '.' :: extension ∧ '.' ∉ base

/-- Files of a kind that belong to a package: neither they nor directories that they are in have names that start with
a period. -/
def Belongs (extension : List Char) (f : Files) (path : Path) : Prop :=
  ∃ inner name, path = f.directory ++ inner ++ [name] ∧ LeadsTo f.entries (inner ++ [name]) ∧ IsNamed extension name ∧
    ∀ x ∈ inner ++ [name], x.head? ≠ some '.'

/-- Modules and test modules of a package. -/
def IsModule (f : Files) (path : Path) : Prop := Belongs "pen".toList f path ∨ Belongs "test.pen".toList f path

mutual
/-- File systems have no two entries of the same name in a directory. -/
def Node.Distinct : Node → Prop
  | .file => True
  | .directory entries => DistinctEntries entries
def DistinctEntries : List (List Char × Node) → Prop
  | [] => True
  | (name, node) :: entries => (∀ n, (name, n) ∉ entries) ∧ node.Distinct ∧ DistinctEntries entries
end

end Verif.App
