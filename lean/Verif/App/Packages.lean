/-
Model of the collection and ordering of external packages.

Modelled code
* `lib/app/src/external_package_configuration_reader.rs:27-72` (`read_all`, `read_dependencies`)
* `lib/app/src/external_package_topological_sorter.rs:5-31` (`sort`)

Packages are identified by their URLs (here: numbers).  Reading the configuration of a package from
its directory is a partial function from URLs to dependencies; names given to dependencies are
dropped.  `petgraph::algo::toposort` is not modelled but assumed to meet its documented contract.
-/

namespace Verif.App

abbrev Url := Nat

/-- The outcome of reading configurations.  `unfinished`: the recursion is deeper than the given
bound. -/
inductive Read where
  | ok (configurations : List (Url × List Url))
  | error
  | unfinished
deriving DecidableEq, Repr

/-- `lib/app/src/external_package_configuration_reader.rs:43-72` (`read_dependencies`).  `read url`
is the result of the package configuration reader; the resulting map is kept as the list it is
collected from (entries of the same package are equal). -/
def readDependencies (read : Url → Option (List Url)) : Nat → List Url → Read
  | 0, _ => .unfinished
  | _ + 1, [] => .ok []
  | n + 1, url :: urls =>
    match read url with
    | none => .error
    | some dependencies =>
      match readDependencies read n dependencies with
      | .ok inner =>
        match readDependencies read (n + 1) urls with
        | .ok rest => .ok ((url, dependencies) :: inner ++ rest)
        | r => r
      | r => r
  termination_by n urls => (n, urls.length)

/-- `lib/app/src/external_package_configuration_reader.rs:27-41` (`read_all`), for a main package
with the given dependencies. -/
def readAll (read : Url → Option (List Url)) (n : Nat) (dependencies : List Url) : Read :=
  readDependencies read n dependencies

/-- Graphs of packages; `petgraph`'s node indices are replaced by the URLs themselves. -/
structure Graph where
  nodes : List Url
  edges : List (Url × Url)

/-- The outcome of sorting: `ApplicationError::PackageDependencyCycle` or an order; `panic` if a
dependency has no node (`indices[dependency_url]`). -/
inductive Sorted where
  | ok (order : List Url)
  | cycle
  | panic
deriving DecidableEq, Repr

/-- Without duplicates. -/
def distinct : List Url → List Url
  | [] => []
  | u :: us => if u ∈ us then distinct us else u :: distinct us

/-- Keys of a map collected from a list. -/
def keys (configurations : List (Url × List Url)) : List Url :=
  distinct (configurations.map Prod.fst)

/-- `lib/app/src/external_package_topological_sorter.rs:5-31` (`sort`).  `toposort` is
`petgraph::algo::toposort`. -/
def sortPackages (toposort : Graph → Option (List Url)) (configurations : List (Url × List Url)) :
    Sorted :=
  if configurations.all fun (_, dependencies) =>
      dependencies.all fun d => decide (d ∈ keys configurations) then
    match toposort ⟨keys configurations,
        configurations.flatMap fun (url, dependencies) => dependencies.map fun d => (url, d)⟩ with
    | some order => .ok order
    | none => .cycle
  else .panic

end Verif.App
