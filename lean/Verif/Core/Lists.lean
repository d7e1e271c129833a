import Verif.Prelude.ListModel
import Verif.Core.Numbers
/-
Model of functions on lists of the core package: `/repo/packages/core/List.pen`, `/repo/packages/core/Boolean.pen`
and `Sum` of `/repo/packages/core/Number.pen`, over the lists of the prelude (`Verif/Prelude/ListModel.lean`).
Functions result in the events that their calls cause (those of the first forcings of nodes and elements) and
their values. Only lists whose spine is finite are modelled.
-/
namespace Verif.Core.Lists

open Verif.Prelude.Lists

variable {ε α β : Type}

/-- `Any`: packages/core/Boolean.pen:4-14. -/
def any : Nodes ε Bool → List ε × Bool
  | .nil log => (log, false)
  | .cons log b bs => if b.val then (log ++ b.log, true) else (log ++ b.log ++ (any bs).1, (any bs).2)

/-- `All`: packages/core/Boolean.pen:17-27. -/
def all : Nodes ε Bool → List ε × Bool
  | .nil log => (log, true)
  | .cons log b bs => if b.val then (log ++ b.log ++ (all bs).1, (all bs).2) else (log ++ b.log, false)

/-- `First`: packages/core/List.pen:4-10. -/
def first : Nodes ε α → α → List ε × α
  | .nil log, fallback => (log, fallback)
  | .cons log x _, _ => (log ++ x.log, x.val)

/-- `last`: packages/core/List.pen:21-27. -/
def lastOf : Nodes ε α → Thunk ε α → List ε × α
  | .nil log, x => (log ++ x.log, x.val)
  | .cons log x xs, _ => (log ++ (lastOf xs x).1, (lastOf xs x).2)

/-- `Last`: packages/core/List.pen:13-19. -/
def last : Nodes ε α → α → List ε × α
  | .nil log, fallback => (log, fallback)
  | .cons log x xs, _ => (log ++ (lastOf xs x).1, (lastOf xs x).2)

/-- `ToNumbers`, `ToStrings`, `ToBooleans`: packages/core/List.pen:30-66. They differ in the type `T` of the type
test `if x = x() as T`, which is `asT` here. The list literal `[T x, ...E]` is `PrependToList` of a thunk of the
variable `x` to `LazyList` of a thunk of `E` (lib/hir-mir/src/transformation/list_literal.rs:13-110). -/
def filterType (asT : α → Option β) : Nodes ε α → List ε × PenList ε β
  | .nil log => (log, emptyList)
  | .cons log x xs =>
    match asT x.val with
    | some y => (log ++ x.log, prependToList ⟨[], y⟩ (lazyList ⟨(filterType asT xs).1, (filterType asT xs).2⟩))
    | none => (log ++ x.log ++ (filterType asT xs).1, (filterType asT xs).2)

/-- `sumRecursive`: packages/core/Number.pen:136-142. -/
def sumRecursive : Nodes ε Numbers.Number → Numbers.Number → List ε × Numbers.Number
  | .nil log, s => (log, s)
  | .cons log x xs, s =>
    (log ++ x.log ++ (sumRecursive xs (Numbers.add s x.val)).1, (sumRecursive xs (Numbers.add s x.val)).2)

/-- `Sum`: packages/core/Number.pen:132-134. -/
def sum (xs : Nodes ε Numbers.Number) : List ε × Numbers.Number := sumRecursive xs (Numbers.literal 0)

end Verif.Core.Lists
