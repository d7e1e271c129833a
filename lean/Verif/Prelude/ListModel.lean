/-
Model of the prelude's lazy lists: `/repo/packages/prelude/List.pen`.

A Pen thunk is modelled by what it does when it is forced: the list `log` of observable events that its
evaluation causes and its value. (Memoisation of thunks, which makes a second forcing cause no events, is not
modelled: logs are those of first forcings.) Only lists whose spine is finite are modelled.
-/
namespace Verif.Prelude.Lists

/-- A thunk: `\() a`. -/
structure Thunk (ε α : Type) where
  log : List ε
  val : α

/-- `\() node | none` together with `type node`: List.pen:3-10. `nil log`: forcing causes `log` and gives
`none`; `cons log first rest`: forcing causes `log` and gives `node{first, rest}`. -/
inductive Nodes (ε α : Type) where
  | nil (log : List ε)
  | cons (log : List ε) (first : Thunk ε α) (rest : Nodes ε α)

/-- `type List`: List.pen:3-5. -/
structure PenList (ε α : Type) where
  node : Nodes ε α

variable {ε α β : Type}

/-- Calling a node thunk: events and the `node | none`. -/
def force : Nodes ε α → List ε × Option (Thunk ε α × Nodes ε α)
  | .nil log => (log, none)
  | .cons log x r => (log, some (x, r))

/-- `FirstRest` with `First` and `Rest`: List.pen:17-34. -/
def firstRest (l : PenList ε α) : List ε × Option (Thunk ε α × PenList ε α) :=
  match force l.node with
  | (log, some (x, r)) => (log, some (x, ⟨r⟩))
  | (log, none) => (log, none)

/-- `EmptyList`: List.pen:36-38. -/
def emptyList : PenList ε α := ⟨.nil []⟩

/-- `PrependToList`, `prependToNode`: List.pen:40-49. -/
def prependToList (x : Thunk ε α) (l : PenList ε α) : PenList ε α := ⟨.cons [] x l.node⟩

/-- A node thunk that first causes `log`. -/
def delay (log : List ε) : Nodes ε α → Nodes ε α
  | .nil log' => .nil (log ++ log')
  | .cons log' x r => .cons (log ++ log') x r

/-- `LazyList`: List.pen:51-57. -/
def lazyList (x : Thunk ε (PenList ε α)) : PenList ε α := ⟨delay x.log x.val.node⟩

/-- `concatenateNodes`: List.pen:71-79. -/
def concatenateNodes : Nodes ε α → Nodes ε α → Nodes ε α
  | .nil log, y => delay log y
  | .cons log x r, y => .cons log x (concatenateNodes r y)

/-- `ConcatenateLists`: List.pen:59-69. -/
def concatenateLists (x : Thunk ε (PenList ε α)) (y : PenList ε α) : PenList ε α :=
  ⟨delay x.log (concatenateNodes x.val.node y.node)⟩

/-- `equalNodes` with `EqualLists`/`MaybeEqualLists` (List.pen:81-115): events and result. -/
def equalNodes (f : α → α → Option Bool) : Nodes ε α → Nodes ε α → List ε × Option Bool
  | .cons l1 x r, .cons l2 y s =>
    match f x.val y.val with
    | some true =>
      let t := equalNodes f r s
      (l1 ++ l2 ++ x.log ++ y.log ++ t.1, t.2)
    | b => (l1 ++ l2 ++ x.log ++ y.log, b)
  | .cons l1 _ _, .nil l2 => (l1 ++ l2, some false)
  | .nil l1, .cons l2 _ _ => (l1 ++ l2, some false)
  | .nil l1, .nil l2 => (l1 ++ l2, some true)

/-- `EqualLists`: List.pen:81-87. -/
def equalLists (f : α → α → Bool) (x y : PenList ε α) : Bool :=
  match (equalNodes (fun a b => some (f a b)) x.node y.node).2 with
  | some b => b
  | none => false

/-- `MaybeEqualLists`: List.pen:89-91. -/
def maybeEqualLists (f : α → α → Option Bool) (x y : PenList ε α) : Option Bool :=
  (equalNodes f x.node y.node).2

/-- `nodeSize`: List.pen:137-143. -/
def nodeSize : Nodes ε α → Nat → List ε × Nat
  | .nil log, s => (log, s)
  | .cons log _ r, s => let t := nodeSize r (s + 1); (log ++ t.1, t.2)

/-- `ListSize`: List.pen:133-135. -/
def listSize (l : PenList ε α) : List ε × Nat := nodeSize l.node 0

/-- What an element hash function can be applied to: an element, or a `node` record of the prelude. -/
inductive HashArgument (ε α : Type) where
  | element (x : α)
  | node (first : Thunk ε α) (rest : Nodes ε α)

/-- `hashNode`: List.pen:121-131. The function is applied to the node `n`, not to its first element
(line 126). `none` is the unreachable branch of a type test without matching alternative. -/
def hashNode (combine : BitVec 64 → BitVec 64 → BitVec 64) (f : HashArgument ε α → Option (BitVec 64)) :
    Nodes ε α → BitVec 64 → Option (BitVec 64)
  | .nil _, h => some h
  | .cons _ x r, h =>
    match f (.node x r) with
    | some h' => hashNode combine f r (combine h h')
    | none => none

/-- `HashList`: List.pen:117-119. -/
def hashList (combine : BitVec 64 → BitVec 64 → BitVec 64) (f : HashArgument ε α → Option (BitVec 64))
    (l : PenList ε α) : Option (BitVec 64) := hashNode combine f l.node 0

/-- The element hash function the compiler generates
(lib/hir-mir/src/transformation/hash_calculation/module.rs:33-70): `if x = x as T { ... }` without `else`,
which lib/mir-fmm/src/expression.rs:410 compiles into an `unreachable` branch. A node is not of the element
type `T`, because `node` is a private type of the prelude. -/
def generatedHash (hash : α → BitVec 64) : HashArgument ε α → Option (BitVec 64)
  | .element x => some (hash x)
  | .node _ _ => none

/-- `debugNode`: List.pen:156-163, over lists of characters. -/
def debugNode (debug : α → List Char) : Nodes ε α → List Char
  | .nil _ => []
  | .cons _ x (.nil _) => debug x.val
  | .cons _ x r => debug x.val ++ ", ".toList ++ debugNode debug r

/-- `DebugList`: List.pen:145-154. -/
def debugList (elementType : List Char) (debug : α → List Char) (l : PenList ε α) : List Char :=
  "[".toList ++ elementType ++
    (match l.node with
     | .nil _ => []
     | n => " ".toList ++ debugNode debug n) ++ "]".toList

end Verif.Prelude.Lists
