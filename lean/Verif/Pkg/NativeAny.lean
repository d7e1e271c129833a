/-
Model of values of native types as values of the type `any`: `/repo/lib/ffi-macro/src/any.rs`, `/repo/lib/ffi/src/any.rs`.

Copies of native values are numbered in the order in which they are made; the payload of a value is the number of its copy,
as both transmutations keep all bits (the size of the types is tested). A local variable that is not forgotten or moved is
dropped at the end of its function, as in Rust. Values of Pen's types, which are converted by functions of Pen, and
synchronization, which does nothing, are not modelled.
-/
namespace Verif.Pkg.NativeAny

section
variable {V : Type}

/-- What native code has made. -/
structure State (V : Type) where
  /-- The contents of the copies. -/
  contents : List V
  /-- Copies that have been dropped, the last first. -/
  dropped : List Nat
  /-- If a copy was used after it had been dropped. -/
  misused : Bool
deriving DecidableEq

/-- A value of a native type is made. -/
def create (s : State V) (v : V) : Nat × State V :=
  (s.contents.length, { s with contents := s.contents ++ [v] })

/-- `Clone::clone` of the native type. -/
def cloneValue (s : State V) (x : Nat) : Nat × State V :=
  (s.contents.length, { s with
    contents := s.contents ++ (s.contents[x]?).toList, misused := s.misused || s.dropped.contains x })

/-- `Drop::drop` of the native type. -/
def dropValue (s : State V) (x : Nat) : State V :=
  { s with dropped := x :: s.dropped, misused := s.misused || s.dropped.contains x }

/-- `transmute_into_payload`: lib/ffi-macro/src/any.rs:34-40. -/
def intoPayload (x : Nat) : Nat := x

/-- `transmute_from_payload`: lib/ffi-macro/src/any.rs:42-44. -/
def fromPayload (payload : Nat) : Nat := payload

/-- `clone` of type information: lib/ffi-macro/src/any.rs:46-54. The variable `x` is forgotten. -/
def cloneFunction (s : State V) (payload : Nat) : Nat × State V :=
  let x := fromPayload payload
  let (y, s) := cloneValue s x
  (intoPayload y, s)

/-- `drop` of type information: lib/ffi-macro/src/any.rs:56-58. -/
def dropFunction (s : State V) (payload : Nat) : State V := dropValue s (fromPayload payload)

/-- `Any`: lib/ffi/src/any.rs:16-20. Type information is that of the type with the number. -/
structure Any where
  information : Nat
  payload : Nat
deriving DecidableEq

/-- `From<T> for Any`: lib/ffi-macro/src/any.rs:67-71. -/
def fromNative (type x : Nat) : Any := ⟨type, intoPayload x⟩

/-- `Clone for Any`: lib/ffi/src/any.rs:63-70. -/
def cloneAny (s : State V) (a : Any) : Any × State V :=
  let (payload, s) := cloneFunction s a.payload
  (⟨a.information, payload⟩, s)

/-- `Drop for Any`: lib/ffi/src/any.rs:72-76. -/
def dropAny (s : State V) (a : Any) : State V := dropFunction s a.payload

/-- `TryFrom<Any> for T`: lib/ffi-macro/src/any.rs:73-85. The argument is forgotten if it has the type, and dropped at the
end of the function otherwise. -/
def tryFrom (s : State V) (type : Nat) (a : Any) : Option Nat × State V :=
  if a.information = type then (some (fromPayload a.payload), s) else (none, dropAny s a)

/-- `TryFrom<&Any> for &T` and `TryFrom<&mut Any> for &mut T`: lib/ffi-macro/src/any.rs:87-109. -/
def tryReference (type : Nat) (a : Any) : Option Nat :=
  if a.information = type then some (fromPayload a.payload) else none

/-- Values that the program owns. -/
inductive Owned where
  | native (type x : Nat)
  | any (a : Any)
deriving DecidableEq

/-- What a program does with values, given by their places. -/
inductive Operation (V : Type) where
  | create (type : Nat) (v : V)
  | wrap (place : Nat)
  | clone (place : Nat)
  | drop (place : Nat)
  | unwrap (place type : Nat)
  | write (place type : Nat) (v : V)

/-- The content is replaced through a reference. -/
def writeValue (s : State V) (x : Nat) (v : V) : State V :=
  { s with contents := s.contents.set x v, misused := s.misused || s.dropped.contains x }

/-- An operation. Operations on values that there are not, or of other kinds, do nothing. -/
def step (s : State V) (env : List Owned) : Operation V → State V × List Owned
  | .create type v => let (x, s) := create s v; (s, .native type x :: env)
  | .wrap place =>
    match env[place]? with
    | some (.native type x) => (s, .any (fromNative type x) :: env.eraseIdx place)
    | _ => (s, env)
  | .clone place =>
    match env[place]? with
    | some (.native type x) => let (y, s) := cloneValue s x; (s, .native type y :: env)
    | some (.any a) => let (b, s) := cloneAny s a; (s, .any b :: env)
    | none => (s, env)
  | .drop place =>
    match env[place]? with
    | some (.native _ x) => (dropValue s x, env.eraseIdx place)
    | some (.any a) => (dropAny s a, env.eraseIdx place)
    | none => (s, env)
  | .unwrap place type =>
    match env[place]? with
    | some (.any a) =>
      match tryFrom s type a with
      | (some x, s) => (s, .native type x :: env.eraseIdx place)
      | (none, s) => (s, env.eraseIdx place)
    | _ => (s, env)
  | .write place type v =>
    match env[place]? with
    | some (.any a) =>
      match tryReference type a with
      | some x => (writeValue s x v, env)
      | none => (s, env)
    | _ => (s, env)

/-- A history of operations. -/
def run : List (Operation V) → State V × List Owned → State V × List Owned
  | [], p => p
  | o :: os, p => run os (step p.1 p.2 o)

/-- Nothing has been made. -/
def initial : State V × List Owned := (⟨[], [], false⟩, [])

end
end Verif.Pkg.NativeAny
