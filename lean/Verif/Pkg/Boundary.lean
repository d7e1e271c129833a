import Verif.Prelude.MapLiteral
import Verif.Core.ListsProperties
/-
Model of lists and headers that cross the boundary to native code: `/repo/lib/ffi/src/list.rs`,
`/repo/lib/ffi/src/future/stream.rs`, `/repo/packages/ffi/list.pen`, and of the HTTP package
`/repo/packages/http/Context/ffiHeaderMap.pen`, `/repo/packages/http/ffi/src/{header_map, client, server}.rs`.

What the HTTP library does is a parameter: which byte strings are names and values of headers, and what they are
normalized to (names of headers are written in lower case). Lines of headers are sequences of names and values.
-/
namespace Verif.Pkg.Boundary

open Verif.Prelude Verif.Prelude.Lists

/-! ### Lists -/

section
variable {ε α : Type}

/-- `List::from` for iterators of native code: lib/ffi/src/list.rs:35-50, with `pen_ffi_list_create` and
`pen_ffi_list_prepend` (packages/ffi/list.pen:7-13). -/
def fromIterator (xs : List α) : PenList ε α :=
  xs.reverse.foldl (fun list x => prependToList ⟨[], x⟩ list) emptyList

/-- One element of the stream of a list: lib/ffi/src/future/stream.rs:13-22, with `pen_ffi_list_first_rest`
(packages/ffi/list.pen:19-25): the node is looked at and its element is evaluated. -/
def next : Nodes ε α → List ε × Option (α × Nodes ε α)
  | .nil log => (log, none)
  | .cons log x rest => (log ++ x.log, some (x.val, rest))

/-- The first `n` elements of the stream, or all if there are less, and the events until then. -/
def pull : Nat → Nodes ε α → List ε × List α
  | 0, _ => ([], [])
  | n + 1, l =>
    match next l with
    | (log, none) => (log, [])
    | (log, some (x, rest)) => (log ++ (pull n rest).1, x :: (pull n rest).2)
end

/-! ### Headers -/

/-- Byte strings. -/
abbrev Bytes := List UInt8

/-- The operations on keys and values of maps of the type `{string: string}`, for a hash function of strings. -/
def stringContext (hash : Bytes → BitVec 64) (salt : Nat → BitVec 64) : Ctx Bytes Bytes where
  equalKeys a b := a == b
  equalValues a b := a == b
  hashKey := hash
  hashValue := hash
  salt := salt

/-- `_pen_http_header_map_get`: packages/http/Context/ffiHeaderMap.pen:17-27. -/
def headerGet (ctx : Ctx Bytes Bytes) (m : Map Bytes Bytes) (key : Bytes) : Bytes := (getMap ctx m key).getD []

/-- `_pen_http_header_map_set`: packages/http/Context/ffiHeaderMap.pen:33-39. -/
def headerSet (ctx : Ctx Bytes Bytes) (fuel : Nat) (m : Map Bytes Bytes) (name value : Bytes) :
    Option (Map Bytes Bytes) := mapLiteral ctx fuel [.multiple m, .single name value]

/-- `_pen_http_header_map_keys`: packages/http/Context/ffiHeaderMap.pen:41-47. -/
def headerKeys (m : Map Bytes Bytes) : List Bytes := (iterateMap m).map (·.1)

/-- Headers of a request or response that is received: packages/http/ffi/src/client.rs:42-46,
packages/http/ffi/src/server.rs:33-37. -/
def receive (ctx : Ctx Bytes Bytes) (fuel : Nat) : List (Bytes × Bytes) → Map Bytes Bytes → Option (Map Bytes Bytes)
  | [], m => some m
  | (name, value) :: lines, m => (headerSet ctx fuel m name value).bind (receive ctx fuel lines)

/-- Headers of a request or response that is sent: packages/http/ffi/src/client.rs:20-31,
packages/http/ffi/src/server.rs:61-79. None if a name or a value cannot be sent. -/
def send (ctx : Ctx Bytes Bytes) (headerName headerValue : Bytes → Option Bytes) (m : Map Bytes Bytes) :
    Option (List (Bytes × Bytes)) :=
  (headerKeys m).mapM fun key =>
    (headerName key).bind fun name => (headerValue (headerGet ctx m key)).map fun value => (name, value)

end Verif.Pkg.Boundary
