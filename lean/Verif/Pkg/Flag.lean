import Verif.Pkg.ByteProperties
/-!
# Command-line flags

Model of `packages/flag/Flag.pen`.  The map of named flags is a partial function (see C10-C16 for
maps).
-/
namespace Verif.Pkg.Flag

/-- `type Set`, `packages/flag/Flag.pen:14-18`. -/
structure FlagSet where
  named : Bytes → Option Bytes
  positional : List Bytes

/-- What `Parse` returns; `panic` is a Rust panic in a foreign function. -/
inductive Result
  | set (s : FlagSet)
  | error
  | panic

/-- `prefix`, `packages/flag/Flag.pen:20`. -/
def dash : Bytes := [45]

/-- `separator`, `packages/flag/Flag.pen:22`. -/
def separator : Bytes := [45, 45]

/-- A map update. -/
def insert (m : Bytes → Option Bytes) (k v : Bytes) : Bytes → Option Bytes :=
  fun k' => if k' = k then some v else m k'

/-- `parse`, `packages/flag/Flag.pen:29-56`. -/
def parse : List Bytes → (Bytes → Option Bytes) → Result
  | [], ns => .set { named := ns, positional := [] }
  | s :: ss, ns =>
    if s = separator then .set { named := ns, positional := ss }
    else if startsWith s dash then
      match ss with
      | v :: ss =>
        match byteSlice s ((byteLength dash).add (.nat 1)) .posInf with
        | none => .panic
        | some k => parse ss (insert ns k v)
      | [] => .error
    else .set { named := ns, positional := s :: ss }

/-- `Parse`, `packages/flag/Flag.pen:24-27`. -/
def Parse (ss : List Bytes) : Result := parse ss (fun _ => none)

end Verif.Pkg.Flag
