/-
Model of reading and writing files in the synchronous package for operating systems:
`/repo/packages/os-sync/ffi/library/src/utilities.rs`, `/repo/packages/os-sync/ffi/library/src/file.rs`,
`/repo/packages/os-sync/ffi/library/src/open_file_options.rs`, `/repo/packages/os-sync/File.pen`.

What the operating system does at a call is an input: how much it transfers, whether it interrupts the call or fails. A
transfer is of one byte at least if there is anything to transfer and no more than is asked for, as POSIX says.
-/
namespace Verif.Pkg.FileIo

/-- Byte strings. -/
abbrev Bytes := List UInt8

/-- What the operating system does at a call. -/
inductive Outcome where
  /-- At most one byte more than the number is transferred. -/
  | transfer (count : Nat)
  | interrupted
  | failed
deriving DecidableEq

/-- Results of calls. -/
inductive Result (α : Type) where
  | ok (value : α)
  | interrupted
  | failed
deriving DecidableEq

/-- `std::io::Read::read` for a buffer of a size: the bytes that are read and those that are left. -/
def sysRead (outcome : Outcome) (size : Nat) (rest : Bytes) : Result Bytes × Bytes :=
  match outcome with
  | .transfer count => (.ok (rest.take (min (count + 1) size)), rest.drop (min (count + 1) size))
  | .interrupted => (.interrupted, rest)
  | .failed => (.failed, rest)

/-- `std::io::Write::write` of data: how much is written, and the contents. -/
def sysWrite (outcome : Outcome) (data contents : Bytes) : Result Nat × Bytes :=
  match outcome with
  | .transfer count =>
    (.ok (min (count + 1) data.length), contents ++ data.take (min (count + 1) data.length))
  | .interrupted => (.interrupted, contents)
  | .failed => (.failed, contents)

/-- `std::io::Read::read_to_end` into a buffer: interrupted calls are repeated; the buffer always has space, how much is
part of the outcomes. None if the outcomes do not reach the end. -/
def readToEnd : List Outcome → Bytes → Bytes → Option (Result Bytes × Bytes × List Outcome)
  | [], _, _ => none
  | .transfer count :: outcomes, buffer, rest =>
    match sysRead (.transfer count) (count + 1) rest with
    | (.ok [], rest) => some (.ok buffer, rest, outcomes)
    | (.ok bytes, rest) => readToEnd outcomes (buffer ++ bytes) rest
    | (_, rest) => some (.failed, rest, outcomes)
  | .interrupted :: outcomes, buffer, rest => readToEnd outcomes buffer rest
  | .failed :: outcomes, _, rest => some (.failed, rest, outcomes)

/-- `read`: packages/os-sync/ffi/library/src/utilities.rs:7-13. The buffer is dropped if there is an error. -/
def read (outcomes : List Outcome) (rest : Bytes) : Option (Result Bytes × Bytes × List Outcome) :=
  readToEnd outcomes [] rest

/-- `read_limit`: packages/os-sync/ffi/library/src/utilities.rs:15-22. -/
def readLimit (outcome : Outcome) (limit : Nat) (rest : Bytes) : Result Bytes × Bytes :=
  match sysRead outcome limit rest with
  | (.ok bytes, rest) => (.ok ((bytes ++ List.replicate (limit - bytes.length) 0).take bytes.length), rest)
  | (.interrupted, rest) => (.interrupted, rest)
  | (.failed, rest) => (.failed, rest)

/-- `write`: packages/os-sync/ffi/library/src/utilities.rs:24-29. -/
def write (outcome : Outcome) (data contents : Bytes) : Result Nat × Bytes := sysWrite outcome data contents

/-- Operations of a program that reads a file. -/
inductive Reading where
  | all
  | limit (count : Nat)

/-- The results of operations one after the other, and what is left. None if the outcomes do not suffice. -/
def readings : List Reading → List Outcome → Bytes → Option (List (Result Bytes) × Bytes)
  | [], _, rest => some ([], rest)
  | .all :: operations, outcomes, rest =>
    (read outcomes rest).bind fun (r, rest, outcomes) =>
      (readings operations outcomes rest).map fun (rs, rest) => (r :: rs, rest)
  | .limit _ :: _, [], _ => none
  | .limit count :: operations, outcome :: outcomes, rest =>
    let (r, rest) := readLimit outcome count rest
    (readings operations outcomes rest).map fun (rs, rest) => (r :: rs, rest)

/-- A program that writes data until all is written, as `Write` results in how much is: not code of the package. None if
the outcomes do not suffice or a call fails. -/
def writeAll : List Outcome → Bytes → Bytes → Option Bytes
  | _, [], contents => some contents
  | [], _ :: _, _ => none
  | outcome :: outcomes, b :: data, contents =>
    match write outcome (b :: data) contents with
    | (.ok count, contents) => writeAll outcomes ((b :: data).drop count) contents
    | (.interrupted, contents) => writeAll outcomes (b :: data) contents
    | (.failed, _) => none

/-! ### Opening files -/

/-- `OpenFileOptionsInner`: packages/os-sync/ffi/library/src/open_file_options.rs:7-16, `OpenOptions`:
packages/os-sync/File/OpenOptions.pen:9-16. -/
structure Options where
  append : Bool
  create : Bool
  createNew : Bool
  read : Bool
  truncate : Bool
  write : Bool

/-- How a file is opened: which accesses are allowed, and if what is written goes to the end. -/
structure Access where
  read : Bool
  write : Bool
  append : Bool
deriving DecidableEq

/-- `std::fs::OpenOptions::open` on Unix with the options set by packages/os-sync/ffi/library/src/open_file_options.rs:18-37
(the order of the setters is irrelevant): `get_access_mode` and `get_creation_mode` of the standard library, and `open(2)`.
The file is given by its contents, or none if it does not exist. None if there is an error. -/
def openFile (o : Options) (file : Option Bytes) : Option (Access × Bytes) :=
  if !o.read && !o.write && !o.append then none
  else if !o.write && !o.append && (o.truncate || o.create || o.createNew) then none
  else if o.append && o.truncate && !o.createNew then none
  else
    let access : Access := ⟨o.read, o.write || o.append, o.append⟩
    match file with
    | none => if o.create || o.createNew then some (access, []) else none
    | some contents =>
      if o.createNew then none else some (access, if o.truncate then [] else contents)

/-- `Open`: packages/os-sync/File.pen:33-40. -/
def openForReading : Options := ⟨false, false, false, true, false, false⟩

end Verif.Pkg.FileIo
