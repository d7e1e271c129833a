import Verif.Common.Res

/-
Model of the continuation stack: `/repo/lib/ffi/src/cps/stack.rs`.

* The buffer is a list of `capacity` bytes; `realloc` keeps the bytes that were there and adds arbitrary ones
  (the list `junk`). Allocation never fails, sizes do not overflow `usize`.
* Values of a type are byte strings of the type's size.
-/
namespace Verif.Runtime.Stack

abbrev Byte := UInt8

/-- `DEFAULT_MEMORY_ALIGNMENT`: /repo/lib/ffi/src/constants.rs:1. -/
def alignment : Nat := 8

/-- `Layout::pad_to_align`, used by `get_type_size` (stack.rs:56-62) and by `new` (17). Types with an alignment of
more than 8 bytes are not modelled. -/
def pad (n : Nat) : Nat := (n + alignment - 1) / alignment * alignment

/-- `Stack`: stack.rs:7-13. `bytes` is the allocated buffer, so the capacity is its length. -/
structure Stack where
  bytes : List Byte
  size : Nat

def Stack.capacity (s : Stack) : Nat := s.bytes.length

/-- `Stack::new`: stack.rs:16-24. The contents of the new buffer are arbitrary: `junk` of the padded length. -/
def Stack.new (junk : Nat → Byte) (capacity : Nat) : Stack :=
  ⟨(List.range (pad capacity)).map junk, 0⟩

/-- `realloc` to `CAPACITY_MULTIPLIER * capacity` bytes: stack.rs:30-38. -/
def Stack.grow (junk : Nat → Byte) (s : Stack) : Stack :=
  { s with bytes := s.bytes ++ (List.range s.capacity).map junk }

/-- The `while` of `push`: stack.rs:29-40. `none` means it did not end in `fuel` rounds. -/
def Stack.reserve (junk : Nat → Byte) (s : Stack) (n : Nat) : Nat → Option Stack
  | 0 => none
  | fuel + 1 => if s.size + n > s.capacity then (s.grow junk).reserve junk n fuel else some s

/-- `ptr::write` of the bytes of a value. -/
def Stack.write (s : Stack) (v : List Byte) : Stack :=
  { s with bytes := s.bytes.take s.size ++ v ++ s.bytes.drop (s.size + v.length) }

/-- `push`: stack.rs:26-44. -/
def Stack.push (junk : Nat → Byte) (fuel : Nat) (s : Stack) (v : List Byte) : Option Stack :=
  (s.reserve junk (pad v.length) fuel).map fun s => { s.write v with size := s.size + pad v.length }

/-- `pop` of a type of `n` bytes: stack.rs:46-50. `none` if `size` underflows. -/
def Stack.pop (s : Stack) (n : Nat) : Option (List Byte × Stack) :=
  if pad n ≤ s.size then
    some ((s.bytes.drop (s.size - pad n)).take n, { s with size := s.size - pad n })
  else none

/-- What the users of a stack do. Popping gives the size of the type popped. -/
inductive Op
  | push (v : List Byte)
  | pop (n : Nat)

/-- A history of operations: the values popped, and the final stack. -/
def Stack.run (junk : Nat → Byte) (fuel : Nat) (s : Stack) : List Op → Option (List (List Byte) × Stack)
  | [] => some ([], s)
  | .push v :: os => (s.push junk fuel v).bind fun s => s.run junk fuel os
  | .pop n :: os => (s.pop n).bind fun (v, s) => (s.run junk fuel os).map fun (vs, s) => (v :: vs, s)

/-! ### Specification -/

/-- A stack of byte strings. Values are popped with the type they were pushed with: `none` otherwise. -/
def spec (st : List (List Byte)) : List Op → Option (List (List Byte) × List (List Byte))
  | [] => some ([], st)
  | .push v :: os => spec (v :: st) os
  | .pop n :: os => match st with
    | [] => none
    | v :: st => if v.length = n then (spec st os).map fun (vs, st) => (v :: vs, st) else none

end Verif.Runtime.Stack
