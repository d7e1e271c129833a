import Mathlib.Data.Multiset.AddSub
import Mathlib.Algebra.Order.Group.Int
import Mathlib.Logic.Function.Basic

/-
Model of reference-counted heap blocks: `/repo/lib/ffi/src/arc/arc_block.rs` (used by native code) and
`/repo/lib/mir-fmm/src/reference_count/pointer.rs` (the same protocol, emitted by the compiler).

* One block that is not of size zero (`ArcBlock::new` of an empty layout makes a null pointer, on which all the
  operations do nothing).
* Counts are integers; `isize` wrap-around is excluded by bounding the number of handles by 2^63 - 1.
* The two accesses to the count in one operation (a relaxed load; then a store or a read-modify-write) are separate
  atomic steps of the concurrent machine. Accesses to one atomic location are totally ordered in the C++11 model,
  so they are interleaved. The ordering of accesses to the payload is not modelled.
-/
namespace Verif.Runtime.Arc

/-- `UNIQUE_COUNT`: arc_block.rs:8. -/
def uniqueCount : Int := 0
/-- `SYNCHRONIZED_UNIQUE_COUNT`: arc_block.rs:9. -/
def synchronizedUniqueCount : Int := -1
/-- `STATIC_COUNT`: arc_block.rs:11. -/
def staticCount : Int := -(2 ^ 63)

/-- `is_count_synchronized`: arc_block.rs:144-146. -/
def isSynchronized (count : Int) : Bool := count < 0

/-- `clone` after its load (arc_block.rs:84-99): `loaded` is the value loaded, `count` the current one. -/
def cloneAction (loaded count : Int) : Int :=
  if !isSynchronized loaded then loaded + 1
  else if loaded ≠ staticCount then count - 1
  else count

/-- `drop` after its load (arc_block.rs:101-120): the new count, and whether `drop_inner` is called. -/
def dropAction (loaded count : Int) : Int × Bool :=
  if isSynchronized loaded then
    if loaded ≠ staticCount then (count + 1, count == synchronizedUniqueCount) else (count, false)
  else if loaded = uniqueCount then (count, true)
  else (loaded - 1, false)

/-- `synchronize` after its load (arc_block.rs:134-142). -/
def synchronizeAction (loaded count : Int) : Int :=
  if !isSynchronized loaded then synchronizedUniqueCount - loaded else count

/-- `is_unique` (arc_block.rs:148-163), which decides whether `get_mut` (51-57) hands out a pointer. -/
def isUnique (count : Int) : Bool :=
  count == if isSynchronized count then synchronizedUniqueCount else uniqueCount

/-! ### One thread -/

/-- A block used by one thread: its count, how many handles there are and how often it has been freed. -/
structure Seq where
  count : Int
  handles : Nat
  freed : Nat

/-- `ArcBlock::new`: arc_block.rs:26-40. -/
def Seq.new : Seq := ⟨uniqueCount, 1, 0⟩

/-- What the owner of a handle can do. -/
inductive Op
  | clone
  | drop
  | synchronize

/-- One operation; `none` if there is no handle to do it with (or too many). -/
def Seq.step (s : Seq) : Op → Option Seq
  | .clone => if 0 < s.handles ∧ s.handles < 2 ^ 63 - 1 then
      some { s with count := cloneAction s.count s.count, handles := s.handles + 1 } else none
  | .drop => if 0 < s.handles then
      let (c, free) := dropAction s.count s.count
      some { s with count := c, handles := s.handles - 1, freed := if free then s.freed + 1 else s.freed }
    else none
  | .synchronize => if 0 < s.handles then some { s with count := synchronizeAction s.count s.count } else none

/-- A history of operations. -/
def Seq.run (s : Seq) : List Op → Option Seq
  | [] => some s
  | o :: os => (s.step o).bind fun s' => s'.run os

/-! ### Many threads -/

/-- Where a thread is in an operation; the number is the count it has loaded. -/
inductive Pc
  | idle
  | cloning (loaded : Int)
  | dropping (loaded : Int)
  | synchronizing (loaded : Int)
  | freeing
  deriving DecidableEq

/-- A block shared by threads `T`: every handle is in `handles` under the name of the thread that owns it. -/
structure Conc (T : Type) where
  count : Int
  handles : Multiset T
  freed : Nat
  pc : T → Pc

variable {T : Type} [DecidableEq T]

/-- A new block owned by thread `t`. -/
def Conc.new (t : T) : Conc T := ⟨uniqueCount, {t}, 0, fun _ => .idle⟩

def Conc.setPc (s : Conc T) (t : T) (p : Pc) : Conc T := { s with pc := Function.update s.pc t p }

/-- The atomic steps. Operations start with a handle of the thread that does them. A handle is sent to
another thread only when the block is synchronized ("Heap blocks are always synchronized by their owners
before references are shared with other threads": pointer.rs:249-251). -/
inductive Step : Conc T → Conc T → Prop
  | startClone (s : Conc T) (t : T) : s.pc t = .idle → t ∈ s.handles →
      Step s (s.setPc t (.cloning s.count))
  | clone (s : Conc T) (t : T) (c : Int) : s.pc t = .cloning c → Multiset.card s.handles < 2 ^ 63 - 1 →
      Step s { s.setPc t .idle with count := cloneAction c s.count, handles := t ::ₘ s.handles }
  | startDrop (s : Conc T) (t : T) : s.pc t = .idle → t ∈ s.handles →
      Step s (s.setPc t (.dropping s.count))
  | drop (s : Conc T) (t : T) (c : Int) : s.pc t = .dropping c →
      Step s { s.setPc t (if (dropAction c s.count).2 then .freeing else .idle) with
        count := (dropAction c s.count).1, handles := s.handles.erase t }
  | free (s : Conc T) (t : T) : s.pc t = .freeing →
      Step s { s.setPc t .idle with freed := s.freed + 1 }
  | startSynchronize (s : Conc T) (t : T) : s.pc t = .idle → t ∈ s.handles →
      Step s (s.setPc t (.synchronizing s.count))
  | synchronize (s : Conc T) (t : T) (c : Int) : s.pc t = .synchronizing c →
      Step s { s.setPc t .idle with count := synchronizeAction c s.count }
  | send (s : Conc T) (t t' : T) : s.pc t = .idle → t ∈ s.handles → isSynchronized s.count = true →
      Step s { s with handles := t' ::ₘ s.handles.erase t }

/-- States reachable from a new block owned by some thread, under every schedule. -/
inductive Reachable : Conc T → Prop
  | new (t : T) : Reachable (Conc.new t)
  | step {s s' : Conc T} : Reachable s → Step s s' → Reachable s'

end Verif.Runtime.Arc
