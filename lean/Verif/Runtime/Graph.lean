import Verif.Runtime.Arc
import Mathlib.Data.Set.Insert

/-
Model of heaps of reference-counted blocks shared by threads: the functions that the code generator emits to clone, drop
and synchronize values (`/repo/lib/mir-fmm/src/reference_count/{pointer,count,heap,block,record,string,function,variant,
expression}.rs`, `closure/{drop,sync}.rs`), and the expressions that use them (`expression.rs`: `Record`, `RecordField`,
`RecordUpdate`, `Synchronize`). `Verif.Runtime.Arc` is about one block without content; here blocks refer to other blocks.

* All values that are pointers (strings, boxed records, closures, payloads of variants) are addresses of blocks with a
  list of fields. A field is `none` if it holds no pointer: a number, or a null pointer, on which all the functions
  do nothing (`is_null`, pointer.rs:267-275). Variants, records and closures differ only in where the functions
  for their fields come from.
* Threads take steps in any order. Every access to the count of a block is a step of its own; reading the content of a
  block that only one thread can reach is done in the same step as the access to the count before it.
* Accesses to memory are logged as events, and every thread has the set of events that happen before whatever it does
  next. Knowledge of events is passed on by release operations, acquire fences (pointer.rs:132-142, 228-234) and messages
  between threads. An access that conflicts with an event that does not happen before it is a data race, as in the
  memory model of C++ and LLVM.
* A relaxed load of the count of a synchronized block may be stale.
* Addresses are not reused. Counts do not overflow.
* A message in a channel is a thread that does nothing but pass it on.
* Evaluation of thunks is not part of `Step`; see `GraphThunk`.
-/
namespace Verif.Runtime.Graph

open Verif.Runtime.Arc (isSynchronized staticCount uniqueCount cloneAction dropAction synchronizeAction isUnique)

abbrev Addr := Nat

/-- What has become of a block. The program does not see it. -/
inductive Status
  | live
  /-- its last reference is gone, and some thread drops its content and frees it -/
  | dying
  | freed
  deriving DecidableEq

/-- The two parts of a block: block.rs:10-12. -/
inductive Location
  | count
  | content
  deriving DecidableEq

/-- How memory is accessed. -/
inductive Kind
  | read
  | atomic
  | write
  deriving DecidableEq

/-- A block: block.rs:10-12. -/
structure Block where
  count : Int
  fields : List (Option Addr)
  status : Status

/-- What a thread has to do before it goes on with its program: the calls of emitted functions, and where it is in them.
`c` is the count it has loaded. -/
inductive Task
  /-- `clone` of a pointer: pointer.rs:24-83 -/
  | clone (b : Addr)
  | cloneLoaded (b : Addr) (c : Int)
  /-- `drop` of a pointer: pointer.rs:100-166 -/
  | drop (b : Addr)
  | dropLoaded (b : Addr) (c : Int)
  /-- `heap::free`: heap.rs:48-58 -/
  | free (b : Addr)
  /-- `synchronize` of a pointer: pointer.rs:168-198 -/
  | sync (b : Addr)
  | syncLoaded (b : Addr) (c : Int)
  /-- `RecordUpdate` of the field `i` of record `b` by `g`: expression.rs:83-190 -/
  | update (b : Addr) (i : Nat) (g : Addr)
  /-- the same, after the old field is dropped -/
  | store (b : Addr) (i : Nat) (g : Addr)
  deriving DecidableEq

/-- Threads `T` and their heap. -/
structure State (T : Type) where
  heap : List Block
  /-- the references in variables and tasks of threads -/
  held : Multiset (T × Addr)
  tasks : T → List Task
  /-- the events in `log` that happen before the next step of a thread -/
  know : T → Set Nat
  /-- the events that happen before release operations on the count of a block -/
  view : Addr → Set Nat
  log : List (Addr × Location × Kind)
  /-- whether memory was used after it was freed, or freed twice -/
  broken : Prop
  /-- whether there was a data race -/
  race : Prop

variable {T : Type} [DecidableEq T]

/-- At first there are only static blocks, such as string literals: expression.rs:191-217, block.rs:4-8. -/
def State.initial (statics : Nat) : State T :=
  { heap := List.replicate statics ⟨staticCount, [], .live⟩, held := 0, tasks := fun _ => [], know := fun _ => ∅,
    view := fun _ => ∅, log := [], broken := False, race := False }

def State.setTasks (s : State T) (t : T) (ks : List Task) : State T :=
  { s with tasks := Function.update s.tasks t ks }

/-- What happens before `X` is known to a thread. -/
def State.learn (s : State T) (t : T) (X : Set Nat) : State T :=
  { s with know := Function.update s.know t (s.know t ∪ X) }

/-- An access of thread `t` to a block that has to have the status `status`. -/
def State.accessAs (status : Status) (s : State T) (t : T) (b : Addr) (l : Location) (k : Kind) : State T :=
  { s with
    log := s.log ++ [(b, l, k)]
    know := Function.update s.know t (insert s.log.length (s.know t))
    broken := s.broken ∨ ¬ ∃ B, s.heap[b]? = some B ∧ B.status = status
    race := s.race ∨ ∃ i k', s.log[i]? = some (b, l, k') ∧ i ∉ s.know t ∧ (k = .write ∨ k' = .write) }

def State.access (s : State T) (t : T) (b : Addr) (l : Location) (k : Kind) : State T := s.accessAs .live t b l k

/-- The references to fields, held by `t`. -/
def references (t : T) (fs : List (Option Addr)) : Multiset (T × Addr) :=
  ((fs.reduceOption.map fun f => (t, f) : List (T × Addr)) : Multiset (T × Addr))

/-- Relaxed loads of a count: pointer.rs:42-43, 118-119, 180-181. The counts of synchronized blocks that are not static may
be stale; they stay negative. -/
def Loads (B : Block) (c : Int) : Prop :=
  c = B.count ∨ (B.count < 0 ∧ B.count ≠ staticCount ∧ c < 0 ∧ c ≠ staticCount)

/-- The load of `is_unique` (pointer.rs:206-226). The count -1 is not stale: it was written after the reference of this
thread was made, and from then on only this thread changes the count. -/
def LoadsUnique (B : Block) (c : Int) : Prop := Loads B c ∧ (c = -1 → B.count = -1)

/-- The new count `c` of a block does not overflow. -/
def Fits (B : Block) (c : Int) : Prop := B.count = staticCount ∨ (staticCount < c ∧ c < 2 ^ 63 - 1)

/-- How `clone` changes the count: pointer.rs:45-74. -/
def cloneAccess (c : Int) : Option Kind :=
  if !isSynchronized c then some .write else if c ≠ staticCount then some .atomic else none

/-- How `drop` changes the count: pointer.rs:121-160. -/
def dropAccess (c : Int) : Option Kind :=
  if isSynchronized c then if c ≠ staticCount then some .atomic else none
  else if c = uniqueCount then none
  else some .write

def State.accessCount (s : State T) (t : T) (b : Addr) : Option Kind → State T
  | none => s
  | some k => s.access t b .count k

/-- `heap::allocate` and storing the content: heap.rs:3-26; expression.rs (`compile_boxed_record`, `LetRecursive`). The
references to fields are moved into the block. -/
def State.allocate (s : State T) (t : T) (fs : List (Option Addr)) : State T :=
  let a := s.heap.length
  let s : State T := { s with heap := s.heap ++ [Block.mk uniqueCount fs .live], held := (t, a) ::ₘ (s.held - references t fs) }
  (s.access t a .count .write).access t a .content .write

/-- The rest of `clone` after its load: pointer.rs:45-79. -/
def State.finishClone (s : State T) (t : T) (b : Addr) (c : Int) (ks : List Task) (B : Block) : State T :=
  let s := s.accessCount t b (cloneAccess c)
  ({ s with heap := s.heap.set b { B with count := cloneAction c B.count }, held := (t, b) ::ₘ s.held } : State T).setTasks
    t ks

/-- The release operation of `drop`: pointer.rs:132-137. -/
def State.release (s : State T) (t : T) (b : Addr) : State T :=
  { s with view := Function.update s.view b (s.view b ∪ s.know t) }

/-- The rest of `drop` after its load, if the reference is not the last one: pointer.rs:121-160. -/
def State.finishDrop (s : State T) (t : T) (b : Addr) (c : Int) (ks : List Task) (B : Block) : State T :=
  let s := s.accessCount t b (dropAccess c)
  let s := if dropAccess c = some .atomic then s.release t b else s
  ({ s with heap := s.heap.set b { B with count := (dropAction c B.count).1 }, held := s.held.erase (t, b) } : State T).setTasks
    t ks

/-- The same, if it is the last one: the acquire fence (pointer.rs:139) if the block is synchronized, and `drop_inner`
(pointer.rs:105-108). The content is loaded (record.rs:149-159, closure/drop.rs:16-20) and dropped, and then the block
is freed. -/
def State.finishLastDrop (s : State T) (t : T) (b : Addr) (c : Int) (ks : List Task) (B : Block) : State T :=
  let s := s.accessCount t b (dropAccess c)
  let s := if dropAccess c = some .atomic then (s.release t b).learn t (s.view b) else s
  let s := s.access t b .content .read
  ({ s with
    heap := s.heap.set b { count := (dropAction c B.count).1, fields := [], status := .dying }
    held := s.held.erase (t, b) + references t B.fields } : State T).setTasks t
      (B.fields.reduceOption.map Task.drop ++ Task.free b :: ks)

/-- `heap::free`: heap.rs:48-58. -/
def State.finishFree (s : State T) (t : T) (b : Addr) (ks : List Task) (B : Block) : State T :=
  let s := (s.accessAs .dying t b .count .write).accessAs .dying t b .content .write
  ({ s with heap := s.heap.set b { B with status := .freed } } : State T).setTasks t ks

/-- The rest of `synchronize` of a block that is not synchronized: pointer.rs:186-192; the content is loaded and its
fields are synchronized (record.rs:225-258, closure/sync.rs:13-33). -/
def State.finishSync (s : State T) (t : T) (b : Addr) (c : Int) (ks : List Task) (B : Block) : State T :=
  let s := (s.access t b .count .write).access t b .content .read
  ({ s with heap := s.heap.set b { B with count := synchronizeAction c B.count } } : State T).setTasks t
    (B.fields.reduceOption.map Task.sync ++ ks)

/-- `RecordUpdate` of a unique record: expression.rs:88-155, 158-167. The old field is taken out of the record to be
dropped; then the new one is stored. `c` is the count that `is_unique` has loaded. -/
def State.startUpdate (s : State T) (t : T) (b : Addr) (i : Nat) (g : Addr) (c : Int) (ks : List Task) (B : Block)
    (old : Option Addr) : State T :=
  let s := s.access t b .count .atomic
  let s := if isSynchronized c then s.learn t (s.view b) else s
  let s := s.access t b .content .read
  ({ s with
    heap := s.heap.set b { B with fields := B.fields.set i none }
    held := s.held + references t [old] } : State T).setTasks t ([old].reduceOption.map Task.drop ++ Task.store b i g :: ks)

/-- The end of `RecordUpdate`: expression.rs:160-165. -/
def State.finishUpdate (s : State T) (t : T) (b : Addr) (i : Nat) (g : Addr) (ks : List Task) (B : Block) : State T :=
  let s := s.access t b .content .write
  ({ s with heap := s.heap.set b { B with fields := B.fields.set i (some g) }, held := s.held.erase (t, g) } : State T).setTasks
    t ks

/-- The steps of thread `t`. With `careful`, values stored into synchronized records by `RecordUpdate` are synchronized; the
code does not see to that. -/
inductive Step (careful : Bool) : T → State T → State T → Prop
  /- The program of a thread: it uses the references it has. -/
  | static (s : State T) (t : T) (b : Addr) (B : Block) : s.tasks t = [] → s.heap[b]? = some B →
      B.count = staticCount → Step careful t s { s with held := (t, b) ::ₘ s.held }
  | allocate (s : State T) (t : T) (fs : List (Option Addr)) : s.tasks t = [] → references t fs ≤ s.held →
      Step careful t s (s.allocate t fs)
  | clone (s : State T) (t : T) (b : Addr) : s.tasks t = [] → (t, b) ∈ s.held → Step careful t s (s.setTasks t [.clone b])
  | drop (s : State T) (t : T) (b : Addr) : s.tasks t = [] → (t, b) ∈ s.held → Step careful t s (s.setTasks t [.drop b])
  | sync (s : State T) (t : T) (b : Addr) : s.tasks t = [] → (t, b) ∈ s.held → Step careful t s (s.setTasks t [.sync b])
  /- `RecordField` (expression.rs:67-82), and loads from environments of closures (entry_function.rs:87-104): the field
  is cloned -/
  | field (s : State T) (t : T) (b : Addr) (B : Block) (f : Addr) : s.tasks t = [] → (t, b) ∈ s.held →
      s.heap[b]? = some B → some f ∈ B.fields →
      Step careful t s ((s.access t b .content .read).setTasks t [.clone f])
  | update (s : State T) (t : T) (b : Addr) (i : Nat) (g : Addr) : s.tasks t = [] → {(t, b), (t, g)} ≤ s.held →
      Step careful t s (s.setTasks t [.update b i g])
  /- "Heap blocks are always synchronized by their owners before references are shared with other threads" (pointer.rs:
  239-241); the receiver happens after the sender -/
  | send (s : State T) (t t' : T) (b : Addr) (B : Block) : s.tasks t = [] → s.tasks t' = [] → (t, b) ∈ s.held →
      s.heap[b]? = some B → isSynchronized B.count = true →
      Step careful t s ({ s with held := (t', b) ::ₘ s.held.erase (t, b) }.learn t' (s.know t))
  /- The emitted functions. -/
  | loadClone (s : State T) (t : T) (b : Addr) (c : Int) (ks : List Task) (B : Block) : s.tasks t = .clone b :: ks →
      s.heap[b]? = some B → Loads B c →
      Step careful t s ((s.access t b .count .atomic).setTasks t (.cloneLoaded b c :: ks))
  | finishClone (s : State T) (t : T) (b : Addr) (c : Int) (ks : List Task) (B : Block) :
      s.tasks t = .cloneLoaded b c :: ks → s.heap[b]? = some B → Fits B (cloneAction c B.count) →
      Step careful t s (s.finishClone t b c ks B)
  | loadDrop (s : State T) (t : T) (b : Addr) (c : Int) (ks : List Task) (B : Block) : s.tasks t = .drop b :: ks →
      s.heap[b]? = some B → Loads B c →
      Step careful t s ((s.access t b .count .atomic).setTasks t (.dropLoaded b c :: ks))
  | finishDrop (s : State T) (t : T) (b : Addr) (c : Int) (ks : List Task) (B : Block) :
      s.tasks t = .dropLoaded b c :: ks → s.heap[b]? = some B → (dropAction c B.count).2 = false →
      Step careful t s (s.finishDrop t b c ks B)
  | finishLastDrop (s : State T) (t : T) (b : Addr) (c : Int) (ks : List Task) (B : Block) :
      s.tasks t = .dropLoaded b c :: ks → s.heap[b]? = some B → (dropAction c B.count).2 = true →
      Step careful t s (s.finishLastDrop t b c ks B)
  | free (s : State T) (t : T) (b : Addr) (ks : List Task) (B : Block) : s.tasks t = .free b :: ks →
      s.heap[b]? = some B → Step careful t s (s.finishFree t b ks B)
  | loadSync (s : State T) (t : T) (b : Addr) (c : Int) (ks : List Task) (B : Block) : s.tasks t = .sync b :: ks →
      s.heap[b]? = some B → Loads B c →
      Step careful t s ((s.access t b .count .atomic).setTasks t (.syncLoaded b c :: ks))
  | synchronized (s : State T) (t : T) (b : Addr) (c : Int) (ks : List Task) : s.tasks t = .syncLoaded b c :: ks →
      isSynchronized c = true → Step careful t s (s.setTasks t ks)
  | finishSync (s : State T) (t : T) (b : Addr) (c : Int) (ks : List Task) (B : Block) :
      s.tasks t = .syncLoaded b c :: ks → s.heap[b]? = some B → isSynchronized c = false →
      Step careful t s (s.finishSync t b c ks B)
  | startUpdate (s : State T) (t : T) (b : Addr) (i : Nat) (g : Addr) (c : Int) (ks : List Task) (B : Block)
      (old : Option Addr) : s.tasks t = .update b i g :: ks → s.heap[b]? = some B → LoadsUnique B c →
      isUnique c = true → B.fields[i]? = some old →
      (careful = true → isSynchronized c = true → ∃ G, s.heap[g]? = some G ∧ isSynchronized G.count = true) →
      Step careful t s (s.startUpdate t b i g c ks B old)
  /- a record that is not unique is copied (expression.rs:168-186), by the other steps -/
  | shared (s : State T) (t : T) (b : Addr) (i : Nat) (g : Addr) (c : Int) (ks : List Task) (B : Block) :
      s.tasks t = .update b i g :: ks → s.heap[b]? = some B → LoadsUnique B c → isUnique c = false →
      Step careful t s ((s.access t b .count .atomic).setTasks t ks)
  | finishUpdate (s : State T) (t : T) (b : Addr) (i : Nat) (g : Addr) (ks : List Task) (B : Block) :
      s.tasks t = .store b i g :: ks → s.heap[b]? = some B → Step careful t s (s.finishUpdate t b i g ks B)

/-- States that can be reached under every schedule. -/
inductive Reachable (careful : Bool) : State T → Prop
  | initial (statics : Nat) : Reachable careful (State.initial statics)
  | step {s s' : State T} {t : T} : Reachable careful s → Step careful t s s' → Reachable careful s'

end Verif.Runtime.Graph
