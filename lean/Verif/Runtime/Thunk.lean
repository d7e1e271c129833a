import Mathlib.Data.Multiset.AddSub
import Mathlib.Logic.Function.Basic

/-
Model of lazily evaluated values (thunks): the entry functions that the code generator emits for functions without
arguments, `/repo/lib/mir-fmm/src/entry_function.rs:48-318`, calls of them (`call.rs:3-26`), and the functions in closure
metadata that drop and synchronize closures (`closure/{drop,sync,metadata}.rs`).

Functions without arguments are thunks: local ones (`lib/hir-mir/src/expression.rs:196-217`) for list elements, and all
global functions without arguments (`lib/hir-mir/src/module.rs:122-129`), whose closures are static.

* One thunk. Threads take the steps below in any order. Every access to the entry function pointer, the payload and the
  metadata is a step of its own. Accesses are interleaved: those to the entry function pointer are atomic, and the others
  are ordered by its release store and acquire load.
* Reference counts are numbers of handles, changed in one step each (`Verif.Runtime.Arc` shows that this is what the
  counters in blocks do). A handle is sent to another thread only if the block is synchronized or static.
* While a thread evaluates a thunk it does not use other handles to the same thunk: a body cannot refer to the thunk it
  belongs to.
* The body is arbitrary: it ends at any time with any of the possible results. -/
namespace Verif.Runtime.Thunk

/-- The entry function in a closure: entry_function.rs:63-64. -/
inductive Entry
  | initial
  | locked
  | normal
  deriving DecidableEq

/-- The payload of a closure: a union of the environment and the value (type_.rs, `compile_closure_payload`). It is
`empty` when the environment is dropped. -/
inductive Payload (V : Type)
  | environment
  | empty
  | value (v : V)

/-- The metadata of a closure: `metadata::compile` or `metadata::compile_normal_thunk` (closure/metadata.rs:23-47). -/
inductive Metadata
  | initial
  | normal

/-- What the reference count of the block says: reference_count/count.rs:26-66. A static count is negative, so that static
blocks count as synchronized, too. -/
inductive Mode
  | unsynchronized
  | synchronized
  | static
  deriving DecidableEq

/-- Where a thread is. -/
inductive Pc (V : Type)
  /-- not in a call of the thunk -/
  | idle
  /-- the entry function is loaded and called -/
  | entering (e : Entry)
  /-- the entry function is to be loaded again -/
  | reloading
  /-- in the initial entry function, with the right to evaluate -/
  | starting
  | evaluating
  | evaluated (v : V)
  | dropped (v : V)
  | stored (v : V)
  | described (v : V)
  /-- in the normal entry function after its acquire load -/
  | reading
  /-- before the closure is dropped and the value is returned -/
  | finishing (v : V)

/-- A thunk shared by threads `T`. Every handle is in `handles` under the name of the thread that owns it; handles of
static thunks are not counted. The rest is for the theorems: how often the body was started, the results of calls, how
often the environment and the stored value were dropped and the block was freed, and whether the payload was used as what
it was not. -/
structure State (T V : Type) where
  mode : Mode
  entry : Entry
  payload : Payload V
  metadata : Metadata
  handles : Multiset T
  pc : T → Pc V
  bodies : Nat
  returned : List (T × V)
  environmentDrops : Nat
  valueDrops : Nat
  freed : Nat
  fault : Bool

variable {T V : Type} [DecidableEq T]

/-- A new closure owned by thread `t`: expression.rs (`LetRecursive`). -/
def State.new (t : T) : State T V :=
  { mode := .unsynchronized, entry := .initial, payload := .environment, metadata := .initial, handles := {t},
    pc := fun _ => .idle, bodies := 0, returned := [], environmentDrops := 0, valueDrops := 0, freed := 0, fault := false }

/-- A global function without arguments: function_definition.rs:5-31. -/
def State.global : State T V :=
  { mode := .static, entry := .initial, payload := .environment, metadata := .initial, handles := 0,
    pc := fun _ => .idle, bodies := 0, returned := [], environmentDrops := 0, valueDrops := 0, freed := 0, fault := false }

def State.setPc (s : State T V) (t : T) (p : Pc V) : State T V := { s with pc := Function.update s.pc t p }

/-- `reference_count::clone` of the closure. -/
def State.clone (s : State T V) (t : T) : State T V :=
  if s.mode = .static then s else { s with handles := t ::ₘ s.handles }

/-- Uses the payload as an environment. -/
def State.needEnvironment (s : State T V) : State T V :=
  match s.payload with
  | .environment => s
  | _ => { s with fault := true }

/-- Uses the payload as a value. -/
def State.needValue (s : State T V) : State T V :=
  match s.payload with
  | .value _ => s
  | _ => { s with fault := true }

/-- Drops the content and frees the block: closure/drop.rs:13-53 by the metadata. -/
def State.free (s : State T V) : State T V :=
  match s.metadata with
  | .initial =>
    let s := s.needEnvironment
    { s with environmentDrops := s.environmentDrops + 1, freed := s.freed + 1 }
  | .normal =>
    let s := s.needValue
    { s with valueDrops := s.valueDrops + 1, freed := s.freed + 1 }

/-- `reference_count::drop` of the closure. -/
def State.drop (s : State T V) (t : T) : State T V :=
  if s.mode = .static then s
  else
    let s := { s with handles := s.handles.erase t }
    if s.handles = 0 then s.free else s

/-- Synchronizes the content: closure/sync.rs:13-53 by the metadata. -/
def State.synchronizeContent (s : State T V) : State T V :=
  match s.metadata with
  | .initial => s.needEnvironment
  | .normal => s.needValue

/-- Returns from a call. -/
def State.return_ (s : State T V) (t : T) (v : V) : State T V :=
  { s.setPc t .idle with returned := (t, v) :: s.returned }

/-- Whether a thread has a handle to use. -/
def State.has (s : State T V) (t : T) : Prop := s.mode = .static ∨ t ∈ s.handles

/-- The steps of thread `t`. `results` are the results the body can have; `early` says whether the body can also return
early, by a `?` operator (`compile_try_operation`, expression.rs:622-644, returns from the entry function). -/
inductive Step (results : V → Prop) (early : Bool) : T → State T V → State T V → Prop
  | clone (s : State T V) (t : T) : s.pc t = .idle → s.has t → Step results early t s (s.clone t)
  | drop (s : State T V) (t : T) : s.pc t = .idle → s.has t → Step results early t s (s.drop t)
  | send (s : State T V) (t t' : T) : s.pc t = .idle → t ∈ s.handles → s.mode = .synchronized →
      Step results early t s { s with handles := t' ::ₘ s.handles.erase t }
  /- reference_count/pointer.rs:168-198 -/
  | synchronize (s : State T V) (t : T) : s.pc t = .idle → t ∈ s.handles → s.mode = .unsynchronized →
      Step results early t s { s.synchronizeContent with mode := .synchronized }
  /- call.rs:8-14 -/
  | call (s : State T V) (t : T) : s.pc t = .idle → s.has t → Step results early t s (s.setPc t (.entering s.entry))
  /- entry_function.rs:142-176 -/
  | enterUnsynchronized (s : State T V) (t : T) : s.pc t = .entering .initial → s.mode = .unsynchronized →
      Step results early t s (s.setPc t .starting)
  | lock (s : State T V) (t : T) : s.pc t = .entering .initial → s.mode ≠ .unsynchronized → s.entry = .initial →
      Step results early t s { s.setPc t .starting with entry := .locked }
  | lockFails (s : State T V) (t : T) : s.pc t = .entering .initial → s.mode ≠ .unsynchronized → s.entry ≠ .initial →
      Step results early t s (s.setPc t .reloading)
  | reload (s : State T V) (t : T) : s.pc t = .reloading → Step results early t s (s.setPc t (.entering s.entry))
  /- entry_function.rs:178-185: the closure is cloned, and the body loads the environment -/
  | start (s : State T V) (t : T) : s.pc t = .starting →
      Step results early t s { ((s.clone t).needEnvironment).setPc t .evaluating with bodies := s.bodies + 1 }
  /- the body drops the closure it was called with -/
  | finish (s : State T V) (t : T) (v : V) : s.pc t = .evaluating → results v →
      Step results early t s ((s.drop t).setPc t (.evaluated v))
  | returnEarly (s : State T V) (t : T) (v : V) : early = true → s.pc t = .evaluating → results v →
      Step results early t s ((s.drop t).return_ t v)
  /- entry_function.rs:187-203 -/
  | dropEnvironment (s : State T V) (t : T) (v : V) : s.pc t = .evaluated v →
      Step results early t s { s.needEnvironment.setPc t (.dropped v) with
        payload := .empty, environmentDrops := s.environmentDrops + 1 }
  /- entry_function.rs:205-208 -/
  | storeValue (s : State T V) (t : T) (v : V) : s.pc t = .dropped v →
      Step results early t s { s.setPc t (.stored v) with payload := .value v }
  /- entry_function.rs:210-213 -/
  | storeMetadata (s : State T V) (t : T) (v : V) : s.pc t = .stored v →
      Step results early t s { s.setPc t (.described v) with metadata := .normal }
  /- entry_function.rs:215-234 -/
  | publish (s : State T V) (t : T) (v : V) : s.pc t = .described v →
      Step results early t s { s.setPc t (.finishing v) with entry := .normal }
  /- entry_function.rs:236-243, 286-293 -/
  | finishCall (s : State T V) (t : T) (v : V) : s.pc t = .finishing v →
      Step results early t s ((s.drop t).return_ t v)
  /- entry_function.rs:260-275 -/
  | enterNormal (s : State T V) (t : T) : s.pc t = .entering .normal → Step results early t s (s.setPc t .reading)
  /- entry_function.rs:277-284 -/
  | read (s : State T V) (t : T) (v : V) : s.pc t = .reading → s.payload = .value v →
      Step results early t s (s.setPc t (.finishing v))
  | readFails (s : State T V) (t : T) : s.pc t = .reading → (∀ v, s.payload ≠ .value v) →
      Step results early t s { s with fault := true }
  /- entry_function.rs:301-329 -/
  | enterLocked (s : State T V) (t : T) : s.pc t = .entering .locked → Step results early t s (s.setPc t .reloading)

/-- States reachable from a new thunk of some thread, or from a global one, under every schedule. -/
inductive Reachable (results : V → Prop) (early : Bool) : State T V → Prop
  | new (t : T) : Reachable results early (State.new t)
  | global : Reachable results early State.global
  | step {s s' : State T V} {t : T} : Reachable results early s → Step results early t s s' → Reachable results early s'

/-- Executions, with the threads that take the steps. -/
inductive Run (results : V → Prop) (early : Bool) : State T V → List T → State T V → Prop
  | nil (s : State T V) : Run results early s [] s
  | cons {s s' s'' : State T V} {t : T} {ts : List T} : Step results early t s s' → Run results early s' ts s'' →
      Run results early s (t :: ts) s''

end Verif.Runtime.Thunk
