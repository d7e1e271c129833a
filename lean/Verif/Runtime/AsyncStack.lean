/-
Model of asynchronous stacks and of the executor of thunks:
`/repo/lib/ffi/src/cps/async_stack.rs`, `/repo/lib/ffi/src/future/{from_closure,to_closure,call}.rs` and the function
wrappers generated by `/repo/lib/ffi-macro/src/bindgen.rs:61-107`.

* The byte stack is a list of typed cells (justified by C33): popping a cell of another kind is the failure
  `typeConfusion`.
* Compiled code is in continuation-passing style: it saves a frame (environment and continuation) on the stack before a
  call, and the continuation of the call pops that frame. That calling convention belongs to the code generator (F--,
  a dependency outside /repo); only its effect on the stack is modelled.
* A native future is a number of polls for which it is pending and then a value. The executor may poll at any time;
  wake-ups are not modelled.
-/
namespace Verif.Runtime.AsyncStack

/-- `AsyncStackAction`: /repo/lib/ffi/src/cps/async_stack_action.rs. -/
inductive Action
  | suspend
  | resume
  | restore
  deriving DecidableEq, Repr

/-- Failures: `CpsError` (/repo/lib/ffi/src/cps/error.rs), and undefined behaviour. All `Result`s are `unwrap`ped. -/
inductive Error
  | unexpectedAction (a : Option Action)
  | missingContext
  | typeConfusion
  deriving DecidableEq, Repr

/-- Continuations: `resolve` (from_closure.rs:43-45) and the return points of compiled code. -/
inductive Cont
  | resolve
  | returnPoint
  deriving DecidableEq

/-- Step functions: `resume` of a native function (to_closure.rs:31-35, bindgen.rs:97-103) and `step` of `trampoline`
(async_stack.rs:97-101). -/
inductive StepFunction
  | resumeFuture
  | trampoline
  deriving DecidableEq

/-- A native future: its name, how many more times it is pending, its value. -/
structure Future (V : Type) where
  name : Nat
  pending : Nat
  value : V

/-- What is on the stack. -/
inductive Cell (V P : Type)
  | frame (f : V → P) (k : Cont)
  | future (f : Future V)
  | value (v : V)
  | step (s : StepFunction)
  | cont (k : Cont)

/-- `AsyncStack`: async_stack.rs:21-32. The top of `stack` and of `actions` is the head. -/
structure Async (V P : Type) where
  stack : List (Cell V P)
  context : Bool
  actions : List Action
  resolved : Option V

variable {V P : Type}

/-- `new`: async_stack.rs:35-42. -/
def Async.new : Async V P := ⟨[], false, [.suspend], none⟩

def Async.push (s : Async V P) (c : Cell V P) : Async V P := { s with stack := c :: s.stack }

/-- `validate_action`: async_stack.rs:138-146. -/
def Async.validate (s : Async V P) (a : Action) : Except Error (Async V P) :=
  if s.actions.head? = some a then .ok { s with actions := s.actions.tail } else .error (.unexpectedAction s.actions.head?)

/-- `push_next_actions`: async_stack.rs:148-150. -/
def Async.pushActions (s : Async V P) (as : List Action) : Async V P := { s with actions := as ++ s.actions }

/-- `suspend`: async_stack.rs:65-83. -/
def Async.suspend (s : Async V P) (step : StepFunction) (k : Cont) (f : Future V) : Except Error (Async V P) :=
  (s.validate .suspend).map fun s =>
    (((s.pushActions [.resume, .restore, .suspend]).push (.future f)).push (.step step)).push (.cont k)

/-- `trampoline`: async_stack.rs:90-116. -/
def Async.trampoline (s : Async V P) (k : Cont) (v : V) : Except Error (Async V P) :=
  match s.validate .suspend with
  | .error e => .error e
  | .ok s =>
    let s := (((s.pushActions [.resume, .suspend]).push (.value v)).push (.step .trampoline)).push (.cont k)
    if s.context then .ok s else .error .missingContext

/-- `resume`: async_stack.rs:118-125. -/
def Async.resume (s : Async V P) : Except Error ((StepFunction × Cont) × Async V P) :=
  match s.validate .resume with
  | .error e => .error e
  | .ok s => match s.stack with
    | .cont k :: .step f :: st => .ok ((f, k), { s with stack := st })
    | _ => .error .typeConfusion

/-- `restore`: async_stack.rs:127-131. -/
def Async.restore (s : Async V P) : Except Error (Future V × Async V P) :=
  match s.validate .restore with
  | .error e => .error e
  | .ok s => match s.stack with
    | .future f :: st => .ok (f, { s with stack := st })
    | _ => .error .typeConfusion

/-- What compiled code does next: return a value, call a function and go on with its result, call a function in tail
position, or call a native asynchronous function. -/
inductive Instr (V P : Type)
  | ret (v : V)
  | call (p : P) (f : V → P)
  | jump (p : P)
  | await (f : Future V)

/-- Where the machine is. -/
inductive Control (V P : Type)
  /-- between two polls of the executor; the saved step and continuation functions -/
  | idle (trampoline : Option (StepFunction × Cont))
  /-- in compiled code -/
  | enter (p : P) (k : Cont)
  /-- calling a continuation -/
  | continue (k : Cont) (v : V)
  /-- in `poll` of a native function (to_closure.rs:37-50, bindgen.rs:82-95) -/
  | poll (f : Future V) (k : Cont)
  /-- back in the executor -/
  | returned
  | done (v : V)
  | failed (e : Error)

/-- The whole machine; `log` lists the futures polled, the last first. -/
structure Machine (V P : Type) where
  control : Control V P
  async : Async V P
  log : List Nat

/-- The executor before its first poll: from_closure.rs:15-18. -/
def Machine.new : Machine V P := ⟨.idle none, .new, []⟩

/-- One step. `code` is the compiled program, `main` its entry point. -/
def Machine.step (code : P → Instr V P) (main : P) (m : Machine V P) : Machine V P :=
  match m.control with
  -- from_closure.rs:21-32; `run_with_context` sets the context (async_stack.rs:55)
  | .idle none => { m with control := .enter main .resolve, async := { m.async with context := true } }
  | .idle (some (.resumeFuture, k)) =>
    match { m.async with context := true }.restore with
    | .ok (f, s) => { m with control := .poll f k, async := s }
    | .error e => { m with control := .failed e }
  | .idle (some (.trampoline, k)) =>
    match m.async.stack with
    | .value v :: st => { m with control := .continue k v, async := { m.async with context := true, stack := st } }
    | _ => { m with control := .failed .typeConfusion }
  | .enter p k => match code p with
    | .ret v => { m with control := .continue k v }
    | .call q f => { m with control := .enter q .returnPoint, async := m.async.push (.frame f k) }
    | .jump q => { m with control := .enter q k }
    | .await f => { m with control := .poll f k }
  | .continue .resolve v => { m with control := .returned, async := { m.async with resolved := some v } }
  | .continue .returnPoint v => match m.async.stack with
    | .frame f k :: st => { m with control := .enter (f v) k, async := { m.async with stack := st } }
    | _ => { m with control := .failed .typeConfusion }
  | .poll f k =>
    if m.async.context then
      match (match f.pending with
        | 0 => m.async.trampoline k f.value
        | n + 1 => m.async.suspend .resumeFuture k { f with pending := n }) with
      | .ok s => { control := .returned, async := s, log := f.name :: m.log }
      | .error e => { control := .failed e, async := m.async, log := f.name :: m.log }
    else { m with control := .failed .missingContext }
  -- `run_with_context` clears the context (async_stack.rs:59); then from_closure.rs:34-39
  | .returned => match m.async.resolved with
    | some v => { m with control := .done v, async := { m.async with context := false, resolved := none } }
    | none => match { m.async with context := false }.resume with
      | .ok (t, s) => { m with control := .idle (some t), async := s }
      | .error e => { m with control := .failed e }
  | .done _ => m
  | .failed _ => m

def Machine.run (code : P → Instr V P) (main : P) : Nat → Machine V P → Machine V P
  | 0, m => m
  | n + 1, m => Machine.run code main n (m.step code main)

/-! ### Specification -/

/-- Direct-style evaluation: `p` gives `v` after polling the futures in the list, in that order. A future is polled
once more than it is pending. -/
inductive Eval (code : P → Instr V P) : P → V → List Nat → Prop
  | ret {p : P} {v : V} : code p = .ret v → Eval code p v []
  | call {p q : P} {f : V → P} {v w : V} {l l' : List Nat} :
      code p = .call q f → Eval code q v l → Eval code (f v) w l' → Eval code p w (l ++ l')
  | jump {p q : P} {v : V} {l : List Nat} : code p = .jump q → Eval code q v l → Eval code p v l
  | await {p : P} {f : Future V} : code p = .await f →
      Eval code p f.value (List.replicate (f.pending + 1) f.name)

end Verif.Runtime.AsyncStack
