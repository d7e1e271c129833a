import Mathlib.Logic.Function.Basic

/-
Model of `_pen_race`: `/repo/packages/os/ffi/application/src/concurrency.rs:28-65` (one task walks the list of lists and
spawns a task per list; all send into one bounded channel, from which the resulting lazy list is read), and of its
sequential version `/repo/packages/os-sync/concurrency.pen:7-13`.

* Elements in the channel carry the index of the list they come from; the program does not see it.
* A list may be infinite: it is the function from positions to elements, `none` after the end.
* Tokio's tasks and channel are modelled by their contract: any task that can go on may go on; `send` waits for room,
  `recv` for an element, and gives `None` when all senders are dropped and the channel is empty.
* The result is read to its end (when its reader goes away, sends fail and are ignored).
-/
namespace Verif.Runtime.Race

variable {α : Type}

/-- A list, as read by `ffi::future::stream::from_list`. -/
abbrev Items (α : Type) := Nat → Option α

structure State (α : Type) where
  /-- how many lists have been taken from the list of lists; their tasks are spawned -/
  spawned : Nat
  /-- the task that spawns is done and has dropped its sender -/
  spawnerDone : Bool
  /-- how many elements each task has sent -/
  sent : Nat → Nat
  /-- the tasks that are done and have dropped their senders -/
  done : Nat → Bool
  /-- the channel -/
  channel : List (Nat × α)
  /-- what has been read from the resulting list -/
  output : List (Nat × α)
  /-- the resulting list has been read to its end -/
  closed : Bool

/-- concurrency.rs:29-34. -/
def State.new : State α := ⟨0, false, fun _ => 0, fun _ => false, [], [], false⟩

/-- The steps. `capacity` is that of the channel; `xss` the argument. -/
inductive Step (capacity : Nat) (xss : Items (Items α)) : State α → State α → Prop
  /-- concurrency.rs:41-53 -/
  | spawn (s : State α) (xs : Items α) : s.spawnerDone = false → xss s.spawned = some xs →
      Step capacity xss s { s with spawned := s.spawned + 1 }
  /-- concurrency.rs:41,54 -/
  | spawnerEnd (s : State α) : s.spawnerDone = false → xss s.spawned = none →
      Step capacity xss s { s with spawnerDone := true }
  /-- concurrency.rs:49-51 -/
  | send (s : State α) (i : Nat) (xs : Items α) (x : α) : i < s.spawned → s.done i = false → xss i = some xs →
      xs (s.sent i) = some x → s.channel.length < capacity →
      Step capacity xss s { s with channel := s.channel ++ [(i, x)], sent := Function.update s.sent i (s.sent i + 1) }
  /-- concurrency.rs:49,52 -/
  | taskEnd (s : State α) (i : Nat) (xs : Items α) : i < s.spawned → s.done i = false → xss i = some xs →
      xs (s.sent i) = none → Step capacity xss s { s with done := Function.update s.done i true }
  /-- concurrency.rs:60-64 -/
  | receive (s : State α) (e : Nat × α) (es : List (Nat × α)) : s.closed = false → s.channel = e :: es →
      Step capacity xss s { s with channel := es, output := s.output ++ [e] }
  /-- concurrency.rs:65-67 -/
  | close (s : State α) : s.closed = false → s.channel = [] → s.spawnerDone = true →
      (∀ i, i < s.spawned → s.done i = true) → Step capacity xss s { s with closed := true }

inductive Reachable (capacity : Nat) (xss : Items (Items α)) : State α → Prop
  | new : Reachable capacity xss .new
  | step {s s' : State α} : Reachable capacity xss s → Step capacity xss s s' → Reachable capacity xss s'

/-- `channel` of `PARALLELISM_MULTIPLIER * available_parallelism()` elements: concurrency.rs:29-34. -/
def capacityOf (parallelism : Nat) : Nat := 2 * parallelism

/-- The elements of list `i` among some elements. -/
def ofList (i : Nat) (es : List (Nat × α)) : List α := es.filterMap fun e => if e.1 = i then some e.2 else none

/-- A finite list. -/
def items (l : List α) : Items α := fun k => l[k]?

/-- A finite list of finite lists. -/
def itemsOfLists (ls : List (List α)) : Items (Items α) := fun i => ls[i]?.map items

/-- `_pen_race` of the sequential system package: /repo/packages/os-sync/concurrency.pen:7-13. -/
def raceSync : List (List α) → List α
  | [] => []
  | xs :: xss => xs ++ raceSync xss

end Verif.Runtime.Race
