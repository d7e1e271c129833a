import Verif.Runtime.GraphProperties

/-
Results of thunks (`/repo/lib/mir-fmm/src/entry_function.rs`) in the model of shared blocks. `Verif.Runtime.Thunk` is about
the protocol by which threads evaluate a thunk once; here only its end matters: the result is stored into the thunk, and
other threads read it from there.
-/
namespace Verif.Runtime.Graph

open Verif.Runtime.Arc (isSynchronized staticCount uniqueCount cloneAction dropAction synchronizeAction isUnique)

variable {T : Type} [DecidableEq T]

/-- A program with one global function without arguments, which is a static thunk (`closure::metadata`, `compile_closure`
in `expression.rs`; its count is static). The field is for its result. -/
def State.initialThunk : State T :=
  { State.initial 0 with heap := [⟨staticCount, [none], .live⟩] }

/-- Steps of careful threads that also evaluate thunks. That no other thread evaluates the thunk at the same time is left out;
see `Verif.Runtime.Thunk`. -/
inductive ThunkStep : T → State T → State T → Prop
  | step {s s' : State T} {t : T} : Step true t s s' → ThunkStep t s s'
  /- The end of the evaluation: the result is stored (entry_function.rs:207-210), and the entry function is replaced by a
  release operation (217-228). -/
  | publish (s : State T) (t : T) (b : Addr) (i : Nat) (g : Addr) (B : Block) : s.tasks t = [] → (t, b) ∈ s.held →
      (t, g) ∈ s.held → s.heap[b]? = some B → B.fields[i]? = some none →
      ThunkStep t s ((s.finishUpdate t b i g [] B).release t b)
  /- A later call of the thunk loads its entry function by an acquire operation (entry_function.rs:260-270); then the result
  is read by `Step.field` (entry_function.rs:274-279). -/
  | acquire (s : State T) (t : T) (b : Addr) : s.tasks t = [] → (t, b) ∈ s.held → ThunkStep t s (s.learn t (s.view b))

/-- Executions. -/
inductive ThunkSteps : State T → State T → Prop
  | refl (s : State T) : ThunkSteps s s
  | step {s s' s'' : State T} {t : T} : ThunkStep t s s' → ThunkSteps s' s'' → ThunkSteps s s''

/-- C60 fails for results of thunks. A thread evaluates a global thunk and keeps its result, which is not synchronized; another
thread reads the result from the thunk. Both increment its count, not atomically. This is a data race, one of the
increments is lost, and the result is freed while the thunk refers to it. Then it is used. -/
theorem c60_thunk_race : ∃ s : State Bool, ThunkSteps State.initialThunk s ∧ s.race ∧ s.broken := by
  refine ⟨_,
    (.step (.step (.static _ false 0 _ rfl rfl rfl))
    (.step (.step (.static _ true 0 _ rfl rfl rfl))
    -- the thunk is evaluated
    (.step (.step (.allocate _ false [] rfl (by decide)))
    (.step (.step (.clone _ false 1 rfl (by decide)))
    (.step (.step (.loadClone _ false 1 0 _ _ rfl rfl (Or.inl rfl)))
    (.step (.step (.finishClone _ false 1 0 _ _ rfl rfl (Or.inr (by decide))))
    (.step (.publish _ false 0 0 1 _ rfl (by decide) (by decide) rfl rfl)
    -- and its result is read by the other thread
    (.step (.acquire _ true 0 rfl (by decide))
    (.step (.step (.field _ true 0 _ 1 rfl (by decide) rfl (by decide)))
    (.step (.step (.loadClone _ true 1 1 _ _ rfl rfl (Or.inl rfl)))
    (.step (.step (.clone _ false 1 rfl (by decide)))
    (.step (.step (.loadClone _ false 1 1 _ _ rfl rfl (Or.inl rfl)))
    (.step (.step (.finishClone _ false 1 1 _ _ rfl rfl (Or.inr (by decide))))
    (.step (.step (.finishClone _ true 1 1 _ _ rfl rfl (Or.inr (by decide))))
    -- both drop what they have
    (.step (.step (.drop _ false 1 rfl (by decide)))
    (.step (.step (.loadDrop _ false 1 2 _ _ rfl rfl (Or.inl rfl)))
    (.step (.step (.finishDrop _ false 1 2 _ _ rfl rfl rfl))
    (.step (.step (.drop _ false 1 rfl (by decide)))
    (.step (.step (.loadDrop _ false 1 1 _ _ rfl rfl (Or.inl rfl)))
    (.step (.step (.finishDrop _ false 1 1 _ _ rfl rfl rfl))
    (.step (.step (.drop _ true 1 rfl (by decide)))
    (.step (.step (.loadDrop _ true 1 0 _ _ rfl rfl (Or.inl rfl)))
    (.step (.step (.finishLastDrop _ true 1 0 _ _ rfl rfl rfl))
    (.step (.step (.free _ true 1 _ _ rfl rfl))
    -- and the result is read again
    (.step (.step (.field _ true 0 _ 1 rfl (by decide) rfl (by decide)))
    (.step (.step (.loadClone _ true 1 0 _ _ rfl rfl (Or.inl rfl))) (.refl _))))))))))))))))))))))))))), ?_, ?_⟩
  · iterate 10 left
    right
    refine ⟨8, .write, rfl, fun h => ?_, Or.inl rfl⟩
    repeat' first
      | exact absurd (show (8 : Nat) = _ from h) (by decide)
      | exact (show False from h)
      | rcases h with h | h
  · right
    rintro ⟨B, hB, hl⟩
    cases hB; cases hl

end Verif.Runtime.Graph
