import Verif.Mir.HeapCalls
import Verif.Mir.RcValidate
import Verif.Mir.RcErase
import Verif.Mir.LiftingPipeline

/-
Properties C27-C29: reference counting.

`p.ready` says what the passes before produce: A-normal form, environments of local functions are local variables, and no
local variable is bound inside the scope of another one of the same name.
-/
namespace Verif.Mir

/-- How a run with a heap ends, seen by native code. `none` if it uses a freed block or native code would. -/
def HR.outcome : HR HVal → Option Outcome
  | .ok v h l =>
    match h.viewAll [v] with
    | some [o] => some (.value o l)
    | _ => none
  | .ret v h l =>
    match h.viewAll [v] with
    | some [o] => some (.returned o l)
    | _ => none
  | .timeout => some .timeout
  | .stuck => some .stuck
  | .fault => none

theorem rcProgram_linear {p q : Program} (hr : p.ready) (hq : rcProgram p = some q) : q.linear := by
  unfold rcProgram at hq
  split at hq
  · cases hq
    intro d hd
    simp only [List.mem_map] at hd
    obtain ⟨d, hd, rfl⟩ := hd
    exact rcGlobal_linear (hr d hd).1 (hr d hd).2
  · cases hq

/-! ### C27: the validator accepts what the transformation makes -/

/-- Names of local variables are not those of global ones, and all variables are in scope. -/
def Program.scoped (p : Program) : Prop :=
  ∀ d ∈ p.globals, (∀ x ∈ d.args, ¬ p.isGlobal x = true) ∧ inScope (fun x => p.isGlobal x = true) d.args d.body

/-- Reference counting does not fail, and the validator accepts its result: the compiler does not reject a program here. -/
theorem c27_validate_partial (p : Program) (hr : p.ready) (hs : p.scoped) :
    ∃ q, rcProgram p = some q ∧ validateProgram q = true := by
  obtain ⟨q, hq⟩ := rcProgram_ready hr
  refine ⟨q, hq, ?_⟩
  have hl := rcProgram_linear hr hq
  unfold rcProgram at hq
  split at hq
  · cases hq
    unfold validateProgram
    rw [List.all_eq_true]
    intro d hd
    refine linear_validate (hl d hd) ?_ (G := fun x => p.isGlobal x = true) ?_
    · simp only [List.mem_map] at hd
      obtain ⟨d, hd, rfl⟩ := hd
      exact inScope_drop (inScope_rc d.body d.args _ _ (hs d hd).2)
    · simp only [List.mem_map] at hd
      obtain ⟨d, hd, rfl⟩ := hd
      exact (hs d hd).1
  · cases hq

/-! ### C28: freed blocks are not used -/

/-- A compiled program never uses a block after it is freed, whatever its arguments and whatever native code answers. -/
theorem c28_no_use_after_free_partial (p q : Program) (hr : p.ready) (hq : rcProgram p = some q) (w : World) (fuel : Nat) (g : Name)
    (args : List Obs) : q.hrun w fuel g args ≠ .fault := by
  obtain ⟨G, h⟩ := hrun_post w (rcProgram_linear hr hq) fuel g args
  intro e
  rw [e] at h
  exact h

theorem hrun_outcome {q : Program} (hq : q.linear) (w : World) (fuel : Nat) (g : Name) (args : List Obs) :
    (q.hrun w fuel g args).outcome = some (q.run w captureEnvironment fuel g args).outcome := by
  obtain ⟨G, h⟩ := hrun_post w hq fuel g args
  cases e : q.hrun w fuel g args with
  | ok v h' l =>
    rw [e] at h
    obtain ⟨G', e1, g1, _⟩ := h
    rw [e1]
    simp only [HR.outcome]
    rw [g1.viewAll (vs := [v]) fun a ha => by simpa [addrsOf] using ha]
    simp [Value.obsList, R.outcome]
  | ret => rw [e] at h; exact h.elim
  | timeout => rw [e] at h; have : q.run w captureEnvironment fuel g args = .timeout := h; rw [this]; rfl
  | stuck => rw [e] at h; have : q.run w captureEnvironment fuel g args = .stuck := h; rw [this]; rfl
  | fault => rw [e] at h; exact h.elim

/-- A compiled program with its heap does what the source program without any heap does: record updates in place and early
frees are not visible. -/
theorem c28_heap_refines_partial (p q : Program) (hr : p.ready) (hq : rcProgram p = some q) (w : World) (fuel : Nat) (g : Name)
    (args : List Obs) :
    (q.hrun w fuel g args).outcome = some (p.run w captureEnvironment fuel g args).outcome := by
  rw [hrun_outcome (rcProgram_linear hr hq)]
  have h1 := run_erase w q fuel g args
  rw [erase_rcProgram hq] at h1
  rw [h1, outcome_mapR]

/-! ### C29: nothing is leaked -/

/-- When a call from native code returns, the only blocks are those its result needs: once the result is dropped, none is
left, including those of its arguments. This holds for early returns as well. -/
theorem c29_no_leak_partial (p q : Program) (hr : p.ready) (hq : rcProgram p = some q) (w : World) (fuel : Nat) (g : Name)
    (args : List Obs) (v : HVal) (h : Heap) (l : Log) (hok : q.hrun w fuel g args = .ok v h l) :
    ∃ h', h.release v.addrs = some h' ∧ h'.live = 0 := by
  obtain ⟨G, hp⟩ := hrun_post w (rcProgram_linear hr hq) fuel g args
  rw [hok] at hp
  obtain ⟨G', _, g1, _⟩ := hp
  obtain ⟨h', e, g2⟩ := Good.release h v.addrs (R := 0) (g1.of_eq (by simp))
  exact ⟨h', e, g2.empty⟩

/-- Calls always return: `return` is only inside functions. -/
theorem c29_returns_partial (p q : Program) (hr : p.ready) (hq : rcProgram p = some q) (w : World) (fuel : Nat) (g : Name)
    (args : List Obs) (v : HVal) (h : Heap) (l : Log) : q.hrun w fuel g args ≠ .ret v h l := by
  obtain ⟨G, hp⟩ := hrun_post w (rcProgram_linear hr hq) fuel g args
  intro e
  rw [e] at hp
  exact hp

/-! ### Examples -/

/-- `\(x, c) { k = \(y) { record(x, y) }; v = try c; z = if v { k("a") } else { record(x, x) }; update(z, 0 := "b") }` -/
def sampleCounting : Program where
  foreign := []
  globals := [⟨"g", ["x", "c"], false,
    .letRec "k" ["x"] ["y"] false (.op (.record "r") (.cons (.variable "x") (.cons (.variable "y") .nil)))
      (.let_ "v" (.try_ (.variable "c") "e" "error" (.op (.variant "error") (.cons (.variable "e") .nil)))
        (.let_ "z" (.case (.variable "v")
            (.cons (some ["boolean"]) "b" (.if_ (.variable "b")
              (.op .call (.cons (.variable "k") (.cons (.literal (.string [1])) .nil)))
              (.op (.record "r") (.cons (.variable "x") (.cons (.variable "x") .nil)))) .nil))
          (.op (.update [0]) (.cons (.variable "z") (.cons (.literal (.string [2])) .nil)))))⟩]
  typeInformation := id

theorem sampleCounting_ready : sampleCounting.ready := by
  intro d hd
  simp only [sampleCounting, List.mem_singleton] at hd
  subst hd
  refine ⟨by decide, ?_⟩
  simp [ready, readyExprs, readyAlts, Op.normal, Exprs.atoms, Exprs.atomsButLast]

theorem sampleCounting_scoped : sampleCounting.scoped := by
  intro d hd
  simp only [sampleCounting, List.mem_singleton] at hd
  subst hd
  simp [Program.isGlobal, Program.find, sampleCounting, inScope, inScopeExprs, inScopeAlts]

example : ∃ q, rcProgram sampleCounting = some q ∧ validateProgram q = true :=
  c27_validate_partial _ sampleCounting_ready sampleCounting_scoped

/-- Both ways out of the function. -/
example : ((sampleCounting.run sampleWorld captureEnvironment 9 "g" [.string [7], .variant "boolean" (.boolean false)]).outcome =
      .value (.record "r" [.string [2], .string [7]]) []) ∧
    (sampleCounting.run sampleWorld captureEnvironment 9 "g" [.string [7], .variant "error" (.string [8])]).outcome =
      .value (.variant "error" (.string [8])) [] := ⟨rfl, rfl⟩

/-! ### A leak -/

/-- All passes before reference counting: lib/mir-fmm/src/lib.rs:32-37. -/
def earlierPasses (p : Program) : Program :=
  liftProgram (inferProgram (normalizeProgram (alphaProgram (flattenProgram p))))

/-- `\(x, c) { y = if true { x = 1; c? } else { none }; record(x, y) }`. The inner `x` is not renamed by alpha conversion,
because arguments of global functions are not counted there. -/
def leaky : Program where
  foreign := []
  globals := [⟨"g", ["x", "c"], false,
    .let_ "y" (.if_ (.literal (.boolean true))
        (.let_ "x" (.literal (.number 1))
          (.try_ (.variable "c") "e" "error" (.op (.variant "error") (.cons (.variable "e") .nil))))
        (.op (.variant "none") (.cons (.literal .none) .nil)))
      (.op (.record "r") (.cons (.variable "x") (.cons (.variable "y") .nil)))⟩]
  typeInformation := id

/-- The compiled body: nothing drops the outer `x` when `c` is an error. -/
def leakyBody : Expr :=
  .let_ "y" (.if_ (.literal (.boolean true))
      (.let_ "x" (.literal (.number 1))
        (.drop ["x"] (.try_ (.variable "c") "e" "error" (.op (.variant "error") (.cons (.variable "e") .nil)))))
      (.drop ["c"] (.op (.variant "none") (.cons (.literal .none) .nil))))
    (.op (.record "r") (.cons (.variable "x") (.cons (.variable "y") .nil)))

def leakyCompiled : Program := { leaky with globals := [⟨"g", ["x", "c"], false, leakyBody⟩] }

theorem release_last {h : Heap} {a : Addr} {as : List Addr} {b : Block} (hc : h.cell a = some ⟨1, b⟩) :
    h.release (a :: as) = (h.put a none).release (addrsOf b.fields ++ as) := by
  rw [Heap.release]
  split
  · rename_i c hc'
    rw [hc] at hc'
    cases hc'
    simp
  · rename_i hc'
    rw [hc] at hc'
    cases hc'

/-- Without the condition that no local variable is bound in the scope of another one of the same name, C29 is false: the
whole compiler turns this program, whose names are those a user may write, into one that the validator accepts and that
leaks its argument, a string. -/
theorem c29_leak_with_shadowing :
    (∀ d ∈ leaky.globals, ∀ x ∈ names d.body, SourceName x) ∧ rcProgram (earlierPasses leaky) = some leakyCompiled ∧
    validateProgram leakyCompiled = true ∧
    ∃ v h l h', leakyCompiled.hrun sampleWorld 9 "g" [.string [7], .variant "error" (.string [8])] = .ok v h l ∧
      h.release v.addrs = some h' ∧ h'.live = 1 := by
  refine ⟨?_, rfl, rfl, .variant "error" (.pointer 1), [some ⟨1, .string [7]⟩, some ⟨1, .string [8]⟩], [],
    [some ⟨1, .string [7]⟩, none], ?_, ?_, rfl⟩
  · intro d hd
    simp only [leaky, List.mem_singleton] at hd
    subst hd
    intro x hx
    refine sourceName_of_no_colon ?_
    revert x
    decide
  · simp [Program.hrun, leakyCompiled, Heap.allocObsList, Heap.allocObs, happly, Program.find, leakyBody, heval, hevals,
      HEnv.setMany, HEnv.set, HR.ofOption, hlookup, HR.bind, HR.heap, HEnv.values, addrsOf, Heap.release, Literal.hvalue,
      Heap.alloc, HVal.addrs, Op.scalar]
    rfl
  · change Heap.release _ [1] = _
    rw [release_last (b := .string [8]) rfl]
    simp [Heap.put, Block.fields, addrsOf, Heap.release]

end Verif.Mir
