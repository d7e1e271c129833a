import Verif.Tests.Assert
/-
C75: assertions and states of tests.
-/
namespace Verif.Tests.Assert

open Verif.Lower (Data bytes both)
open Verif.Core

/-! ### Specification -/

mutual
/-- Two values are the same: of the same type, with the same contents, as far as `==` tells numbers apart, and without
functions. -/
inductive Same : Data → Data → Prop
  | none : Same .none .none
  | boolean (b : Bool) : Same (.boolean b) (.boolean b)
  | number {a b : UInt64} : Numbers.isNan a.toBitVec = false → Numbers.isNan b.toBitVec = false →
      Numbers.units a.toBitVec = Numbers.units b.toBitVec → Same (.number a) (.number b)
  | string (s : List UInt8) : Same (.string s) (.string s)
  | error {d e : Data} : Same d e → Same (.error d) (.error e)
  | record {n : String} {ds es : List Data} : SameAll ds es → Same (.record n ds) (.record n es)
inductive SameAll : List Data → List Data → Prop
  | nil : SameAll [] []
  | cons {d e : Data} {ds es : List Data} : Same d e → SameAll ds es → SameAll (d :: ds) (e :: es)
end

theorem both_true {x y : Option Bool} : both x y = some true ↔ x = some true ∧ y = some true := by
  cases x with
  | none => simp [both]
  | some a => cases y with
    | none => simp [both]
    | some b => cases a <;> cases b <;> simp [both]

mutual
theorem equal_iff : ∀ d e : Data, d.equal sameNumber e = some true ↔ Same d e
  | .none, e => by
    cases e <;> simp [Data.equal] <;> first | exact .none | (intro h; cases h)
  | .boolean a, e => by
    cases e with
    | boolean b =>
      simp only [Data.equal, Option.some.injEq, beq_iff_eq]
      exact ⟨fun h => h ▸ .boolean a, fun h => by cases h; rfl⟩
    | _ => simp [Data.equal]; intro h; cases h
  | .number a, e => by
    cases e with
    | number b =>
      simp only [Data.equal, Option.some.injEq, sameNumber, Numbers.equal, Bool.and_eq_true, Bool.not_eq_true',
        decide_eq_true_eq]
      exact ⟨fun h => .number h.1.1 h.1.2 h.2, fun h => by cases h with | number h1 h2 h3 => exact ⟨⟨h1, h2⟩, h3⟩⟩
    | _ => simp [Data.equal]; intro h; cases h
  | .string a, e => by
    cases e with
    | string b =>
      simp only [Data.equal, Option.some.injEq, beq_iff_eq]
      exact ⟨fun h => h ▸ .string a, fun h => by cases h; rfl⟩
    | _ => simp [Data.equal]; intro h; cases h
  | .error d, e => by
    cases e with
    | error e' =>
      simp only [Data.equal]
      rw [equal_iff d e']
      exact ⟨.error, fun h => by cases h; assumption⟩
    | _ => simp [Data.equal]; intro h; cases h
  | .record n ds, e => by
    cases e with
    | record m es =>
      simp only [Data.equal]
      by_cases hn : n = m
      · subst hn
        rw [if_pos rfl, equalAll_iff ds es]
        exact ⟨.record, fun h => by cases h; assumption⟩
      · rw [if_neg hn]
        simp
        intro h; cases h; exact hn rfl
    | _ => simp [Data.equal]; intro h; cases h
  | .function as r f, e => by
    cases e with
    | function bs s g =>
      simp only [Data.equal]
      constructor
      · split <;> simp
      · intro h; cases h
    | _ => simp [Data.equal]; intro h; cases h
theorem equalAll_iff : ∀ ds es : List Data, Data.equalAll sameNumber ds es = some true ↔ SameAll ds es
  | [], [] => by simp [Data.equalAll]; exact .nil
  | [], _ :: _ => by simp [Data.equalAll]; intro h; cases h
  | _ :: _, [] => by simp [Data.equalAll]; intro h; cases h
  | d :: ds, e :: es => by
    simp only [Data.equalAll]
    rw [both_true, equal_iff d e, equalAll_iff ds es]
    exact ⟨fun h => .cons h.1 h.2, fun h => by cases h with | cons h1 h2 => exact ⟨h1, h2⟩⟩
end

/-- `Assert'Equal` results in `none` exactly if its arguments are the same, and otherwise in an error with a message
that ends with the texts of both. -/
theorem c75_assert_equal (debug : Data → List UInt8) (x y : Data) :
    (assertEqual debug x y = .none ↔ Same x y) ∧
    (¬ Same x y → ∃ s, assertEqual debug x y = .error (.string (s ++
      (bytes "(found: " ++ debug x ++ bytes ") (expected: " ++ debug y ++ bytes ")")))) := by
  have h := equal_iff x y
  unfold assertEqual
  split
  · rename_i b hb
    rw [hb] at h
    cases b with
    | true => exact ⟨by simpa using h, fun hn => absurd (h.mp rfl) hn⟩
    | false => exact ⟨by simpa using h, fun _ => ⟨_, rfl⟩⟩
  · rename_i hb
    rw [hb] at h
    exact ⟨by simpa using h, fun _ => ⟨_, rfl⟩⟩

/-- The other assertions: `Assert'True` results in `none` exactly for true, `Assert'Error` exactly for errors,
`Assert'Fail` never. -/
theorem c75_assertions (debug : Data → List UInt8) :
    (∀ b, assertTrue b = .none ↔ b = true) ∧ (∀ x, assertError debug x = .none ↔ ∃ e, x = .error e) ∧
    (∃ s, fail = .error (.string s)) := by
  refine ⟨fun b => by cases b <;> simp [assertTrue], fun x => ?_, ⟨_, rfl⟩⟩
  cases x <;> simp [assertError]

/-- Assertions of equality of a number that is not a number with itself fail. -/
theorem c75_nan_is_not_equal_to_itself (debug : Data → List UInt8) :
    assertEqual debug (.number 0x7FF8000000000000) (.number 0x7FF8000000000000) ≠ .none := by
  rw [Ne, (c75_assert_equal debug _ _).1, ← equal_iff]
  decide +kernel

/-- Assertions of equality of different 64-bit integers, zero and `2 ^ 63`, pass. -/
theorem c75_different_integers_are_equal (debug : Data → List UInt8) :
    assertEqual debug (.number 0) (.number 0x8000000000000000) = .none := by
  rw [(c75_assert_equal debug _ _).1, ← equal_iff]
  decide +kernel

example : Same (.record "r" [.number 1, .string [65]]) (.record "r" [.number 1, .string [65]]) :=
  .record (.cons (.number (by decide +kernel) (by decide +kernel) rfl) (.cons (.string _) .nil))

/-! ### States -/

variable {α : Type}

/-- What the `get` operations of one thread result in, and what is in the state after them: each results in what
was set last, or in the default value. -/
def expected (current : α) : List (Operation α) → List α × α
  | [] => ([], current)
  | .get :: os => (current :: (expected current os).1, (expected current os).2)
  | .set x :: os => expected x os
  | .freeze :: os => expected current os

/-- The number of atomic steps of operations. -/
def steps : List (Operation α) → Nat
  | [] => 0
  | .get :: os => steps os + 2
  | _ :: os => steps os + 1

theorem one_thread (d : α) (os : List (Operation α)) (s : State α) (got : List α) :
    (List.replicate (steps os) 0).foldl (stepOf d) (s, [⟨none, os, got⟩]) =
      (⟨(expected s.cell os).2, s.frozen || os.any fun o => match o with | .freeze => true | _ => false⟩,
        [⟨none, [], got ++ (expected s.cell os).1⟩]) := by
  induction os generalizing s got with
  | nil => simp [steps, expected]
  | cons o os ih =>
    cases o with
    | get =>
      simp only [steps, List.replicate_succ, List.foldl_cons]
      simp only [stepOf, step, List.getElem?_cons_zero, List.set_cons_zero]
      rw [ih]
      simp [expected]
    | set x =>
      simp only [steps, List.replicate_succ, List.foldl_cons]
      simp only [stepOf, step, List.getElem?_cons_zero, List.set_cons_zero]
      rw [ih]
      simp [expected]
    | freeze =>
      simp only [steps, List.replicate_succ, List.foldl_cons]
      simp only [stepOf, step, List.getElem?_cons_zero, List.set_cons_zero]
      rw [ih]
      simp [expected]

/-- If one thread uses a state, every `Get` results in what was set last, or in `none`; freezing makes no
difference. -/
theorem c75_states_of_one_thread (d : α) (os : List (Operation α)) :
    ((schedule d [os] (List.replicate (steps os) 0)).2.map (·.got)) = [(expected d os).1] := by
  unfold schedule
  rw [List.map_cons, List.map_nil, one_thread]
  simp

/-- Values that threads may see. -/
def Known (d : α) (threads : List (List (Operation α))) (x : α) : Prop :=
  x = d ∨ ∃ os ∈ threads, Operation.set x ∈ os

/-- All values of a configuration are known. -/
def AllKnown (d : α) (threads : List (List (Operation α))) (c : State α × List (Thread α)) : Prop :=
  Known d threads c.1.cell ∧ ∀ t ∈ c.2, (∀ v ∈ t.pending, Known d threads v) ∧ (∀ v ∈ t.got, Known d threads v) ∧
    ∀ x, Operation.set x ∈ t.operations → Known d threads x

theorem allKnown_step {d : α} {threads : List (List (Operation α))} {c : State α × List (Thread α)}
    (h : AllKnown d threads c) (i : Nat) : AllKnown d threads (stepOf d c i) := by
  unfold stepOf
  split
  · rename_i t ht
    have htm := h.2 t (List.mem_of_getElem? ht)
    obtain ⟨p, os, got⟩ := t
    have key : Known d threads (step d c.1 ⟨p, os, got⟩).1.cell ∧
        ((∀ v ∈ (step d c.1 ⟨p, os, got⟩).2.pending, Known d threads v) ∧
          (∀ v ∈ (step d c.1 ⟨p, os, got⟩).2.got, Known d threads v) ∧
          ∀ x, Operation.set x ∈ (step d c.1 ⟨p, os, got⟩).2.operations → Known d threads x) := by
      unfold step
      cases p with
      | some v =>
        refine ⟨htm.1 v rfl, by simp, ?_, htm.2.2⟩
        intro w hw
        rcases List.mem_append.mp hw with hw | hw
        · exact htm.2.1 w hw
        · rw [List.mem_singleton.mp hw]; exact htm.1 v rfl
      | none =>
        cases os with
        | nil => exact ⟨h.1, htm⟩
        | cons o os =>
          have hrest : ∀ x, Operation.set x ∈ os → Known d threads x := fun x hx =>
            htm.2.2 x (List.mem_cons_of_mem _ hx)
          cases o with
          | get => exact ⟨.inl rfl, by simpa using h.1, htm.2.1, hrest⟩
          | set x => exact ⟨htm.2.2 x (List.mem_cons_self ..), by simp, htm.2.1, hrest⟩
          | freeze => exact ⟨h.1, by simp, htm.2.1, hrest⟩
    refine ⟨key.1, fun t' ht' => ?_⟩
    rcases List.mem_or_eq_of_mem_set ht' with h' | rfl
    · exact h.2 t' h'
    · exact key.2
  · exact h

/-- Whatever threads do with a state, in any order, every `Get` results in `none` or in a value that is set by
one of them. -/
theorem c75_states_of_threads (d : α) (threads : List (List (Operation α))) (order : List Nat) :
    ∀ t ∈ (schedule d threads order).2, ∀ v ∈ t.got, v = d ∨ ∃ os ∈ threads, Operation.set v ∈ os := by
  have key : ∀ (order : List Nat) c, AllKnown d threads c → AllKnown d threads (order.foldl (stepOf d) c) := by
    intro order
    induction order with
    | nil => intro c h; exact h
    | cons i is ih => intro c h; exact ih _ (allKnown_step h i)
  intro t ht v hv
  refine ((key order _ ⟨.inl rfl, ?_⟩).2 t ht).2.1 v hv
  intro t ht
  obtain ⟨os, hos, rfl⟩ := List.mem_map.mp ht
  exact ⟨by simp, by simp, fun x hx => .inr ⟨os, hos, hx⟩⟩

/-- A `Set` can be lost: `1` is set while another thread gets the value; then the old value, `0`, is in the state. -/
theorem c75_set_is_lost : (schedule 0 [[.set 1, .get], [.get]] [1, 0, 1, 0, 0]).2.map (·.got) = [[0], [0]] := by
  decide +kernel

/-- A `Get` can miss what was set before: while another thread gets the value, the default value is in the state. -/
theorem c75_get_misses_value : (schedule 0 [[.set 1, .get], [.get]] [0, 0, 1, 1, 0]).2.map (·.got) = [[1], [0]] := by
  decide +kernel

/-- States can be changed after they are frozen. -/
theorem c75_frozen_states_change : (schedule 0 [[.freeze, .set 1, .get]] [0, 0, 0, 0]).2.map (·.got) = [[1]] ∧
    (schedule 0 [[.freeze, .set (1 : Nat), .get]] [0, 0, 0, 0]).1.frozen = true := by decide +kernel

example : (schedule 0 [[.get, .set 1, .get, .set 2, .freeze, .get]] (List.replicate 9 0)).2.map (·.got) =
    [[0, 1, 2]] := c75_states_of_one_thread 0 [.get, .set 1, .get, .set 2, .freeze, .get]

end Verif.Tests.Assert
