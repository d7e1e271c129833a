import Verif.Core.Lists
import Verif.Core.NumbersRange
import Verif.Prelude.ListProperties
/-
C74: functions on lists of the core package, and which elements they evaluate.
-/
namespace Verif.Core.Lists

open Verif.Prelude.Lists

variable {ε α β : Type}

/-! ### Specification -/

/-- A list of some cells, each with the events of its node and an element, and then the nodes `rest`. -/
def cells : List (List ε × Thunk ε α) → Nodes ε α → Nodes ε α
  | [], rest => rest
  | (log, x) :: cs, rest => .cons log x (cells cs rest)

/-- The events of nodes. -/
def nodeEvents : List (List ε × Thunk ε α) → List ε
  | [] => []
  | (log, _) :: cs => log ++ nodeEvents cs

/-- The events of nodes and their elements. -/
def allEvents : List (List ε × Thunk ε α) → List ε
  | [] => []
  | (log, x) :: cs => log ++ x.log ++ allEvents cs

/-- The values of elements. -/
def values (cs : List (List ε × Thunk ε α)) : List α := cs.map (·.2.val)

/-- All lists are of that form. -/
theorem exists_cells (n : Nodes ε α) : ∃ cs log, n = cells cs (.nil log) := by
  induction n with
  | nil log => exact ⟨[], log, rfl⟩
  | cons log x r ih => obtain ⟨cs, l, rfl⟩ := ih; exact ⟨(log, x) :: cs, l, rfl⟩

/-- Their sequences are those of the cells. -/
theorem seq_cells (cs : List (List ε × Thunk ε α)) (log : List ε) : Seq ⟨cells cs (.nil log)⟩ (cs.map (·.2)) := by
  induction cs with
  | nil => exact seq_nil_iff.mpr rfl
  | cons c cs ih => exact seq_cons_iff.mpr ⟨_, rfl, ih⟩

/-! ### Booleans -/

/-- `Any` is true if an element is true, and evaluates elements only up to the first one that is. -/
theorem c74_any_true (cs : List (List ε × Thunk ε Bool)) (hcs : ∀ c ∈ cs, c.2.val = false) (log : List ε)
    (x : Thunk ε Bool) (hx : x.val = true) (rest : Nodes ε Bool) :
    any (cells cs (.cons log x rest)) = (allEvents cs ++ (log ++ x.log), true) := by
  induction cs with
  | nil => simp [cells, any, hx, allEvents]
  | cons c cs ih =>
    obtain ⟨l, b⟩ := c
    have hb : b.val = false := hcs _ (List.mem_cons_self ..)
    simp [cells, any, hb, allEvents, ih fun c hc => hcs c (List.mem_cons_of_mem _ hc)]

/-- `Any` is false if all elements are false, and evaluates all of them in order. -/
theorem c74_any_false (cs : List (List ε × Thunk ε Bool)) (hcs : ∀ c ∈ cs, c.2.val = false) (log : List ε) :
    any (cells cs (.nil log)) = (allEvents cs ++ log, false) := by
  induction cs with
  | nil => simp [cells, any, allEvents]
  | cons c cs ih =>
    obtain ⟨l, b⟩ := c
    have hb : b.val = false := hcs _ (List.mem_cons_self ..)
    simp [cells, any, hb, allEvents, ih fun c hc => hcs c (List.mem_cons_of_mem _ hc)]

/-- `All` is false if an element is false, and evaluates elements only up to the first one that is. -/
theorem c74_all_false (cs : List (List ε × Thunk ε Bool)) (hcs : ∀ c ∈ cs, c.2.val = true) (log : List ε)
    (x : Thunk ε Bool) (hx : x.val = false) (rest : Nodes ε Bool) :
    all (cells cs (.cons log x rest)) = (allEvents cs ++ (log ++ x.log), false) := by
  induction cs with
  | nil => simp [cells, all, hx, allEvents]
  | cons c cs ih =>
    obtain ⟨l, b⟩ := c
    have hb : b.val = true := hcs _ (List.mem_cons_self ..)
    simp [cells, all, hb, allEvents, ih fun c hc => hcs c (List.mem_cons_of_mem _ hc)]

/-- `All` is true if all elements are true, and evaluates all of them in order. -/
theorem c74_all_true (cs : List (List ε × Thunk ε Bool)) (hcs : ∀ c ∈ cs, c.2.val = true) (log : List ε) :
    all (cells cs (.nil log)) = (allEvents cs ++ log, true) := by
  induction cs with
  | nil => simp [cells, all, allEvents]
  | cons c cs ih =>
    obtain ⟨l, b⟩ := c
    have hb : b.val = true := hcs _ (List.mem_cons_self ..)
    simp [cells, all, hb, allEvents, ih fun c hc => hcs c (List.mem_cons_of_mem _ hc)]

/-- `Any` and `All` as functions of the elements of any list. -/
theorem c74_any_all {n : Nodes ε Bool} {xs : List (Thunk ε Bool)} (h : Seq ⟨n⟩ xs) :
    ((any n).2 = true ↔ ∃ x ∈ xs, x.val = true) ∧ ((all n).2 = true ↔ ∀ x ∈ xs, x.val = true) := by
  induction n generalizing xs with
  | nil log => rw [seq_nil_iff] at h; subst h; simp [any, all]
  | cons log x r ih =>
    obtain ⟨ys, rfl, hs⟩ := seq_cons_iff.mp h
    have := ih hs
    cases hx : x.val <;> simp [any, all, hx, this]

/-! ### First and last elements -/

/-- `First` evaluates only the first element. -/
theorem c74_first (log : List ε) (x : Thunk ε α) (rest : Nodes ε α) (fallback : α) :
    first (.cons log x rest) fallback = (log ++ x.log, x.val) ∧
    first (.nil log : Nodes ε α) fallback = (log, fallback) := ⟨rfl, rfl⟩

theorem lastOf_cells (cs : List (List ε × Thunk ε α)) (log : List ε) (x : Thunk ε α) (end_ : List ε) (y : Thunk ε α) :
    lastOf (cells cs (.cons log x (.nil end_))) y = (nodeEvents cs ++ (log ++ (end_ ++ x.log)), x.val) := by
  induction cs generalizing y with
  | nil => simp [cells, lastOf, nodeEvents]
  | cons c cs ih => obtain ⟨l, b⟩ := c; simp [cells, lastOf, nodeEvents, ih]

/-- `Last` goes through all nodes but evaluates only the last element, once. -/
theorem c74_last (cs : List (List ε × Thunk ε α)) (log : List ε) (x : Thunk ε α) (end_ : List ε) (fallback : α) :
    last (cells cs (.cons log x (.nil end_))) fallback = (nodeEvents cs ++ (log ++ (end_ ++ x.log)), x.val) ∧
    last (.nil end_ : Nodes ε α) fallback = (end_, fallback) := by
  refine ⟨?_, rfl⟩
  cases cs with
  | nil => simp [cells, last, lastOf, nodeEvents]
  | cons c cs => obtain ⟨l, b⟩ := c; simp [cells, last, nodeEvents, lastOf_cells]

/-! ### Lists of values of one type -/

theorem seq_filterType (asT : α → Option β) (n : Nodes ε α) {xs : List (Thunk ε α)} (h : Seq ⟨n⟩ xs) :
    Seq (filterType asT n).2 ((xs.filterMap fun x => asT x.val).map fun y => ⟨[], y⟩) := by
  induction n generalizing xs with
  | nil log => rw [seq_nil_iff] at h; subst h; exact seq_nil_iff.mpr rfl
  | cons log x r ih =>
    obtain ⟨ys, rfl, hs⟩ := seq_cons_iff.mp h
    have := ih hs
    unfold filterType
    split
    · rename_i y hy
      simp only [List.filterMap_cons, hy, List.map_cons]
      exact seq_cons_iff.mpr ⟨_, rfl, seq_delay.mpr this⟩
    · rename_i hy
      simpa only [List.filterMap_cons, hy] using this

/-- `ToNumbers` and the like result in the elements of the type, in order. -/
theorem c74_values_of_a_type (asT : α → Option β) {n : Nodes ε α} {xs : List (Thunk ε α)} (h : Seq ⟨n⟩ xs) :
    Seq (filterType asT n).2 ((xs.filterMap fun x => asT x.val).map fun y => ⟨[], y⟩) := seq_filterType asT n h

/-- Their calls evaluate elements up to the first one of the type; what comes after it is evaluated when the rest of
the result is looked at, and is the result of the same function on the rest of the list. -/
theorem c74_values_of_a_type_are_lazy (asT : α → Option β) (cs : List (List ε × Thunk ε α))
    (hcs : ∀ c ∈ cs, asT c.2.val = none) (log : List ε) (x : Thunk ε α) {y : β} (hx : asT x.val = some y)
    (rest : Nodes ε α) :
    (filterType asT (cells cs (.cons log x rest))).1 = allEvents cs ++ (log ++ x.log) ∧
    firstRest (filterType asT (cells cs (.cons log x rest))).2 =
      ([], some (⟨[], y⟩, lazyList ⟨(filterType asT rest).1, (filterType asT rest).2⟩)) := by
  induction cs with
  | nil => simp [cells, filterType, hx, allEvents, firstRest, prependToList, force]
  | cons c cs ih =>
    obtain ⟨l, b⟩ := c
    have hb : asT b.val = none := hcs _ (List.mem_cons_self ..)
    have := ih fun c hc => hcs c (List.mem_cons_of_mem _ hc)
    simp [cells, filterType, hb, allEvents, this]

/-- The events of going through the nodes of a list. -/
def spineEvents : Nodes ε α → List ε
  | .nil log => log
  | .cons log _ r => log ++ spineEvents r

theorem spineEvents_delay (log : List ε) (n : Nodes ε α) : spineEvents (delay log n) = log ++ spineEvents n := by
  cases n <;> simp [delay, spineEvents]

/-- Going through the result evaluates each node and each element of the list once, in order. -/
theorem c74_values_of_a_type_once (asT : α → Option β) (cs : List (List ε × Thunk ε α)) (log : List ε) :
    (filterType asT (cells cs (.nil log))).1 ++ spineEvents (filterType asT (cells cs (.nil log))).2.node =
      allEvents cs ++ log := by
  induction cs with
  | nil => simp [cells, filterType, allEvents, emptyList, spineEvents]
  | cons c cs ih =>
    obtain ⟨l, x⟩ := c
    unfold cells filterType
    split
    · simp [prependToList, lazyList, spineEvents, spineEvents_delay, allEvents, ← ih]
    · simp [allEvents, ← ih]

/-! ### Sums -/

theorem sumRecursive_cells (cs : List (List ε × Thunk ε Numbers.Number)) (log : List ε) (s : Numbers.Number) :
    sumRecursive (cells cs (.nil log)) s = (allEvents cs ++ log, Numbers.sumRecursive (values cs) s) := by
  induction cs generalizing s with
  | nil => simp [cells, sumRecursive, allEvents, values, Numbers.sumRecursive]
  | cons c cs ih =>
    obtain ⟨l, x⟩ := c
    simp [cells, sumRecursive, allEvents, values, Numbers.sumRecursive, ih]

/-- `Sum` evaluates all elements once, in order; its value is the sum of numbers (see C73). -/
theorem c74_sum (cs : List (List ε × Thunk ε Numbers.Number)) (log : List ε) :
    sum (cells cs (.nil log)) = (allEvents cs ++ log, Numbers.sum (values cs)) := sumRecursive_cells cs log _

/-- A sum of integers in a list of any order of evaluation is their sum, if all partial sums are at most
`2 ^ 53`. -/
theorem c74_sum_of_integers (cs : List (List ε × Thunk ε Numbers.Number)) (log : List ε) {ns : List Int}
    (h : List.Forall₂ Numbers.IsInteger (values cs) ns) (hb : ∀ k, ((ns.take k).sum).natAbs ≤ 2 ^ 53) :
    Numbers.IsInteger (sum (cells cs (.nil log))).2 ns.sum := by
  rw [c74_sum]; exact Numbers.c73_sum h hb

/-! ### Examples -/

/-- Elements that print their names when they are evaluated. -/
def exampleBooleans : List (List String × Thunk String Bool) := [(["node 1"], ⟨["a"], false⟩), ([], ⟨["b"], false⟩)]

example (rest : Nodes String Bool) :
    any (cells exampleBooleans (.cons ["node 3"] ⟨["c"], true⟩ rest)) =
      (["node 1", "a", "b", "node 3", "c"], true) :=
  c74_any_true exampleBooleans (by simp [exampleBooleans]) _ _ rfl rest

example : last (cells exampleBooleans (.cons ["node 3"] ⟨["c"], true⟩ (.nil ["end"]))) false =
    (["node 1", "node 3", "end", "c"], true) := (c74_last exampleBooleans _ _ _ false).1

example (rest : Nodes String Nat) :
    (filterType (fun n => if n % 2 = 0 then some (n / 2) else none)
      (cells [(["1"], ⟨["one"], 1⟩)] (.cons ["2"] ⟨["two"], 4⟩ rest))).1 = ["1", "one", "2", "two"] :=
  (c74_values_of_a_type_are_lazy _ _ (by simp) _ _ (y := 2) rfl rest).1

example : Numbers.IsInteger (sum (cells [(["1"], ⟨["one"], Numbers.literal 1⟩), ([], ⟨[], Numbers.literal 2⟩)]
    (.nil []))).2 3 :=
  c74_sum_of_integers (ns := [1, 2]) _ _
    (.cons (Numbers.isInteger_literal (by norm_num)) (.cons (Numbers.isInteger_literal (by norm_num)) .nil))
    fun k => by match k with
      | 0 => simp
      | 1 => simp
      | k + 2 => simp

end Verif.Core.Lists
