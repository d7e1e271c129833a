/-
Model of the operator grammar of Pen: binary operators and their priorities, and the function
that turns a chain of binary operations into a tree.

Modelled code
* `lib/ast/src/ast/binary_operator.rs`, `lib/ast/src/analysis.rs:27-40`
* `lib/parse/src/operations.rs:11-50`
-/

namespace Verif.Parse

/-- `lib/ast/src/ast/binary_operator.rs` (`BinaryOperator`). -/
inductive BinOp where
  | or | and
  | equal | notEqual | lessThan | lessThanOrEqual | greaterThan | greaterThanOrEqual
  | add | subtract | multiply | divide
deriving DecidableEq, Repr

/-- `lib/ast/src/analysis.rs:27-40` (`operator_priority`). -/
def BinOp.priority : BinOp → Nat
  | .or => 1
  | .and => 2
  | .equal | .notEqual | .lessThan | .lessThanOrEqual | .greaterThan | .greaterThanOrEqual => 3
  | .add | .subtract => 4
  | .multiply | .divide => 5

/-- Expressions (`lib/ast/src/ast/expression.rs`, `Expression`).  Simplified: every expression that starts
and ends with its own delimiters or is a single lexeme (variables, literals, lambdas,
conditionals, lists, maps, records) is an atom identified by a number; positions are dropped.
The operator forms are kept: binary operations, `!`, `?`, calls and field accesses. -/
inductive Expr where
  | atom (identifier : Nat)
  | binary (operator : BinOp) (lhs rhs : Expr)
  | not (operand : Expr)
  | try_ (operand : Expr)
  | call (function : Expr) (arguments : List Expr)
  | field (record : Expr) (name : Nat)
deriving Repr

/-- `pairs.split_at(pairs.iter().position(|pair| p(pair)).unwrap_or(pairs.len()))`,
`lib/parse/src/operations.rs:31-38`: split before the first pair that satisfies `p`. -/
def splitBefore {α : Type} (p : α → Bool) : List α → List α × List α
  | [] => ([], [])
  | x :: xs =>
    if p x then ([], x :: xs)
    else (x :: (splitBefore p xs).1, (splitBefore p xs).2)

theorem splitBefore_append {α : Type} (p : α → Bool) (xs : List α) :
    (splitBefore p xs).1 ++ (splitBefore p xs).2 = xs := by
  induction xs with
  | nil => rfl
  | cons x xs ih =>
    unfold splitBefore
    split
    · rfl
    · simp [ih]

theorem splitBefore_head {α : Type} (p : α → Bool) (xs : List α) :
    ∀ x ∈ (splitBefore p xs).1, p x = false := by
  induction xs with
  | nil => simp [splitBefore]
  | cons x xs ih =>
    unfold splitBefore
    split
    · simp
    · rename_i h
      intro y hy
      rcases List.mem_cons.1 hy with rfl | hy
      · simpa using h
      · exact ih y hy

theorem splitBefore_tail {α : Type} (p : α → Bool) (xs : List α) :
    ∀ x r, (splitBefore p xs).2 = x :: r → p x = true := by
  induction xs with
  | nil => simp [splitBefore]
  | cons x xs ih =>
    unfold splitBefore
    split
    · rename_i h
      intro y r e
      cases e
      exact h
    · exact ih

theorem splitBefore_lengths {α : Type} (p : α → Bool) (xs : List α) :
    (splitBefore p xs).1.length + (splitBefore p xs).2.length = xs.length := by
  have := congrArg List.length (splitBefore_append p xs)
  simpa using this

/-- `lib/parse/src/operations.rs:11-50` (`reduce_operations`). -/
def reduceOperations (lhs : Expr) (pairs : List (BinOp × Expr)) : Expr :=
  match pairs with
  | [] => lhs
  | [(operator, rhs)] => .binary operator lhs rhs
  | (operator, rhs) :: next :: rest =>
    if operator.priority ≥ next.1.priority then
      reduceOperations (.binary operator lhs rhs) (next :: rest)
    else
      reduceOperations
        (.binary operator lhs
          (reduceOperations rhs
            (splitBefore (fun pair => decide (pair.1.priority ≤ operator.priority))
              (next :: rest)).1))
        (splitBefore (fun pair => decide (pair.1.priority ≤ operator.priority)) (next :: rest)).2
  termination_by pairs.length
  decreasing_by
  · simp
  · have := splitBefore_lengths (fun pair => decide (pair.1.priority ≤ operator.priority))
      (next :: rest)
    simp at this ⊢
    omega
  · have := splitBefore_lengths (fun pair => decide (pair.1.priority ≤ operator.priority))
      (next :: rest)
    simp at this ⊢
    omega

end Verif.Parse
