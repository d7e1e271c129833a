import Verif.Parse.Operations

/-
Chains of binary operations, for any type of operands.

Modelled code
* `lib/parse/src/operations.rs:11-50` (`reduce_operations`)

This is the function of `Verif/Parse/Operations.lean` (C36), where operands are opaque, for
expressions of the whole syntax.
-/

namespace Verif.Grammar

open Verif.Parse (BinOp splitBefore splitBefore_lengths splitBefore_append splitBefore_head
  splitBefore_tail)

/-- `lib/parse/src/operations.rs:11-50` (`reduce_operations`); `mk` is `BinaryOperation::new`. -/
def reduceOperations {E : Type} (mk : BinOp → E → E → E) (lhs : E) (pairs : List (BinOp × E)) : E :=
  match pairs with
  | [] => lhs
  | [(operator, rhs)] => mk operator lhs rhs
  | (operator, rhs) :: next :: rest =>
    if operator.priority ≥ next.1.priority then
      reduceOperations mk (mk operator lhs rhs) (next :: rest)
    else
      reduceOperations mk
        (mk operator lhs
          (reduceOperations mk rhs
            (splitBefore (fun pair => decide (pair.1.priority ≤ operator.priority))
              (next :: rest)).1))
        (splitBefore (fun pair => decide (pair.1.priority ≤ operator.priority)) (next :: rest)).2
  termination_by pairs.length
  decreasing_by
  · simp
  · have := splitBefore_lengths (fun pair => decide (pair.1.priority ≤ operator.priority))
      (next :: rest)
    simp at this ⊢
    omega
  · have := splitBefore_lengths (fun pair => decide (pair.1.priority ≤ operator.priority))
      (next :: rest)
    simp at this ⊢
    omega

/-- Trees of binary operators over operands. -/
inductive Tree (E : Type) where
  | leaf (operand : E)
  | node (operator : BinOp) (lhs rhs : Tree E)

namespace Tree

variable {E : Type}

/-- The expression a tree stands for. -/
def expression (mk : BinOp → E → E → E) : Tree E → E
  | .leaf e => e
  | .node o l r => mk o (l.expression mk) (r.expression mk)

/-- The left-most operand of a tree. -/
def first : Tree E → E
  | .leaf e => e
  | .node _ l _ => l.first

/-- The operators of a tree from left to right, each with the operand that follows it. -/
def pairs : Tree E → List (BinOp × E)
  | .leaf _ => []
  | .node o l r => l.pairs ++ (o, r.first) :: r.pairs

/-- A tree groups its operands by priority, and to the left among equal priorities. -/
def Grouped : Tree E → Prop
  | .leaf _ => True
  | .node o l r =>
    l.Grouped ∧ r.Grouped ∧
    (∀ o' l' r', l = .node o' l' r' → o.priority ≤ o'.priority) ∧
    (∀ o' l' r', r = .node o' l' r' → o.priority < o'.priority)

end Tree

theorem Tree.Grouped.pairs_ge {E : Type} {t : Tree E} (h : t.Grouped) :
    ∀ o l r, t = .node o l r → ∀ p ∈ t.pairs, o.priority ≤ p.1.priority := by
  induction t with
  | leaf e => intro o l r e'; cases e'
  | node o l r ihl ihr =>
    intro o' l' r' e p hp
    cases e
    obtain ⟨hl, hr, hle, hre⟩ := h
    simp only [Tree.pairs, List.mem_append, List.mem_cons] at hp
    rcases hp with hp | hp | hp
    · cases l with
      | leaf e => simp [Tree.pairs] at hp
      | node ol ll lr =>
        exact Nat.le_trans (hle _ _ _ rfl) (ihl hl _ _ _ rfl p hp)
    · subst hp; exact Nat.le_refl _
    · cases r with
      | leaf e => simp [Tree.pairs] at hp
      | node ol ll lr =>
        exact Nat.le_of_lt (Nat.lt_of_lt_of_le (hre _ _ _ rfl) (ihr hr _ _ _ rfl p hp))

theorem Tree.Grouped.left_ge {E : Type} {o : BinOp} {l r : Tree E} (h : (Tree.node o l r).Grouped) :
    ∀ p ∈ l.pairs, o.priority ≤ p.1.priority := by
  intro p hp
  obtain ⟨hl, hr, hle, hre⟩ := h
  cases l with
  | leaf e => simp [Tree.pairs] at hp
  | node ol ll lr => exact Nat.le_trans (hle _ _ _ rfl) (hl.pairs_ge _ _ _ rfl p hp)

theorem Tree.Grouped.right_gt {E : Type} {o : BinOp} {l r : Tree E} (h : (Tree.node o l r).Grouped) :
    ∀ p ∈ r.pairs, o.priority < p.1.priority := by
  intro p hp
  obtain ⟨hl, hr, hle, hre⟩ := h
  cases r with
  | leaf e => simp [Tree.pairs] at hp
  | node ol ll lr => exact Nat.lt_of_lt_of_le (hre _ _ _ rfl) (hr.pairs_ge _ _ _ rfl p hp)

/-- A chain of operands and operators has at most one precedence tree. -/
theorem grouped_unique {E : Type} {t u : Tree E} (ht : t.Grouped) (hu : u.Grouped)
    (hf : t.first = u.first) (hp : t.pairs = u.pairs) : t = u := by
  induction t generalizing u with
  | leaf e =>
    cases u with
    | leaf e' => simp [Tree.first] at hf; rw [hf]
    | node o l r => simp [Tree.pairs] at hp
  | node o l r ihl ihr =>
    cases u with
    | leaf e' => simp [Tree.pairs] at hp
    | node o' l' r' =>
      simp only [Tree.pairs] at hp
      have hlen : l.pairs = l'.pairs ∧ (o, r.first) :: r.pairs = (o', r'.first) :: r'.pairs := by
        rcases List.append_eq_append_iff.1 hp with ⟨s, h1, h2⟩ | ⟨s, h1, h2⟩
        · cases s with
          | nil => simp at h1 h2; exact ⟨h1.symm, by simp [h2]⟩
          | cons q s =>
            simp only [List.cons_append, List.cons.injEq] at h2
            have hq : q ∈ l'.pairs := by rw [h1]; simp
            have h3 := hu.left_ge q hq
            have h4 := ht.right_gt (o', r'.first) (by rw [h2.2]; simp)
            rw [← h2.1] at h3
            exact absurd (Nat.lt_of_lt_of_le h4 h3) (Nat.lt_irrefl _)
        · cases s with
          | nil => simp at h1 h2; exact ⟨h1, by simp [h2]⟩
          | cons q s =>
            simp only [List.cons_append, List.cons.injEq] at h2
            have hq : q ∈ l.pairs := by rw [h1]; simp
            have h3 := ht.left_ge q hq
            have h4 := hu.right_gt (o, r.first) (by rw [h2.2]; simp)
            rw [← h2.1] at h3
            exact absurd (Nat.lt_of_lt_of_le h4 h3) (Nat.lt_irrefl _)
      obtain ⟨h1, h2⟩ := hlen
      simp only [List.cons.injEq, Prod.mk.injEq] at h2
      obtain ⟨⟨rfl, h3⟩, h4⟩ := h2
      rw [ihl ht.1 hu.1 hf h1, ihr ht.2.1 hu.2.1 h3 h4]

/-- The invariant of `reduceOperations`: what was reduced so far is grouped, and binds at least
as tightly as the next operator. -/
theorem reduceOperations_grouped {E : Type} (mk : BinOp → E → E → E) :
    ∀ (n : Nat) (pairs : List (BinOp × E)), pairs.length ≤ n → ∀ t : Tree E, t.Grouped →
      (∀ o l r, t = .node o l r → ∀ p ps, pairs = p :: ps → p.1.priority ≤ o.priority) →
      ∃ u : Tree E, u.Grouped ∧ u.first = t.first ∧ u.pairs = t.pairs ++ pairs ∧
        reduceOperations mk (t.expression mk) pairs = u.expression mk := by
  intro n
  induction n with
  | zero =>
    intro pairs hn t ht hb
    have : pairs = [] := List.length_eq_zero_iff.1 (Nat.le_zero.1 hn)
    subst this
    exact ⟨t, ht, rfl, by simp, by unfold reduceOperations; rfl⟩
  | succ n ih =>
    intro pairs hn t ht hb
    match pairs, hn, hb with
    | [], _, _ => exact ⟨t, ht, rfl, by simp, by unfold reduceOperations; rfl⟩
    | [(o, x)], _, hb =>
      refine ⟨.node o t (.leaf x), ⟨ht, trivial, ?_, ?_⟩, rfl, rfl, ?_⟩
      · intro o' l' r' e
        exact hb o' l' r' e _ _ rfl
      · intro o' l' r' e; cases e
      · unfold reduceOperations; rfl
    | (o, x) :: next :: rest, hn, hb =>
      have hl : ∀ o' l' r', t = .node o' l' r' → o.priority ≤ o'.priority :=
        fun o' l' r' e => hb o' l' r' e _ _ rfl
      unfold reduceOperations
      split
      · rename_i hge
        obtain ⟨u, hu, hf, hp, he⟩ := ih (next :: rest) (by simp at hn ⊢; omega)
          (.node o t (.leaf x)) ⟨ht, trivial, hl, fun _ _ _ e => by cases e⟩
          (by intro o' l' r' e p ps e'; cases e; cases e'; exact hge)
        exact ⟨u, hu, hf, by rw [hp]; simp [Tree.pairs, Tree.first], he⟩
      · rename_i hlt
        generalize hs : splitBefore (fun pair : BinOp × E =>
          decide (pair.1.priority ≤ o.priority)) (next :: rest) = s
        have happ := splitBefore_append (fun pair : BinOp × E =>
          decide (pair.1.priority ≤ o.priority)) (next :: rest)
        have hhead := splitBefore_head (fun pair : BinOp × E =>
          decide (pair.1.priority ≤ o.priority)) (next :: rest)
        have htail := splitBefore_tail (fun pair : BinOp × E =>
          decide (pair.1.priority ≤ o.priority)) (next :: rest)
        rw [hs] at happ hhead htail
        have hlens := congrArg List.length happ
        simp only [List.length_append, List.length_cons] at hlens
        simp only [List.length_cons] at hn
        obtain ⟨v, hv, hvf, hvp, hve⟩ := ih s.1 (by omega) (.leaf x) trivial
          (fun _ _ _ e => by cases e)
        have hvgt : ∀ o' l' r', v = .node o' l' r' → o.priority < o'.priority := by
          intro o' l' r' e
          have : (o', r'.first) ∈ v.pairs := by rw [e]; simp [Tree.pairs]
          rw [hvp] at this
          simp only [Tree.pairs, List.nil_append] at this
          have := hhead _ this
          simpa using this
        obtain ⟨u, hu, hf, hp, he⟩ := ih s.2 (by omega) (.node o t v)
          ⟨ht, hv, hl, hvgt⟩
          (by
            intro o' l' r' e p ps e'
            cases e
            simpa using htail _ _ e')
        refine ⟨u, hu, hf, ?_, ?_⟩
        · rw [hp]
          simp only [Tree.pairs, hvf, hvp, Tree.first, List.nil_append, List.append_assoc,
            List.cons_append]
          rw [happ]
        · rw [← he]
          simp only [Tree.expression] at hve ⊢
          rw [hve]

/-- A grouped tree is what its chain is parsed to. -/
theorem reduceOperations_tree {E : Type} (mk : BinOp → E → E → E) (t : Tree E) (h : t.Grouped) :
    reduceOperations mk t.first t.pairs = t.expression mk := by
  obtain ⟨u, hu, hf, hp, he⟩ := reduceOperations_grouped mk t.pairs.length t.pairs (Nat.le_refl _)
    (.leaf t.first) trivial (fun _ _ _ e => by cases e)
  have : u = t := grouped_unique hu h (by simpa [Tree.first] using hf)
    (by simpa [Tree.pairs] using hp)
  rw [← this, ← he, this]
  rfl

end Verif.Grammar
