import Verif.Parse.Operations

/-!
# C36: operator precedence and associativity

Specification: a *precedence tree* over operands is a binary tree whose nodes carry operators,
such that no operator has a left child of lower priority, or a right child of lower or equal
priority.  Reading a tree from left to right gives back the chain of operands and operators.
-/

namespace Verif.Parse

/-! ## Specification -/

/-- Trees of binary operators over operands. -/
inductive Tree where
  | leaf (operand : Expr)
  | node (operator : BinOp) (lhs rhs : Tree)
deriving Repr

/-- The expression a tree stands for. -/
def Tree.expression : Tree → Expr
  | .leaf e => e
  | .node o l r => .binary o l.expression r.expression

/-- The left-most operand of a tree. -/
def Tree.first : Tree → Expr
  | .leaf e => e
  | .node _ l _ => l.first

/-- The operators of a tree from left to right, each with the operand that follows it. -/
def Tree.pairs : Tree → List (BinOp × Expr)
  | .leaf _ => []
  | .node o l r => l.pairs ++ (o, r.first) :: r.pairs

/-- A tree groups its operands by priority, and to the left among equal priorities. -/
def Tree.Grouped : Tree → Prop
  | .leaf _ => True
  | .node o l r =>
    l.Grouped ∧ r.Grouped ∧
    (∀ o' l' r', l = .node o' l' r' → o.priority ≤ o'.priority) ∧
    (∀ o' l' r', r = .node o' l' r' → o.priority < o'.priority)

/-! ## Proofs -/

theorem Tree.Grouped.pairs_ge {t : Tree} (h : t.Grouped) :
    ∀ o l r, t = .node o l r → ∀ p ∈ t.pairs, o.priority ≤ p.1.priority := by
  induction t with
  | leaf e => intro o l r e'; cases e'
  | node o l r ihl ihr =>
    intro o' l' r' e p hp
    cases e
    obtain ⟨hl, hr, hle, hre⟩ := h
    simp only [Tree.pairs, List.mem_append, List.mem_cons] at hp
    rcases hp with hp | hp | hp
    · cases l with
      | leaf e => simp [Tree.pairs] at hp
      | node ol ll lr =>
        exact Nat.le_trans (hle _ _ _ rfl) (ihl hl _ _ _ rfl p hp)
    · subst hp; exact Nat.le_refl _
    · cases r with
      | leaf e => simp [Tree.pairs] at hp
      | node ol ll lr =>
        exact Nat.le_of_lt (Nat.lt_of_lt_of_le (hre _ _ _ rfl) (ihr hr _ _ _ rfl p hp))

theorem Tree.Grouped.left_ge {o : BinOp} {l r : Tree} (h : (Tree.node o l r).Grouped) :
    ∀ p ∈ l.pairs, o.priority ≤ p.1.priority := by
  intro p hp
  obtain ⟨hl, hr, hle, hre⟩ := h
  cases l with
  | leaf e => simp [Tree.pairs] at hp
  | node ol ll lr => exact Nat.le_trans (hle _ _ _ rfl) (hl.pairs_ge _ _ _ rfl p hp)

theorem Tree.Grouped.right_gt {o : BinOp} {l r : Tree} (h : (Tree.node o l r).Grouped) :
    ∀ p ∈ r.pairs, o.priority < p.1.priority := by
  intro p hp
  obtain ⟨hl, hr, hle, hre⟩ := h
  cases r with
  | leaf e => simp [Tree.pairs] at hp
  | node ol ll lr => exact Nat.lt_of_lt_of_le (hre _ _ _ rfl) (hr.pairs_ge _ _ _ rfl p hp)

/-- **C36, uniqueness**: a chain of operands and operators has at most one precedence tree. -/
theorem grouped_unique {t u : Tree} (ht : t.Grouped) (hu : u.Grouped)
    (hf : t.first = u.first) (hp : t.pairs = u.pairs) : t = u := by
  induction t generalizing u with
  | leaf e =>
    cases u with
    | leaf e' => simp [Tree.first] at hf; rw [hf]
    | node o l r => simp [Tree.pairs] at hp
  | node o l r ihl ihr =>
    cases u with
    | leaf e' => simp [Tree.pairs] at hp
    | node o' l' r' =>
      simp only [Tree.pairs] at hp
      have hlen : l.pairs = l'.pairs ∧ (o, r.first) :: r.pairs = (o', r'.first) :: r'.pairs := by
        rcases List.append_eq_append_iff.1 hp with ⟨s, h1, h2⟩ | ⟨s, h1, h2⟩
        · cases s with
          | nil => simp at h1 h2; exact ⟨h1.symm, by simp [h2]⟩
          | cons q s =>
            simp only [List.cons_append, List.cons.injEq] at h2
            have hq : q ∈ l'.pairs := by rw [h1]; simp
            have h3 := hu.left_ge q hq
            have h4 := ht.right_gt (o', r'.first) (by rw [h2.2]; simp)
            rw [← h2.1] at h3
            exact absurd (Nat.lt_of_lt_of_le h4 h3) (Nat.lt_irrefl _)
        · cases s with
          | nil => simp at h1 h2; exact ⟨h1, by simp [h2]⟩
          | cons q s =>
            simp only [List.cons_append, List.cons.injEq] at h2
            have hq : q ∈ l.pairs := by rw [h1]; simp
            have h3 := ht.left_ge q hq
            have h4 := hu.right_gt (o, r.first) (by rw [h2.2]; simp)
            rw [← h2.1] at h3
            exact absurd (Nat.lt_of_lt_of_le h4 h3) (Nat.lt_irrefl _)
      obtain ⟨h1, h2⟩ := hlen
      simp only [List.cons.injEq, Prod.mk.injEq] at h2
      obtain ⟨⟨rfl, h3⟩, h4⟩ := h2
      rw [ihl ht.1 hu.1 hf h1, ihr ht.2.1 hu.2.1 h3 h4]

/-- The invariant of `reduceOperations`: what was reduced so far is grouped, and binds at least
as tightly as the next operator. -/
theorem reduceOperations_grouped :
    ∀ (n : Nat) (pairs : List (BinOp × Expr)), pairs.length ≤ n → ∀ t : Tree, t.Grouped →
      (∀ o l r, t = .node o l r → ∀ p ps, pairs = p :: ps → p.1.priority ≤ o.priority) →
      ∃ u : Tree, u.Grouped ∧ u.first = t.first ∧ u.pairs = t.pairs ++ pairs ∧
        reduceOperations t.expression pairs = u.expression := by
  intro n
  induction n with
  | zero =>
    intro pairs hn t ht hb
    have : pairs = [] := List.length_eq_zero_iff.1 (Nat.le_zero.1 hn)
    subst this
    exact ⟨t, ht, rfl, by simp, by unfold reduceOperations; rfl⟩
  | succ n ih =>
    intro pairs hn t ht hb
    match pairs, hn, hb with
    | [], _, _ => exact ⟨t, ht, rfl, by simp, by unfold reduceOperations; rfl⟩
    | [(o, x)], _, hb =>
      refine ⟨.node o t (.leaf x), ⟨ht, trivial, ?_, ?_⟩, rfl, rfl, ?_⟩
      · intro o' l' r' e
        exact hb o' l' r' e _ _ rfl
      · intro o' l' r' e; cases e
      · unfold reduceOperations; rfl
    | (o, x) :: next :: rest, hn, hb =>
      have hl : ∀ o' l' r', t = .node o' l' r' → o.priority ≤ o'.priority :=
        fun o' l' r' e => hb o' l' r' e _ _ rfl
      unfold reduceOperations
      split
      · rename_i hge
        obtain ⟨u, hu, hf, hp, he⟩ := ih (next :: rest) (by simp at hn ⊢; omega)
          (.node o t (.leaf x)) ⟨ht, trivial, hl, fun _ _ _ e => by cases e⟩
          (by intro o' l' r' e p ps e'; cases e; cases e'; exact hge)
        exact ⟨u, hu, hf, by rw [hp]; simp [Tree.pairs, Tree.first], he⟩
      · rename_i hlt
        generalize hs : splitBefore (fun pair : BinOp × Expr =>
          decide (pair.1.priority ≤ o.priority)) (next :: rest) = s
        have happ := splitBefore_append (fun pair : BinOp × Expr =>
          decide (pair.1.priority ≤ o.priority)) (next :: rest)
        have hhead := splitBefore_head (fun pair : BinOp × Expr =>
          decide (pair.1.priority ≤ o.priority)) (next :: rest)
        have htail := splitBefore_tail (fun pair : BinOp × Expr =>
          decide (pair.1.priority ≤ o.priority)) (next :: rest)
        rw [hs] at happ hhead htail
        have hlens := congrArg List.length happ
        simp only [List.length_append, List.length_cons] at hlens
        simp only [List.length_cons] at hn
        obtain ⟨v, hv, hvf, hvp, hve⟩ := ih s.1 (by omega) (.leaf x) trivial
          (fun _ _ _ e => by cases e)
        have hvgt : ∀ o' l' r', v = .node o' l' r' → o.priority < o'.priority := by
          intro o' l' r' e
          have : (o', r'.first) ∈ v.pairs := by rw [e]; simp [Tree.pairs]
          rw [hvp] at this
          simp only [Tree.pairs, List.nil_append] at this
          have := hhead _ this
          simpa using this
        obtain ⟨u, hu, hf, hp, he⟩ := ih s.2 (by omega) (.node o t v)
          ⟨ht, hv, hl, hvgt⟩
          (by
            intro o' l' r' e p ps e'
            cases e
            simpa using htail _ _ e')
        refine ⟨u, hu, hf, ?_, ?_⟩
        · rw [hp]
          simp only [Tree.pairs, hvf, hvp, Tree.first, List.nil_append, List.append_assoc,
            List.cons_append]
          rw [happ]
        · rw [← he]
          simp only [Tree.expression] at hve ⊢
          rw [hve]

/-- **C36**: parsing the chain `lhs op₁ e₁ op₂ e₂ …` yields the expression of the one and only
tree that has these operands and operators from left to right and in which higher priorities bind
tighter and equal priorities group to the left. -/
theorem c36_precedence (lhs : Expr) (pairs : List (BinOp × Expr)) :
    ∃ t : Tree, (t.Grouped ∧ t.first = lhs ∧ t.pairs = pairs) ∧
      reduceOperations lhs pairs = t.expression ∧
      ∀ u : Tree, u.Grouped ∧ u.first = lhs ∧ u.pairs = pairs → u = t := by
  obtain ⟨t, ht, hf, hp, he⟩ := reduceOperations_grouped pairs.length pairs (Nat.le_refl _)
    (.leaf lhs) trivial (fun _ _ _ e => by cases e)
  refine ⟨t, ⟨ht, hf, by simpa [Tree.pairs] using hp⟩, he, ?_⟩
  rintro u ⟨hu, huf, hup⟩
  refine grouped_unique hu ht (huf.trans hf.symm) ?_
  rw [hup, hp]; simp [Tree.pairs]

/-- The precedence tree of a chain is what the chain parses to, whichever way it is found. -/
theorem c36_reduce_tree (t : Tree) (h : t.Grouped) :
    reduceOperations t.first t.pairs = t.expression := by
  obtain ⟨u, _, he, hu⟩ := c36_precedence t.first t.pairs
  rw [he, ← hu t ⟨h, rfl, rfl⟩]

/-- `a - b * c - d` is `(a - (b * c)) - d`. -/
example : reduceOperations (.atom 0)
    [(.subtract, .atom 1), (.multiply, .atom 2), (.subtract, .atom 3)] =
    .binary .subtract (.binary .subtract (.atom 0) (.binary .multiply (.atom 1) (.atom 2)))
      (.atom 3) :=
  c36_reduce_tree (.node .subtract (.node .subtract (.leaf (.atom 0))
    (.node .multiply (.leaf (.atom 1)) (.leaf (.atom 2)))) (.leaf (.atom 3)))
    (by
      refine ⟨⟨trivial, ⟨trivial, trivial, ?_, ?_⟩, ?_, ?_⟩, trivial, ?_, ?_⟩ <;>
        intro o l r e <;> cases e <;> decide)

/-- `a | b & c == d + e * f` nests to the right, by priority. -/
example : reduceOperations (.atom 0)
    [(.or, .atom 1), (.and, .atom 2), (.equal, .atom 3), (.add, .atom 4), (.multiply, .atom 5)] =
    .binary .or (.atom 0) (.binary .and (.atom 1) (.binary .equal (.atom 2)
      (.binary .add (.atom 3) (.binary .multiply (.atom 4) (.atom 5))))) := by
  simp [reduceOperations, splitBefore, BinOp.priority]

end Verif.Parse
