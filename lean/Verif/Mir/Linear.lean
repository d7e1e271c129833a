import Mathlib.Data.Multiset.AddSub
import Verif.Mir.Rc
import Verif.Mir.Heap

/-
When expressions handle references correctly: a judgement like the one `validation.rs` makes, but one that also forbids
to use a reference before there is one. A token is a name in a multiset: one reference which the variable owns.
-/
namespace Verif.Mir

abbrev Tokens := Multiset Name

/-- Operands that are only moved, or cloned and moved. -/
def quiet : Expr → Bool
  | .literal _ => true
  | .variable _ => true
  | .clone [x] (.variable y) => x == y
  | _ => false

/-- The names of operands whose references are held while the other operands are evaluated. -/
def heldName : Expr → List Name
  | .variable x => [x]
  | .clone [x] (.variable y) => if x == y then [y] else []
  | _ => []

/-- Indices of a record update are different from each other. -/
def Op.distinct : Op → Prop
  | .update is => is.Nodup
  | _ => True

mutual
/-- `lin D e O O'`: among local variables `D`, `e` can be evaluated with references `O`, and leaves `O'`. -/
def lin (D : List Name) : Expr → Tokens → Tokens → Prop
  | .literal _, O, O' => O' = O
  | .variable x, O, O' => (x ∉ D ∧ O' = O) ∨ (x ∈ D ∧ x ∈ O ∧ O' = O.erase x)
  | .op o es, O, O' => o.distinct ∧ linExprs D o.scalar true [] es O O'
  | .case e as, O, O' => as ≠ .nil ∧ ∃ O1, lin D e O O1 ∧ linAlts D as O1 O'
  | .if_ c t e, O, O' => ∃ O1, lin D c O O1 ∧ lin D t O1 O' ∧ lin D e O1 O'
  | .let_ x e b, O, O' => x ∉ D ∧ x ∉ O' ∧ ∃ O1, lin D e O O1 ∧ lin (x :: D) b (x ::ₘ O1) O'
  | .letRec f env args _ body b, O, O' =>
    f ∉ D ∧ f ∉ O' ∧ (∀ x ∈ env, x ∈ D) ∧ (f :: env ++ args).Nodup ∧
    lin (f :: env ++ args) body ((f :: env ++ args : List Name) : Tokens) 0 ∧
    ∃ O1, O = (env : Tokens) + O1 ∧ lin (f :: D) b (f ::ₘ O1) O'
  | .try_ e x _ b, O, O' => x ∉ D ∧ lin D e O O' ∧ lin (x :: D) b (x ::ₘ O') 0
  | .clone xs e, O, O' => (∀ x ∈ xs, x ∈ O) ∧ lin D e ((xs : Tokens) + O) O'
  | .drop xs e, O, O' => ∃ O1, O = (xs : Tokens) + O1 ∧ lin D e O1 O'
/-- Operands. A variable that has been moved to an operand before may be cloned. Operands other than variables and literals
may return early; nothing may be held then, unless it is a number. -/
def linExprs (D : List Name) (scalar : Bool) : Bool → List Name → Exprs → Tokens → Tokens → Prop
  | _, _, .nil, O, O' => O' = O
  | first, held, .cons e es, O, O' =>
    (∃ x, e = .clone [x] (.variable x) ∧ x ∈ D ∧ x ∈ held ∧ linExprs D scalar false held es O O') ∨
    ((quiet e = true ∨ first = true ∨ scalar = true) ∧
      ∃ O1, lin D e O O1 ∧ linExprs D scalar false (heldName e ++ held) es O1 O')
def linAlts (D : List Name) : Alts → Tokens → Tokens → Prop
  | .nil, _, _ => True
  | .cons _ x e as, O, O' => (x ∉ D ∧ x ∉ O' ∧ lin (x :: D) e (x ::ₘ O) O') ∧ linAlts D as O O'
end

/-- All references of a function are used up. -/
def Global.linear (d : Global) : Prop := d.args.Nodup ∧ lin d.args d.body (d.args : Tokens) 0

def Program.linear (p : Program) : Prop := ∀ d ∈ p.globals, d.linear

/-! ### What reference counting expects -/

def Exprs.atoms : Exprs → Bool
  | .nil => true
  | .cons (.literal _) es => es.atoms
  | .cons (.variable _) es => es.atoms
  | _ => false

def Exprs.atomsButLast : Exprs → Bool
  | .nil => true
  | .cons _ .nil => true
  | .cons (.literal _) es => es.atomsButLast
  | .cons (.variable _) es => es.atomsButLast
  | _ => false

/-- Operands in A-normal form: see `normalization.rs`. -/
def Op.normal : Op → Exprs → Prop
  | .arithmetic _, es => es.atomsButLast = true
  | .comparison _, es => es.atomsButLast = true
  | .call, es => es.atoms = true
  | .record _, es => es.atoms = true
  | .update is, es => es.atoms = true ∧ is.Nodup
  | .concatenation, es => es.atoms = true
  | .field _, es | .synchronize, es | .typeInformation, es | .variant _, es => es.toList.length ≤ 1

mutual
/-- Expressions in A-normal form with inferred environments, in which no local variable is bound inside the scope of one of
the same name. What `TryOperation` returns early is the error as it is: hir-mir/src/expression.rs:433-460. -/
def ready (D : List Name) : Expr → Prop
  | .literal _ => True
  | .variable _ => True
  | .op o es => o.normal es ∧ readyExprs D es
  | .case e as => as ≠ .nil ∧ ready D e ∧ readyAlts D as
  | .if_ c t e => ready D c ∧ ready D t ∧ ready D e
  | .let_ x e b => x ∉ D ∧ ready D e ∧ ready (x :: D) b
  | .letRec f env args _ body b =>
    f ∉ D ∧ (∀ x ∈ env, x ∈ D) ∧ (f :: env ++ args).Nodup ∧ ready (f :: env ++ args) body ∧ ready (f :: D) b
  | .try_ e x t b => x ∉ D ∧ ready D e ∧ b = .op (.variant t) (.cons (.variable x) .nil)
  | .clone _ _ => False
  | .drop _ _ => False
def readyExprs (D : List Name) : Exprs → Prop
  | .nil => True
  | .cons e es => ready D e ∧ readyExprs D es
def readyAlts (D : List Name) : Alts → Prop
  | .nil => True
  | .cons _ x e as => (x ∉ D ∧ ready (x :: D) e) ∧ readyAlts D as
end

def Program.ready (p : Program) : Prop := ∀ d ∈ p.globals, d.args.Nodup ∧ Verif.Mir.ready d.args d.body

/-! ### Sets of tokens -/

/-- The tokens of the variables in `D` that are in `M`. -/
def tok (D M : List Name) : Tokens := (D.filter (· ∈ M) : List Name)

theorem count_tok {D : List Name} (hD : D.Nodup) (M : List Name) (x : Name) :
    (tok D M).count x = if x ∈ D ∧ x ∈ M then 1 else 0 := by
  unfold tok
  rw [Multiset.coe_count]
  split
  · rename_i h
    exact List.count_eq_one_of_mem (hD.filter _) (by simp [h])
  · rename_i h
    exact List.count_eq_zero.mpr (by simpa using h)

theorem count_list {D : List Name} (hD : D.Nodup) (x : Name) : (D : Tokens).count x = if x ∈ D then 1 else 0 := by
  rw [Multiset.coe_count]
  split
  · exact List.count_eq_one_of_mem hD ‹_›
  · exact List.count_eq_zero.mpr ‹_›

theorem mem_tok {D M : List Name} {x : Name} : x ∈ tok D M ↔ x ∈ D ∧ x ∈ M := by simp [tok]

theorem tok_ext {D M : List Name} (hD : D.Nodup) {O : Tokens}
    (h : ∀ x, O.count x = if x ∈ D ∧ x ∈ M then 1 else 0) : O = tok D M := by
  ext x
  rw [h, count_tok hD]

/-! ### Clones and drops -/

theorem lin_drop {D D' xs : List Name} {e : Expr} {O O1 O' : Tokens} (h : lin D e O1 O')
    (hO : O = ((D'.filter (· ∈ xs) : List Name) : Tokens) + O1) : lin D (dropVariables D' xs e) O O' := by
  unfold dropVariables
  split
  · subst hO; rename_i hx; subst hx; simpa using h
  · exact ⟨O1, hO, h⟩

theorem lin_clone {D D' xs : List Name} {e : Expr} {O O' : Tokens}
    (hx : ∀ x ∈ D'.filter (· ∈ xs), x ∈ O)
    (h : lin D e (((D'.filter (· ∈ xs) : List Name) : Tokens) + O) O') : lin D (cloneVariables D' xs e) O O' := by
  unfold cloneVariables
  split
  · rename_i hx; subst hx; simpa using h
  · exact ⟨hx, h⟩

theorem own_eq {x : Name} {D : List Name} (h : x ∉ D) : own x D = x :: D := by simp [own, h]

theorem ownAll_eq {xs : List Name} (h : xs.Nodup) : ownAll xs [] = xs := by
  induction xs with
  | nil => rfl
  | cons x xs ih => rw [List.nodup_cons] at h; simp only [ownAll, ih h.2]; exact own_eq h.1

theorem filter_singleton {D : List Name} {x : Name} (hD : D.Nodup) (hx : x ∈ D) : D.filter (· ∈ [x]) = [x] := by
  have := List.perm_ext_iff_of_nodup (hD.filter (· ∈ [x])) (List.nodup_singleton x) |>.mpr (by
    intro a; simp; intro h; exact h ▸ hx)
  exact List.perm_singleton.mp this

/-- Transformed atoms. -/
theorem quiet_rc {D : List Name} (hD : D.Nodup) {e : Expr} (M : List Name)
    (he : (∃ l, e = .literal l) ∨ ∃ x, e = .variable x) : quiet (rc D e M).1 = true := by
  rcases he with ⟨l, rfl⟩ | ⟨x, rfl⟩
  · rfl
  · simp only [rc]
    split
    · rename_i h
      unfold cloneVariables
      rw [filter_singleton hD h.1]
      simp [quiet]
    · rfl

end Verif.Mir
