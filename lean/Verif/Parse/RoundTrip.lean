import Verif.Parse.Parser
import Verif.Parse.OperationProperties

/-! Parsing what the formatter prints. -/

namespace Verif.Parse

/-! ## What printing and parsing does to a tree -/

/-- Join two regrouped operands: chains of the same priority on the right are regrouped to the
left. -/
def attach (o : BinOp) (l : Expr) : Expr → Expr
  | .binary o' r₁ r₂ =>
    if o'.priority = o.priority then .binary o' (attach o l r₁) r₂
    else .binary o l (.binary o' r₁ r₂)
  | r => .binary o l r

mutual

/-- Group all chains of operators of the same priority to the left. -/
def regroup : Expr → Expr
  | .atom k => .atom k
  | .binary o l r => attach o (regroup l) (regroup r)
  | .not e => .not (regroup e)
  | .try_ e => .try_ (regroup e)
  | .call f as => .call (regroup f) (regroupAll as)
  | .field e k => .field (regroup e) k

def regroupAll : List Expr → List Expr
  | [] => []
  | e :: es => regroup e :: regroupAll es

end

/-- Can a suffix follow it without parentheses? -/
def Expr.suffixable : Expr → Prop
  | .binary .. => False
  | .not _ => False
  | _ => True

mutual

/-- Operands of suffixes do not need parentheses, except for binary operations before `?`, which
the formatter puts into parentheses. -/
def Expr.printable : Expr → Prop
  | .atom _ => True
  | .binary _ l r => l.printable ∧ r.printable
  | .not e => e.printable
  | .try_ e => e.printable ∧ (e.isBinary = true ∨ e.suffixable)
  | .call f as => f.printable ∧ f.suffixable ∧ printableAll as
  | .field e _ => e.printable ∧ e.suffixable

def printableAll : List Expr → Prop
  | [] => True
  | e :: es => e.printable ∧ printableAll es

end

/-! ## Trees -/

def attachTree (o : BinOp) (l : Tree) : Tree → Tree
  | .node o' r₁ r₂ =>
    if o'.priority = o.priority then .node o' (attachTree o l r₁) r₂
    else .node o l (.node o' r₁ r₂)
  | r => .node o l r

/-- The tree of operators the parser sees. -/
def tree : Expr → Tree
  | .binary o l r =>
    attachTree o (if lower o l then .leaf (regroup l) else tree l)
      (if lower o r then .leaf (regroup r) else tree r)
  | e => .leaf (regroup e)

/-- All operators visible in a tree bind at least as tightly as `o`. -/
def Tree.tight (o : BinOp) : Tree → Prop
  | .leaf _ => True
  | .node o' _ _ => o.priority ≤ o'.priority

theorem attachTree_root (o : BinOp) (l r : Tree) :
    ∃ o' l' r', attachTree o l r = .node o' l' r' ∧ o'.priority = o.priority := by
  cases r with
  | leaf e => exact ⟨o, l, _, rfl, rfl⟩
  | node o' r₁ r₂ =>
    unfold attachTree
    split
    · rename_i h; exact ⟨o', _, r₂, rfl, h⟩
    · exact ⟨o, l, _, rfl, rfl⟩

theorem attachTree_grouped (o : BinOp) (l r : Tree) (hl : l.Grouped) (hr : r.Grouped)
    (htl : l.tight o) (htr : r.tight o) : (attachTree o l r).Grouped := by
  have hl' : ∀ o' l' r', l = .node o' l' r' → o.priority ≤ o'.priority := by
    intro o' l' r' e; subst e; exact htl
  induction r with
  | leaf e => exact ⟨hl, hr, hl', fun _ _ _ e => by cases e⟩
  | node o' r₁ r₂ ih _ =>
    unfold attachTree
    obtain ⟨h1, h2, h3, h4⟩ := hr
    split
    · rename_i h
      have ht1 : r₁.tight o := by
        cases r₁ with
        | leaf e => trivial
        | node o₁ a b => have := h3 _ _ _ rfl; simp only [Tree.tight]; omega
      refine ⟨ih h1 ht1, h2, ?_, h4⟩
      intro o₂ a b e
      obtain ⟨o₃, a', b', e', hp⟩ := attachTree_root o l r₁
      rw [e'] at e
      cases e
      omega
    · rename_i h
      refine ⟨hl, ⟨h1, h2, h3, h4⟩, hl', ?_⟩
      intro o₂ a b e
      cases e
      simp only [Tree.tight] at htr
      omega

theorem attachTree_first (o : BinOp) (l r : Tree) : (attachTree o l r).first = l.first := by
  induction r with
  | leaf e => rfl
  | node o' r₁ r₂ ih _ =>
    unfold attachTree
    split
    · simpa [Tree.first] using ih
    · rfl

theorem attachTree_pairs (o : BinOp) (l r : Tree) :
    (attachTree o l r).pairs = l.pairs ++ (o, r.first) :: r.pairs := by
  induction r with
  | leaf e => rfl
  | node o' r₁ r₂ ih _ =>
    unfold attachTree
    split
    · simp [Tree.pairs, ih, Tree.first]
    · rfl

/-- A visible operand of an operator is not a binary operation of its priority. -/
def Tree.separate : Tree → Prop
  | .leaf _ => True
  | .node o l r => l.separate ∧ r.separate ∧ ∀ e, (l = .leaf e) →
      ∀ o' a b, e = .binary o' a b → o'.priority ≠ o.priority

theorem attachTree_expression (o : BinOp) (l r : Tree)
    (hs : r.separate)
    (hr : ∀ e, r = .leaf e → ∀ o' a b, e = .binary o' a b → o'.priority ≠ o.priority) :
    (attachTree o l r).expression = attach o l.expression r.expression := by
  induction r with
  | leaf e =>
    cases e with
    | binary o' a b =>
      have := hr _ rfl _ _ _ rfl
      simp [attachTree, Tree.expression, attach, this]
    | _ => rfl
  | node o' r₁ r₂ ih _ =>
    unfold attachTree
    simp only [Tree.expression, attach]
    split
    · rename_i h
      simp only [Tree.expression]
      rw [ih hs.1 (fun e he o₂ a b e₂ => by have := hs.2.2 e he o₂ a b e₂; omega)]
    · simp [Tree.expression]

theorem attachTree_separate (o : BinOp) (l r : Tree) (hl : l.separate) (hr : r.separate)
    (h : ∀ e, l = .leaf e → ∀ o' a b, e = .binary o' a b → o'.priority ≠ o.priority) :
    (attachTree o l r).separate := by
  induction r with
  | leaf e => exact ⟨hl, hr, h⟩
  | node o' r₁ r₂ ih _ =>
    unfold attachTree
    split
    · refine ⟨ih hr.1, hr.2.1, ?_⟩
      intro e he
      obtain ⟨o₃, a', b', e', hp⟩ := attachTree_root o l r₁
      rw [e'] at he
      cases he
    · exact ⟨hl, hr, h⟩

/-- The priority of the operator at the root. -/
def Expr.rootPriority : Expr → Option Nat
  | .binary o _ _ => some o.priority
  | _ => none

theorem attach_root (o : BinOp) (l r : Expr) : (attach o l r).rootPriority = some o.priority := by
  cases r with
  | binary o' a b =>
    unfold attach
    split
    · rename_i h; simp [Expr.rootPriority, h]
    · rfl
  | _ => rfl

theorem regroup_root (e : Expr) : (regroup e).rootPriority = e.rootPriority := by
  cases e with
  | binary o l r => simp only [regroup, attach_root]; rfl
  | _ => simp [regroup, Expr.rootPriority]

theorem regroup_binary {e : Expr} {o : BinOp} {a b : Expr} (h : regroup e = .binary o a b) :
    ∃ o' l r, e = .binary o' l r ∧ o'.priority = o.priority := by
  have hr := regroup_root e
  rw [h] at hr
  cases e with
  | binary o' l r => simp [Expr.rootPriority] at hr; exact ⟨o', l, r, rfl, hr.symm⟩
  | _ => simp [Expr.rootPriority] at hr

theorem tree_leaf {e x : Expr} (h : tree e = .leaf x) : e.isBinary = false ∧ x = regroup e := by
  cases e with
  | binary o l r =>
    simp only [tree] at h
    obtain ⟨o₃, a', b', e', hp⟩ := attachTree_root o
      (if lower o l then Tree.leaf (regroup l) else tree l)
      (if lower o r then Tree.leaf (regroup r) else tree r)
    rw [e'] at h
    cases h
  | _ => simp [tree] at h; exact ⟨rfl, h.symm⟩

theorem tree_tight (o : BinOp) (e : Expr) (h : lower o e = false) : (tree e).tight o := by
  cases e with
  | binary o' l r =>
    simp only [tree]
    obtain ⟨o₃, a', b', e', hp⟩ := attachTree_root o'
      (if lower o' l then Tree.leaf (regroup l) else tree l)
      (if lower o' r then Tree.leaf (regroup r) else tree r)
    rw [e']
    simp [lower] at h
    simp only [Tree.tight]
    omega
  | _ => trivial

theorem operand_leaf (o : BinOp) (e x : Expr)
    (h : (if lower o e then Tree.leaf (regroup e) else tree e) = .leaf x) :
    ∀ o' a b, x = .binary o' a b → o'.priority ≠ o.priority := by
  intro o' a b hx
  split at h
  · rename_i hl
    cases h
    obtain ⟨o₂, l, r, rfl, hp⟩ := regroup_binary hx
    simp [lower] at hl
    omega
  · obtain ⟨hb, rfl⟩ := tree_leaf h
    obtain ⟨o₂, l, r, rfl, hp⟩ := regroup_binary hx
    cases hb

/-- The tree the parser sees is the regrouped expression. -/
theorem tree_spec (e : Expr) :
    (tree e).Grouped ∧ (tree e).separate ∧ (tree e).expression = regroup e := by
  induction e using tree.induct with
  | case1 o l r ihl ihr =>
    have hL : (if lower o l then Tree.leaf (regroup l) else tree l).Grouped ∧
        (if lower o l then Tree.leaf (regroup l) else tree l).separate ∧
        (if lower o l then Tree.leaf (regroup l) else tree l).expression = regroup l ∧
        (if lower o l then Tree.leaf (regroup l) else tree l).tight o := by
      split
      · exact ⟨trivial, trivial, rfl, trivial⟩
      · rename_i h
        obtain ⟨a, b, c⟩ := ihl
        exact ⟨a, b, c, tree_tight o l (by simpa using h)⟩
    have hR : (if lower o r then Tree.leaf (regroup r) else tree r).Grouped ∧
        (if lower o r then Tree.leaf (regroup r) else tree r).separate ∧
        (if lower o r then Tree.leaf (regroup r) else tree r).expression = regroup r ∧
        (if lower o r then Tree.leaf (regroup r) else tree r).tight o := by
      split
      · exact ⟨trivial, trivial, rfl, trivial⟩
      · rename_i h
        obtain ⟨a, b, c⟩ := ihr
        exact ⟨a, b, c, tree_tight o r (by simpa using h)⟩
    have hLl := operand_leaf o l
    have hRl := operand_leaf o r
    simp only [tree, regroup]
    refine ⟨attachTree_grouped o _ _ hL.1 hR.1 hL.2.2.2 hR.2.2.2,
      attachTree_separate o _ _ hL.2.1 hR.2.1 hLl, ?_⟩
    rw [attachTree_expression o _ _ hR.2.1 hRl, hL.2.2.1, hR.2.2.1]
  | case2 e he =>
    cases e with
    | binary o l r => exact absurd rfl (he o l r)
    | _ => exact ⟨trivial, trivial, rfl⟩

/-! ## Parsing -/

/-- It holds for all sufficiently large recursion bounds. -/
def Ev (p : Nat → Prop) : Prop := ∃ N, ∀ n, N ≤ n → p n

theorem Ev.and {p q : Nat → Prop} (hp : Ev p) (hq : Ev q) : Ev fun n => p n ∧ q n := by
  obtain ⟨N, hp⟩ := hp
  obtain ⟨M, hq⟩ := hq
  exact ⟨max N M, fun n hn => ⟨hp n (by omega), hq n (by omega)⟩⟩

theorem Ev.succ {p q : Nat → Prop} (hp : Ev p) (h : ∀ n, p n → q (n + 1)) : Ev q := by
  obtain ⟨N, hp⟩ := hp
  refine ⟨N + 1, fun n hn => ?_⟩
  obtain ⟨m, rfl⟩ : ∃ m, n = m + 1 := ⟨n - 1, by omega⟩
  exact h m (hp m (by omega))

theorem Ev.of {p : Nat → Prop} (h : ∀ n, p (n + 1)) : Ev p := by
  refine ⟨1, fun n hn => ?_⟩
  obtain ⟨m, rfl⟩ : ∃ m, n = m + 1 := ⟨n - 1, by omega⟩
  exact h m

theorem Ev.mono {p q : Nat → Prop} (hp : Ev p) (h : ∀ n, p n → q n) : Ev q := by
  obtain ⟨N, hp⟩ := hp
  exact ⟨N, fun n hn => h n (hp n hn)⟩

theorem atomic_space (n : Nat) (ts : List Tok) : atomic n (.space :: ts) = atomic n ts := by
  cases n with
  | zero => rfl
  | succ n => simp only [atomic, blank]

theorem suffixLike_space (n : Nat) (ts : List Tok) :
    suffixLike n (.space :: ts) = suffixLike n ts := by
  cases n with
  | zero => rfl
  | succ n => simp only [suffixLike, atomic_space]

theorem prefixLike_space (n : Nat) (ts : List Tok) :
    prefixLike n (.space :: ts) = prefixLike n ts := by
  cases n with
  | zero => rfl
  | succ n => simp only [prefixLike, blank, suffixLike_space]

theorem expression_space (n : Nat) (ts : List Tok) :
    expression n (.space :: ts) = expression n ts := by
  cases n with
  | zero => rfl
  | succ n => simp only [expression, prefixLike_space]

/-- An operand followed by pairs of operators and operands. -/
def Chain (ts : List Tok) (e : Expr) (ps : List (BinOp × Expr)) (rest : List Tok) : Prop :=
  ∃ mid, Ev (fun n => prefixLike n ts = .ok e mid) ∧ Ev (fun n => pairs n mid = .ok ps rest)

/-- An atom followed by suffixes. -/
def Suffixed (ts : List Tok) (e : Expr) (ss : List Suffix) (rest : List Tok) : Prop :=
  ∃ mid, Ev (fun n => atomic n ts = .ok e mid) ∧ Ev (fun n => suffixes n mid = .ok ss rest)

theorem Chain.expression {ts e ps rest} (h : Chain ts e ps rest) :
    Ev fun n => Verif.Parse.expression n ts = .ok (reduceOperations e ps) rest := by
  obtain ⟨mid, h1, h2⟩ := h
  exact (h1.and h2).succ fun n ⟨h1, h2⟩ => by simp [Verif.Parse.expression, h1, h2, R.bind]

theorem Suffixed.suffixLike {ts e ss rest} (h : Suffixed ts e ss rest) :
    Ev fun n => Verif.Parse.suffixLike n ts = .ok (ss.foldl Suffix.apply e) rest := by
  obtain ⟨mid, h1, h2⟩ := h
  exact (h1.and h2).succ fun n ⟨h1, h2⟩ => by simp [Verif.Parse.suffixLike, h1, h2, R.bind]

/-- Nothing that follows continues an operand. -/
def NoSuffix (rest : List Tok) : Prop := Ev fun n => suffixes n rest = .ok [] rest

/-- Nothing that follows continues a chain of operations. -/
def NoPair (rest : List Tok) : Prop := Ev fun n => pairs n rest = .ok [] rest

/-- Atoms and suffixes of a printed expression. -/
def sufForm : Expr → Expr × List Suffix
  | .try_ e =>
    if e.isBinary then (regroup e, [.try_]) else ((sufForm e).1, (sufForm e).2 ++ [.try_])
  | .call f as => ((sufForm f).1, (sufForm f).2 ++ [.call (regroupAll as)])
  | .field e k => ((sufForm e).1, (sufForm e).2 ++ [.field k])
  | e => (regroup e, [])

theorem sufForm_apply : ∀ e : Expr, (sufForm e).2.foldl Suffix.apply (sufForm e).1 = regroup e
  | .try_ e => by
    simp only [sufForm]
    split
    · simp [Suffix.apply, regroup]
    · simp [sufForm_apply e, Suffix.apply, regroup]
  | .call f as => by simp [sufForm, sufForm_apply f, Suffix.apply, regroup]
  | .field e k => by simp [sufForm, sufForm_apply e, Suffix.apply, regroup]
  | .atom _ => by simp [sufForm]
  | .binary .. => by simp [sufForm]
  | .not _ => by simp [sufForm]

variable (broken : Expr → List Expr → Bool)

/-- A printed operand of suffixes starts with a word or a parenthesis. -/
theorem print_start : ∀ e : Expr, e.printable → e.suffixable →
    ∃ t ts, print broken e = t :: ts ∧ ((∃ k, t = .word k) ∨ t = .lpar)
  | .atom k, _, _ => ⟨_, _, rfl, .inl ⟨k, rfl⟩⟩
  | .binary .., _, h => h.elim
  | .not _, _, h => h.elim
  | .try_ e, hp, _ => by
    simp only [Expr.printable] at hp
    simp only [print, paren]
    split
    · exact ⟨_, _, rfl, .inr rfl⟩
    · rename_i hb
      rcases hp.2 with h | h
      · exact absurd h hb
      · obtain ⟨t, ts, e, h⟩ := print_start e hp.1 h
        rw [e]
        exact ⟨t, _, rfl, h⟩
  | .call f as, hp, _ => by
    simp only [Expr.printable] at hp
    obtain ⟨t, ts, e, h⟩ := print_start f hp.1 hp.2.1
    simp only [print, e]
    exact ⟨t, _, rfl, h⟩
  | .field f as, hp, _ => by
    simp only [Expr.printable] at hp
    obtain ⟨t, ts, e, h⟩ := print_start f hp.1 hp.2
    simp only [print, e]
    exact ⟨t, _, rfl, h⟩

theorem prefixLike_of_suffixLike {ts : List Tok} {e : Expr} {rest : List Tok} {t : Tok}
    {ts' : List Tok} (hts : ts = t :: ts') (ht : (∃ k, t = .word k) ∨ t = .lpar)
    (h : Ev fun n => suffixLike n ts = .ok e rest) :
    Ev fun n => prefixLike n ts = .ok e rest := by
  refine h.succ fun n h => ?_
  subst hts
  rcases ht with ⟨k, rfl⟩ | rfl
  · simpa [prefixLike, blank] using h
  · simpa [prefixLike, blank] using h

/-- Nothing continues an expression before a closing parenthesis. -/
theorem noPair_rpar (rest : List Tok) : NoPair (.rpar :: rest) :=
  Ev.of fun n => by simp [pairs, blank]

theorem noSuffix_rpar (rest : List Tok) : NoSuffix (.rpar :: rest) :=
  Ev.of fun n => by simp [suffixes, blank]

theorem noPair_comma (rest : List Tok) : NoPair (.comma :: rest) :=
  Ev.of fun n => by simp [pairs, blank]

theorem noSuffix_comma (rest : List Tok) : NoSuffix (.comma :: rest) :=
  Ev.of fun n => by simp [suffixes, blank]

theorem noSuffix_op (o : BinOp) (rest : List Tok) : NoSuffix (.space :: .op o :: rest) :=
  Ev.of fun n => by simp [suffixes, blank]

/-- What holds of every printed expression. -/
def Good (e : Expr) : Prop :=
  (∀ rest ps rest', NoSuffix rest → Ev (fun n => pairs n rest = .ok ps rest') →
    Chain (print broken e ++ rest) (tree e).first ((tree e).pairs ++ ps) rest') ∧
  (e.suffixable → ∀ rest ss rest', Ev (fun n => suffixes n rest = .ok ss rest') →
    Suffixed (print broken e ++ rest) (sufForm e).1 ((sufForm e).2 ++ ss) rest') ∧
  (e.isBinary = false → ∀ rest, NoSuffix rest →
    Ev fun n => prefixLike n (print broken e ++ rest) = .ok (regroup e) rest)

variable {broken}

theorem Good.expression {e : Expr} (h : Good broken e) {rest : List Tok} (h1 : NoSuffix rest)
    (h2 : NoPair rest) :
    Ev fun n => Verif.Parse.expression n (print broken e ++ rest) = .ok (regroup e) rest := by
  have := (h.1 rest [] rest h1 h2).expression
  rw [List.append_nil, c36_reduce_tree _ (tree_spec e).1, (tree_spec e).2.2] at this
  exact this

/-- A parenthesised expression is an atom. -/
theorem Good.paren {e : Expr} (h : Good broken e) (rest : List Tok) :
    Ev fun n => atomic n (.lpar :: (print broken e ++ .rpar :: rest)) = .ok (regroup e) rest := by
  refine (h.expression (noSuffix_rpar rest) (noPair_rpar rest)).succ fun n h => ?_
  simp [atomic, blank, h, R.bind]

theorem Good.paren_prefix {e : Expr} (h : Good broken e) {rest : List Tok} (hs : NoSuffix rest) :
    Ev fun n => prefixLike n (.lpar :: (print broken e ++ .rpar :: rest)) = .ok (regroup e) rest := by
  have h1 : Suffixed (.lpar :: (print broken e ++ .rpar :: rest)) (regroup e) [] rest :=
    ⟨rest, h.paren rest, hs⟩
  exact prefixLike_of_suffixLike rfl (.inr rfl) h1.suffixLike

/-- Operands of binary operations. -/
theorem Good.operand {e : Expr} (h : Good broken e) (o : BinOp) (rest : List Tok)
    (ps : List (BinOp × Expr)) (rest' : List Tok) (hs : NoSuffix rest)
    (hp : Ev (fun n => pairs n rest = .ok ps rest')) :
    Chain (Verif.Parse.paren (lower o e) (print broken e) ++ rest)
      (if lower o e then Tree.leaf (regroup e) else tree e).first
      ((if lower o e then Tree.leaf (regroup e) else tree e).pairs ++ ps) rest' := by
  unfold Verif.Parse.paren
  split
  · refine ⟨rest, ?_, by simpa [Tree.pairs] using hp⟩
    have := h.paren_prefix hs
    simpa [Tree.first] using this
  · exact h.1 rest ps rest' hs hp

theorem Chain.pairs_op {o : BinOp} {ts : List Tok} {e : Expr} {ps : List (BinOp × Expr)}
    {rest : List Tok} (h : Chain ts e ps rest) :
    Ev fun n => pairs n (.space :: .op o :: .space :: ts) = .ok ((o, e) :: ps) rest := by
  obtain ⟨mid, h1, h2⟩ := h
  exact (h1.and h2).succ fun n ⟨h1, h2⟩ => by
    simp [pairs, blank, prefixLike_space, h1, h2, R.bind, R.cut]

theorem good_binary {o : BinOp} {l r : Expr} (hl : Good broken l) (hr : Good broken r) :
    Good broken (.binary o l r) := by
  refine ⟨?_, fun h => h.elim, fun h => by cases h⟩
  intro rest ps rest' hs hp
  have h1 := hr.operand o rest ps rest' hs hp
  have h2 := hl.operand o _ _ rest' (noSuffix_op o _) h1.pairs_op
  simp only [print, tree, attachTree_first, attachTree_pairs, List.append_assoc, List.cons_append,
    List.nil_append] at h2 ⊢
  exact h2

theorem tree_of_not_binary {e : Expr} (h : e.isBinary = false) : tree e = .leaf (regroup e) := by
  cases e with
  | binary => cases h
  | _ => rfl

/-- For anything but binary operations it is enough to parse an operand. -/
theorem good_of_prefix {e : Expr} (hb : e.isBinary = false)
    (hs : e.suffixable → ∀ rest ss rest', Ev (fun n => suffixes n rest = .ok ss rest') →
      Suffixed (print broken e ++ rest) (sufForm e).1 ((sufForm e).2 ++ ss) rest')
    (hp : ∀ rest, NoSuffix rest →
      Ev fun n => prefixLike n (print broken e ++ rest) = .ok (regroup e) rest) :
    Good broken e := by
  refine ⟨?_, hs, fun _ => hp⟩
  intro rest ps rest' h1 h2
  rw [tree_of_not_binary hb]
  exact ⟨rest, hp rest h1, by simpa [Tree.pairs] using h2⟩

/-- For operands of suffixes it is enough to parse an atom with suffixes. -/
theorem good_of_suffixed {e : Expr} (hsuf : e.suffixable) (hprint : e.printable)
    (hs : ∀ rest ss rest', Ev (fun n => suffixes n rest = .ok ss rest') →
      Suffixed (print broken e ++ rest) (sufForm e).1 ((sufForm e).2 ++ ss) rest') :
    Good broken e := by
  have hb : e.isBinary = false := by
    cases e with
    | binary => exact hsuf.elim
    | _ => rfl
  refine good_of_prefix hb (fun _ => hs) ?_
  intro rest h
  obtain ⟨t, ts, et, ht⟩ := print_start broken e hprint hsuf
  have := (hs rest [] rest h).suffixLike
  rw [List.append_nil, sufForm_apply] at this
  exact prefixLike_of_suffixLike (by rw [et]; rfl) ht this

theorem good_not {e : Expr} (h : Good broken e) : Good broken (.not e) := by
  refine good_of_prefix rfl (fun h => h.elim) ?_
  intro rest hs
  have hprefix : Ev fun n => prefixLike n (paren e.isBinary (print broken e) ++ rest) =
      .ok (regroup e) rest := by
    unfold paren
    split
    · simpa using h.paren_prefix hs
    · rename_i hb
      exact h.2.2 (by simpa using hb) rest hs
  refine hprefix.succ fun n h => ?_
  simp [print, prefixLike, blank, h, R.bind, R.cut, regroup]

theorem good_atom (k : Nat) : Good broken (.atom k) := by
  refine good_of_suffixed trivial trivial ?_
  intro rest ss rest' h
  exact ⟨rest, Ev.of fun n => by simp [print, atomic, blank, sufForm, regroup],
    by simpa [sufForm] using h⟩

theorem good_try {e : Expr} (h : Good broken e) (hp : (Expr.try_ e).printable) :
    Good broken (.try_ e) := by
  refine good_of_suffixed trivial hp ?_
  intro rest ss rest' hs
  have hq : Ev fun n => suffixes n (.quest :: rest) = .ok (.try_ :: ss) rest' :=
    hs.succ fun n hs => by simp [suffixes, blank, hs, R.bind]
  simp only [print, paren, sufForm]
  split
  · refine ⟨.quest :: rest, ?_, hq⟩
    simpa using h.paren (.quest :: rest)
  · rename_i hb
    simp only [Expr.printable] at hp
    rcases hp.2 with hp | hp
    · exact absurd hp hb
    · simpa using h.2.1 hp _ _ _ hq

theorem good_field {e : Expr} {k : Nat} (h : Good broken e) (hp : (Expr.field e k).printable) :
    Good broken (.field e k) := by
  refine good_of_suffixed trivial hp ?_
  intro rest ss rest' hs
  have hq : Ev fun n => suffixes n (.dot :: .word k :: rest) = .ok (.field k :: ss) rest' :=
    hs.succ fun n hs => by simp [suffixes, blank, hs, R.bind]
  simp only [Expr.printable] at hp
  simpa [print, sufForm] using h.2.1 hp.2 _ _ _ hq

/-- Arguments after the first one. -/
theorem moreArguments_print (es : List Expr) (h : ∀ e ∈ es, Good broken e) (rest : List Tok)
    (hs : NoSuffix rest) (hp : NoPair rest)
    (hr : Ev fun n => moreArguments n rest = .ok [] rest) :
    ∀ e, Good broken e → ∃ mid,
      Ev (fun n => expression n (printArguments broken (e :: es) ++ rest) = .ok (regroup e) mid) ∧
      Ev (fun n => moreArguments n mid = .ok (regroupAll es) rest) := by
  induction es with
  | nil =>
    intro e he
    exact ⟨rest, by simpa [printArguments] using he.expression hs hp, by simpa [regroupAll] using hr⟩
  | cons e' es ih =>
    intro e he
    obtain ⟨mid, h1, h2⟩ := ih (fun x hx => h x (List.mem_cons_of_mem _ hx)) e'
      (h e' List.mem_cons_self)
    refine ⟨.comma :: .space :: (printArguments broken (e' :: es) ++ rest), ?_, ?_⟩
    · have := he.expression (noSuffix_comma (.space :: (printArguments broken (e' :: es) ++ rest)))
        (noPair_comma _)
      simpa [printArguments] using this
    · refine (h1.and h2).succ fun n ⟨h1, h2⟩ => ?_
      simp [moreArguments, blank, expression_space, h1, h2, R.bind, regroupAll]

theorem moreArguments_rpar (rest : List Tok) :
    Ev fun n => moreArguments n (.rpar :: rest) = .ok [] (.rpar :: rest) :=
  Ev.of fun n => by simp [moreArguments, blank]

/-- No expression starts with a closing parenthesis. -/
theorem expression_rpar (rest : List Tok) :
    Ev fun n => expression n (.rpar :: rest) = .error := by
  refine ⟨4, fun n hn => ?_⟩
  obtain ⟨m, rfl⟩ : ∃ m, n = m + 4 := ⟨n - 4, by omega⟩
  simp [expression, prefixLike, suffixLike, atomic, blank, R.bind]

/-- A trailing comma is not followed by an expression. -/
theorem moreArguments_trailing (rest : List Tok) :
    Ev fun n => moreArguments n (.comma :: .space :: .rpar :: rest) =
      .ok [] (.comma :: .space :: .rpar :: rest) :=
  (expression_rpar rest).succ fun n h => by
    simp [moreArguments, blank, expression_space, h]

theorem arguments_print (f : Expr) (as : List Expr) (h : ∀ e ∈ as, Good broken e)
    (rest : List Tok) :
    ∃ mid, Ev (fun n => arguments n
      ((if as.isEmpty || !broken f as then printArguments broken as
        else .space :: printArguments broken as ++ [.comma, .space]) ++ .rpar :: rest) =
        .ok (regroupAll as) mid) ∧ blank mid = .rpar :: rest := by
  cases as with
  | nil =>
    refine ⟨.rpar :: rest, (expression_rpar rest).succ fun n h => ?_, rfl⟩
    simp [arguments, printArguments, h, regroupAll]
  | cons e es =>
    have he := h e List.mem_cons_self
    have hes := fun x hx => h x (List.mem_cons_of_mem e hx)
    split
    · obtain ⟨mid, h1, h2⟩ := moreArguments_print es hes (.rpar :: rest) (noSuffix_rpar rest)
        (noPair_rpar rest) (moreArguments_rpar rest) e he
      refine ⟨.rpar :: rest, (h1.and h2).succ fun n ⟨h1, h2⟩ => ?_, rfl⟩
      simp [arguments, h1, h2, R.bind, blank, regroupAll]
    · obtain ⟨mid, h1, h2⟩ := moreArguments_print es hes (.comma :: .space :: .rpar :: rest)
        (noSuffix_comma _) (noPair_comma _) (moreArguments_trailing rest) e he
      refine ⟨.space :: .rpar :: rest, (h1.and h2).succ fun n ⟨h1, h2⟩ => ?_, rfl⟩
      simp [arguments, expression_space, h1, h2, R.bind, blank, regroupAll]

theorem good_call {f : Expr} {as : List Expr} (hf : Good broken f) (has : ∀ e ∈ as, Good broken e)
    (hp : (Expr.call f as).printable) : Good broken (.call f as) := by
  refine good_of_suffixed trivial hp ?_
  intro rest ss rest' hs
  obtain ⟨mid, h1, h2⟩ := arguments_print f as has rest
  have hq : Ev fun n => suffixes n (.lpar ::
      ((if as.isEmpty || !broken f as then printArguments broken as
        else .space :: printArguments broken as ++ [.comma, .space]) ++ .rpar :: rest)) =
      .ok (.call (regroupAll as) :: ss) rest' :=
    (h1.and hs).succ fun n ⟨h1, hs⟩ => by
      simp only [suffixes]
      rw [h1]
      simp [R.cut, R.bind, h2, hs]
  simp only [Expr.printable] at hp
  have := hf.2.1 hp.2.1 _ _ _ hq
  simpa only [print, sufForm, List.append_assoc, List.cons_append, List.nil_append] using this

mutual

theorem good : ∀ e : Expr, e.printable → Good broken e
  | .atom k, _ => good_atom k
  | .binary _ l r, h => by
    simp only [Expr.printable] at h
    exact good_binary (good l h.1) (good r h.2)
  | .not e, h => by
    simp only [Expr.printable] at h
    exact good_not (good e h)
  | .try_ e, h => by
    have h' := h
    simp only [Expr.printable] at h'
    exact good_try (good e h'.1) h
  | .call f as, h => by
    have h' := h
    simp only [Expr.printable] at h'
    exact good_call (good f h'.1) (goodAll as h'.2.2) h
  | .field e k, h => by
    have h' := h
    simp only [Expr.printable] at h'
    exact good_field (good e h'.1) h

theorem goodAll : ∀ es : List Expr, printableAll es → ∀ e ∈ es, Good broken e
  | [], _ => by simp
  | e :: es, h => by
    simp only [printableAll] at h
    intro x hx
    have h1 := good e h.1
    have h2 := goodAll es h.2
    rcases List.mem_cons.1 hx with hx | hx
    · exact hx ▸ h1
    · exact h2 x hx

end

end Verif.Parse
