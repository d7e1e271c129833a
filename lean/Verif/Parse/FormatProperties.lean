import Verif.Parse.RoundTrip

/-!
# C38: formatting preserves operator structure

The formatter violates the property: it puts an operand into parentheses only if its priority is
*lower* than that of its parent operation, on both sides (`lib/format/src/lib.rs:848-853`), while
the parser groups equal priorities to the left.  `a - (b - c)` is formatted as `a - b - c`, which
is parsed as `(a - b) - c`.

What does hold: formatting and parsing back gives the tree with all chains of operators of equal
priority grouped to the left, so trees without such chains on the right are preserved.
-/

namespace Verif.Parse

/-! ## Specification -/

/-- These tokens are parsed to this expression (completely, for every sufficiently large bound on
the recursion of the model). -/
def Parses (ts : List Tok) (e : Expr) : Prop :=
  ∃ N, ∀ n, N ≤ n → expression n ts = .ok e []

mutual

/-- No right operand of a binary operation is a binary operation of the same priority. -/
def Expr.leftNested : Expr → Prop
  | .atom _ => True
  | .binary o l r => l.leftNested ∧ r.leftNested ∧
      ∀ o' a b, r = .binary o' a b → o'.priority ≠ o.priority
  | .not e => e.leftNested
  | .try_ e => e.leftNested
  | .call f as => f.leftNested ∧ leftNestedAll as
  | .field e _ => e.leftNested

def leftNestedAll : List Expr → Prop
  | [] => True
  | e :: es => e.leftNested ∧ leftNestedAll es

end

/-- Values of arithmetic expressions, where the atom `k` is the number `k` (only for showing that
values change). -/
def value : Expr → Int
  | .atom k => k
  | .binary .add l r => value l + value r
  | .binary .subtract l r => value l - value r
  | .binary .multiply l r => value l * value r
  | _ => 0

/-! ## Proofs -/

/-- A sequence of tokens parses to at most one expression. -/
theorem Parses.unique {ts : List Tok} {e e' : Expr} (h : Parses ts e) (h' : Parses ts e') :
    e = e' := by
  obtain ⟨N, h⟩ := h
  obtain ⟨M, h'⟩ := h'
  have h1 := h (max N M) (by omega)
  rw [h' (max N M) (by omega)] at h1
  simp at h1
  exact h1.symm

mutual

theorem regroup_leftNested : ∀ e : Expr, e.leftNested → regroup e = e
  | .atom k, _ => rfl
  | .binary o l r, h => by
    simp only [Expr.leftNested] at h
    simp only [regroup, regroup_leftNested l h.1, regroup_leftNested r h.2.1]
    cases r with
    | binary o' a b => simp [attach, h.2.2 o' a b rfl]
    | _ => rfl
  | .not e, h => by
    simp only [Expr.leftNested] at h
    simp [regroup, regroup_leftNested e h]
  | .try_ e, h => by
    simp only [Expr.leftNested] at h
    simp [regroup, regroup_leftNested e h]
  | .call f as, h => by
    simp only [Expr.leftNested] at h
    simp [regroup, regroup_leftNested f h.1, regroupAll_leftNested as h.2]
  | .field e k, h => by
    simp only [Expr.leftNested] at h
    simp [regroup, regroup_leftNested e h]

theorem regroupAll_leftNested : ∀ es : List Expr, leftNestedAll es → regroupAll es = es
  | [], _ => rfl
  | e :: es, h => by
    simp only [leftNestedAll] at h
    simp [regroupAll, regroup_leftNested e h.1, regroupAll_leftNested es h.2]

end

theorem noSuffix_nil : NoSuffix [] := Ev.of fun n => by simp [suffixes, blank]

theorem noPair_nil : NoPair [] := Ev.of fun n => by simp [pairs, blank]

/-- Formatting and parsing back groups all chains of operators of the same priority to the left,
and changes nothing else. -/
theorem c38_format_then_parse (broken : Expr → List Expr → Bool) (e : Expr) (h : e.printable) :
    Parses (print broken e) (regroup e) := by
  have := (good (broken := broken) e h).expression noSuffix_nil noPair_nil
  simpa [Parses, Ev] using this

/-- **C38 (partial)**: formatting an expression and parsing it back gives the same expression,
provided that no right operand of a binary operation is a binary operation of the same priority,
and that `!`-operations and binary operations are not operands of suffixes (other than binary
operations before `?`).  Missing: these excluded expressions, for which it is false, see
`c38_regroups` and `c38_not_before_try`. -/
theorem c38_roundtrip_partial (broken : Expr → List Expr → Bool) (e : Expr) (h : e.printable)
    (hl : e.leftNested) : Parses (print broken e) e := by
  have := c38_format_then_parse broken e h
  rwa [regroup_leftNested e hl] at this

/-- The hypotheses are met by `!(a | b) & f(a, b + c * d)?.x - e * (f - g)`. -/
def sample : Expr :=
  .binary .and (.not (.binary .or (.atom 0) (.atom 1)))
    (.binary .subtract
      (.field (.try_ (.call (.atom 5) [.atom 0, .binary .add (.atom 1)
        (.binary .multiply (.atom 2) (.atom 3))])) 9)
      (.binary .multiply (.atom 4) (.binary .subtract (.atom 6) (.atom 7))))

example (broken : Expr → List Expr → Bool) : Parses (print broken sample) sample := by
  refine c38_roundtrip_partial broken sample ?_ ?_
  · simp [sample, Expr.printable, printableAll, Expr.suffixable, Expr.isBinary]
  · simp [sample, Expr.leftNested, leftNestedAll, BinOp.priority]

/-- **C38 is violated**: `5 - (3 - 1)` is formatted as `5 - 3 - 1`, which has another value. -/
theorem c38_regroups :
    ∃ (source : List Tok) (e e' : Expr),
      Parses source e ∧ Parses (print (fun _ _ => false) e) e' ∧ value e = 3 ∧ value e' = 1 := by
  refine ⟨[.word 5, .space, .op .subtract, .space, .lpar, .word 3, .space, .op .subtract, .space,
    .word 1, .rpar],
    .binary .subtract (.atom 5) (.binary .subtract (.atom 3) (.atom 1)),
    .binary .subtract (.binary .subtract (.atom 5) (.atom 3)) (.atom 1), ?_, ?_, rfl, rfl⟩
  · refine ⟨20, fun n hn => ?_⟩
    obtain ⟨m, rfl⟩ : ∃ m, n = m + 20 := ⟨n - 20, by omega⟩
    simp [expression, prefixLike, suffixLike, atomic, blank, suffixes, pairs, R.bind, R.cut,
      reduceOperations]
  · exact c38_format_then_parse _ _ (by simp [Expr.printable])

/-- Formatting also moves a `!` out of the operand of `?`: `(!a)?` is formatted as `!a?`, which is
parsed as `!(a?)`. -/
theorem c38_not_before_try :
    Parses (print (fun _ _ => false) (.try_ (.not (.atom 0)))) (.not (.try_ (.atom 0))) := by
  have : print (fun _ _ => false) (.try_ (.not (.atom 0))) =
      print (fun _ _ => false) (.not (.try_ (.atom 0))) := rfl
  rw [this]
  exact c38_format_then_parse _ _ (by simp [Expr.printable, Expr.suffixable, Expr.isBinary])

/-- Formatting drops the parentheses around binary operations that are called or whose fields are
read: `(a + b).x` is formatted as `a + b.x`. -/
theorem c38_binary_before_field :
    Parses (print (fun _ _ => false) (.field (.binary .add (.atom 0) (.atom 1)) 7))
      (.binary .add (.atom 0) (.field (.atom 1) 7)) := by
  have : print (fun _ _ => false) (.field (.binary .add (.atom 0) (.atom 1)) 7) =
      print (fun _ _ => false) (.binary .add (.atom 0) (.field (.atom 1) 7)) := rfl
  rw [this]
  exact c38_format_then_parse _ _ (by simp [Expr.printable, Expr.suffixable])

/-! ## Formatting is idempotent -/

theorem lower_root (o : BinOp) (e : Expr) :
    lower o e = match e.rootPriority with | some p => decide (p < o.priority) | none => false := by
  cases e <;> rfl

theorem isBinary_root (e : Expr) : e.isBinary = e.rootPriority.isSome := by
  cases e <;> rfl

theorem lower_regroup (o : BinOp) (e : Expr) : lower o (regroup e) = lower o e := by
  rw [lower_root, lower_root, regroup_root]

theorem isBinary_regroup (e : Expr) : (regroup e).isBinary = e.isBinary := by
  rw [isBinary_root, isBinary_root, regroup_root]

theorem print_attach (broken : Expr → List Expr → Bool) (o : BinOp) (l r : Expr) :
    print broken (attach o l r) = print broken (.binary o l r) := by
  induction r using attach.induct (o := o) with
  | case1 o' r₁ r₂ h ih =>
    have h1 : lower o' (attach o l r₁) = false := by
      rw [lower_root, attach_root]; simp; omega
    have h2 : lower o (.binary o' r₁ r₂) = false := by simp [lower]; omega
    have h3 : lower o r₁ = lower o' r₁ := by
      rw [lower_root, lower_root, h]
    simp only [attach, h, if_true, print, h1, paren, ih, h2]
    simp [h3]
  | case2 o' r₁ r₂ h => simp [attach, h]
  | case3 r h =>
    cases r with
    | binary o' a b => exact absurd rfl (h o' a b)
    | _ => rfl

theorem regroupAll_isEmpty (es : List Expr) : (regroupAll es).isEmpty = es.isEmpty := by
  cases es <;> rfl

mutual

theorem print_regroup (b : Bool) : ∀ e : Expr,
    print (fun _ _ => b) (regroup e) = print (fun _ _ => b) e
  | .atom _ => rfl
  | .binary o l r => by
    simp only [regroup, print_attach, print, lower_regroup, print_regroup b l, print_regroup b r]
  | .not e => by simp only [regroup, print, isBinary_regroup, print_regroup b e]
  | .try_ e => by simp only [regroup, print, isBinary_regroup, print_regroup b e]
  | .call f as => by
    simp only [regroup, print, print_regroup b f, printArguments_regroup b as, regroupAll_isEmpty]
  | .field e k => by simp only [regroup, print, print_regroup b e]

theorem printArguments_regroup (b : Bool) : ∀ es : List Expr,
    printArguments (fun _ _ => b) (regroupAll es) = printArguments (fun _ _ => b) es
  | [] => rfl
  | [e] => by simp only [regroupAll, printArguments, print_regroup b e]
  | e :: e' :: es => by
    have := printArguments_regroup b (e' :: es)
    simp only [regroupAll] at this
    simp only [regroupAll, printArguments, print_regroup b e, this]

end

/-- Formatting is idempotent: formatting what the formatter's output parses to gives the same
output (with the same choice of line breaks). -/
theorem c38_format_idempotent (b : Bool) (e e' : Expr) (h : e.printable)
    (hp : Parses (print (fun _ _ => b) e) e') :
    print (fun _ _ => b) e' = print (fun _ _ => b) e := by
  rw [← (c38_format_then_parse _ e h).unique hp, print_regroup]

example : ∃ e', Parses (print (fun _ _ => true)
    (.binary .subtract (.atom 5) (.binary .subtract (.atom 3) (.atom 1)))) e' ∧
    print (fun _ _ => true) e' = print (fun _ _ => true)
      (.binary .subtract (.atom 5) (.binary .subtract (.atom 3) (.atom 1))) :=
  ⟨_, c38_format_then_parse _ _ (by simp [Expr.printable]),
    c38_format_idempotent true _ _ (by simp [Expr.printable])
      (c38_format_then_parse _ _ (by simp [Expr.printable]))⟩

end Verif.Parse
