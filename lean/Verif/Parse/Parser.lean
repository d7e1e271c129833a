import Verif.Parse.Operations

/-
Model of the expression parser and of the expression formatter, on tokens.

Modelled code
* `lib/parse/src/parser.rs:380-540` and `lib/parse/src/combinator.rs:8-40` (parser)
* `lib/format/src/lib.rs:471-510, 646-665, 820-861` (formatter)

Tokens.  White space is a token because a call's parenthesis must follow the callee without any
(`lib/parse/src/parser.rs:473`).  A `space` stands for any non-empty sequence of blanks, line
breaks and comments (`lib/parse/src/parser.rs:1020-1042`).  Splitting characters into tokens is
not modelled, nor are the inner grammars of atoms.
-/

namespace Verif.Parse

/-- Tokens.  A `word` is an atom or a field name. -/
inductive Tok where
  | space
  | word (identifier : Nat)
  | op (operator : BinOp)
  | bang
  | quest
  | dot
  | lpar
  | rpar
  | comma
deriving DecidableEq, Repr

/-- Parser results: `nom`'s `Ok`, `Err::Error` (alternatives are tried) and `Err::Failure`
(after `cut`, nothing else is tried).  `fuel` says that the recursion bound of the model was too
small; the theorems are about all sufficiently large bounds. -/
inductive R (α : Type) where
  | ok (value : α) (rest : List Tok)
  | error
  | failure
  | fuel
deriving Repr

/-- Sequencing of parsers. -/
def R.bind {α β : Type} (r : R α) (f : α → List Tok → R β) : R β :=
  match r with
  | .ok a ts => f a ts
  | .error => .error
  | .failure => .failure
  | .fuel => .fuel

/-- `nom::combinator::cut`. -/
def R.cut {α : Type} : R α → R α
  | .error => .failure
  | r => r

/-- `lib/parse/src/parser.rs:1020-1026` (`blank`). -/
def blank : List Tok → List Tok
  | .space :: ts => blank ts
  | ts => ts

/-- `lib/parse/src/operations.rs:4-9` (`SuffixOperator`). -/
inductive Suffix where
  | call (arguments : List Expr)
  | field (name : Nat)
  | try_
deriving Repr

/-- The body of the fold in `lib/parse/src/parser.rs:447-458`. -/
def Suffix.apply (e : Expr) : Suffix → Expr
  | .call arguments => .call e arguments
  | .field name => .field e name
  | .try_ => .try_ e

mutual

/-- `lib/parse/src/parser.rs:381-396` (`expression`). -/
def expression : Nat → List Tok → R Expr
  | 0, _ => .fuel
  | n + 1, ts =>
    (prefixLike n ts).bind fun e r => (pairs n r).bind fun ps r' =>
      .ok (reduceOperations e ps) r'

/-- The `many0` of `lib/parse/src/parser.rs:387-390`. -/
def pairs : Nat → List Tok → R (List (BinOp × Expr))
  | 0, _ => .fuel
  | n + 1, ts =>
    match blank ts with
    | .op o :: ts' =>
      (prefixLike n ts').cut.bind fun e r => (pairs n r).bind fun ps r' => .ok ((o, e) :: ps) r'
    | _ => .ok [] ts

/-- `lib/parse/src/parser.rs:419-438` (`prefix_operation_like`, `prefix_operation`). -/
def prefixLike : Nat → List Tok → R Expr
  | 0, _ => .fuel
  | n + 1, ts =>
    match blank ts with
    | .bang :: ts' => (prefixLike n ts').cut.bind fun e r => .ok (.not e) r
    | _ => suffixLike n ts

/-- `lib/parse/src/parser.rs:440-461` (`suffix_operation_like`). -/
def suffixLike : Nat → List Tok → R Expr
  | 0, _ => .fuel
  | n + 1, ts =>
    (atomic n ts).bind fun e r => (suffixes n r).bind fun ss r' => .ok (ss.foldl Suffix.apply e) r'

/-- `many0(suffix_operator)`, `lib/parse/src/parser.rs:463-508`. -/
def suffixes : Nat → List Tok → R (List Suffix)
  | 0, _ => .fuel
  | n + 1, ts =>
    match ts with
    | .lpar :: ts' =>
      (arguments n ts').cut.bind fun as r =>
        match blank r with
        | .rpar :: r' => (suffixes n r').bind fun ss r'' => .ok (.call as :: ss) r''
        | _ => .failure
    | _ =>
      match blank ts with
      | .dot :: ts' =>
        match blank ts' with
        | .word k :: r => (suffixes n r).bind fun ss r' => .ok (.field k :: ss) r'
        | _ => .failure
      | .quest :: r => (suffixes n r).bind fun ss r' => .ok (.try_ :: ss) r'
      | _ => .ok [] ts

/-- `lib/parse/src/parser.rs:510-527` (`atomic_expression`), with one alternative for all atoms. -/
def atomic : Nat → List Tok → R Expr
  | 0, _ => .fuel
  | n + 1, ts =>
    match blank ts with
    | .word k :: r => .ok (.atom k) r
    | .lpar :: r =>
      (expression n r).bind fun e r' =>
        match blank r' with
        | .rpar :: r'' => .ok e r''
        | _ => .error
    | _ => .error

/-- `separated_or_terminated_list0(sign(","), expression)`,
`lib/parse/src/combinator.rs:8-27`. -/
def arguments : Nat → List Tok → R (List Expr)
  | 0, _ => .fuel
  | n + 1, ts =>
    match expression n ts with
    | .ok e r =>
      (moreArguments n r).bind fun es r' =>
        match blank r' with
        | .comma :: r'' => .ok (e :: es) r''
        | _ => .ok (e :: es) r'
    | .error => .ok [] ts
    | .failure => .failure
    | .fuel => .fuel

/-- The loop of `nom::multi::separated_list0`. -/
def moreArguments : Nat → List Tok → R (List Expr)
  | 0, _ => .fuel
  | n + 1, ts =>
    match blank ts with
    | .comma :: ts' =>
      match expression n ts' with
      | .ok e r => (moreArguments n r).bind fun es r' => .ok (e :: es) r'
      | .error => .ok [] ts
      | .failure => .failure
      | .fuel => .fuel
    | _ => .ok [] ts

end

/-! ## The formatter -/

/-- Is it a binary operation?  `matches!(…, Expression::BinaryOperation(_))`,
`lib/format/src/lib.rs:656`. -/
def Expr.isBinary : Expr → Bool
  | .binary .. => true
  | _ => false

/-- The condition of `lib/format/src/lib.rs:848-853` (`compile_operand`): is the operand a binary
operation of a lower priority than its parent operation? -/
def lower (parent : BinOp) : Expr → Bool
  | .binary o _ _ => decide (o.priority < parent.priority)
  | _ => false

/-- `builder.sequence(["(", document, ")"])`. -/
def paren (b : Bool) (ts : List Tok) : List Tok :=
  if b then .lpar :: ts ++ [.rpar] else ts

mutual

/-- `lib/format/src/lib.rs:471-668` (`compile_expression`), `820-861` (`compile_binary_operation`,
`compile_operand`).  `broken f as` says whether the arguments of the call of `f` with `as` are
put onto lines of their own; the code decides this by source positions and comments, the model
allows any choice. -/
def print (broken : Expr → List Expr → Bool) : Expr → List Tok
  | .atom k => [.word k]
  | .binary o l r =>
    paren (lower o l) (print broken l) ++ [.space, .op o, .space] ++
      paren (lower o r) (print broken r)
  | .not e => .bang :: paren e.isBinary (print broken e)
  | .try_ e => paren e.isBinary (print broken e) ++ [.quest]
  | .call f as =>
    print broken f ++ [.lpar] ++
      (if as.isEmpty || !broken f as then printArguments broken as
       else .space :: printArguments broken as ++ [.comma, .space]) ++ [.rpar]
  | .field e k => print broken e ++ [.dot, .word k]

/-- `.intersperse(separator)` over the arguments, `lib/format/src/lib.rs:479-487`. -/
def printArguments (broken : Expr → List Expr → Bool) : List Expr → List Tok
  | [] => []
  | [e] => print broken e
  | e :: e' :: es => print broken e ++ [.comma, .space] ++ printArguments broken (e' :: es)

end

end Verif.Parse
