import Verif.Grammar.Specification

/-
Specification for C58: the grammar of Pen modules, as a relation between syntax trees and texts.

It says which texts are writings of which trees, and nothing of how texts are parsed: there are no
alternatives that are tried in order, no lookahead, and no recursion bound.  White space and comments
may be before every token.  Expressions are at levels: chains of binary operators of at least some
priority, operands, operands with suffixes, and atomic ones; parentheses lead from any chain back to
an atomic expression.
-/

namespace Verif.Grammar

/-- A token, possibly after white space and comments. -/
inductive Tok (t : List Char) : List Char → Prop where
  | mk {b : List Char} : Blank b → Tok t (b ++ t)

/-- Elements one after the other. -/
inductive Repeated {α : Type} (W : α → List Char → Prop) : List α → List Char → Prop where
  | nil : Repeated W [] []
  | cons {a : α} {as : List α} {u v : List Char} : W a u → Repeated W as v →
      Repeated W (a :: as) (u ++ v)

/-- Elements after commas. -/
inductive Tail {α : Type} (c : List Char) (W : α → List Char → Prop) : List α → List Char → Prop where
  | nil : Tail c W [] []
  | cons {a : α} {as : List α} {u v w : List Char} : Tok c u → W a v → Tail c W as w →
      Tail c W (a :: as) (u ++ (v ++ w))

/-- Elements separated by commas, at least one, possibly with a comma at the end. -/
inductive Elements1 {α : Type} (W : α → List Char → Prop) : List α → List Char → Prop where
  | mk {a : α} {as : List α} {u v : List Char} : W a u → Tail [','] W as v →
      Elements1 W (a :: as) (u ++ v)
  | trailing {a : α} {as : List α} {u v w : List Char} : W a u → Tail [','] W as v → Tok [','] w →
      Elements1 W (a :: as) (u ++ (v ++ w))

/-- Elements separated by commas, possibly none. -/
inductive Elements {α : Type} (W : α → List Char → Prop) : List α → List Char → Prop where
  | none : Elements W [] []
  | some {as : List α} {u : List Char} : Elements1 W as u → Elements W as u

/-- Something, or nothing. -/
inductive Optional {α : Type} (W : α → List Char → Prop) : Option α → List Char → Prop where
  | none : Optional W none []
  | some {a : α} {u : List Char} : W a u → Optional W (some a) u

/-! ## Names and literals -/

/-- An identifier. -/
inductive NameText : Name → List Char → Prop where
  | mk {x u : List Char} : IsIdentifier x → Tok x u → NameText x u

/-- An identifier, possibly qualified. -/
inductive QualifiedText : Name → List Char → Prop where
  | mk {x u : List Char} : IsQualified x → Tok x u → QualifiedText x u

/-- A number literal: hexadecimal digits can be in lower and upper case. -/
inductive NumberText : Number → List Char → Prop where
  | binary {d u : List Char} : IsNumber (.binary d) → Tok ('0' :: 'b' :: d) u →
      NumberText (.binary d) u
  | hexadecimal {d u : List Char} : d ≠ [] → (∀ c ∈ d, isHex c = true) → Tok ('0' :: 'x' :: d) u →
      NumberText (.hexadecimal (d.map Char.toLower)) u
  | decimal {t u : List Char} : IsNumber (.floatingPoint t) → Tok t u →
      NumberText (.floatingPoint t) u

/-- A string literal. -/
inductive StringText : List Char → List Char → Prop where
  | mk {s u : List Char} : IsStringText s → Tok ('"' :: (s ++ ['"'])) u → StringText s u

/-! ## Types -/

/-- Levels of types. -/
inductive TypeLevel where
  | any
  /-- Unions, but no functions. -/
  | union
  | atomic

/-- Types. -/
inductive TypeText : TypeLevel → Ty → List Char → Prop where
  | function {as : List Ty} {r : Ty} {a b c d : List Char} :
      Tok ['\\', '('] a → Elements (TypeText .any) as b → Tok [')'] c → TypeText .any r d →
      TypeText .any (.function as r) (a ++ (b ++ (c ++ d)))
  | union {l r : Ty} {a b c : List Char} :
      TypeText .union l a → Tok ['|'] b → TypeText .atomic r c →
      TypeText .union (.union l r) (a ++ (b ++ c))
  | reference {x : Name} {u : List Char} : QualifiedText x u → TypeText .atomic (.reference x) u
  | list {t : Ty} {a b c : List Char} :
      Tok ['['] a → TypeText .any t b → Tok [']'] c → TypeText .atomic (.list t) (a ++ (b ++ c))
  | map {k v : Ty} {a b c d e : List Char} :
      Tok ['{'] a → TypeText .any k b → Tok [':'] c → TypeText .any v d → Tok ['}'] e →
      TypeText .atomic (.map k v) (a ++ (b ++ (c ++ (d ++ e))))
  | parentheses {t : Ty} {a b c : List Char} :
      Tok ['('] a → TypeText .any t b → Tok [')'] c → TypeText .atomic t (a ++ (b ++ c))
  | ofUnion {t : Ty} {u : List Char} : TypeText .union t u → TypeText .any t u
  | ofAtomic {t : Ty} {u : List Char} : TypeText .atomic t u → TypeText .union t u

/-- A name with a type. -/
inductive TypedText : Name × Ty → List Char → Prop where
  | mk {x : Name} {t : Ty} {a b : List Char} :
      NameText x a → TypeText .any t b → TypedText (x, t) (a ++ b)

/-! ## Expressions -/

/-- Levels of expressions. -/
inductive Level where
  /-- Binary operations of at least this priority. -/
  | chain (priority : Nat)
  | operand
  | suffixed
  | atomic

mutual

/-- Expressions. -/
inductive ExprText : Level → Expr → List Char → Prop where
  /-- Operators of the same priority group to the left. -/
  | binary {o : BinOp} {l r : Expr} {a b c : List Char} :
      ExprText (.chain o.priority) l a → Tok (operatorText o) b →
      ExprText (.chain (o.priority + 1)) r c →
      ExprText (.chain o.priority) (.binary o l r) (a ++ (b ++ c))
  | tighter {p : Nat} {e : Expr} {u : List Char} :
      ExprText (.chain (p + 1)) e u → ExprText (.chain p) e u
  | ofOperand {p : Nat} {e : Expr} {u : List Char} :
      ExprText .operand e u → ExprText (.chain p) e u
  | not {e : Expr} {a b : List Char} :
      Tok ['!'] a → ExprText .operand e b → ExprText .operand (.unary .not e) (a ++ b)
  | ofSuffixed {e : Expr} {u : List Char} : ExprText .suffixed e u → ExprText .operand e u
  /-- There is nothing between a function and the parenthesis after it. -/
  | call {f : Expr} {as : List Expr} {a b c : List Char} :
      ExprText .suffixed f a → Elements (ExprText (.chain 0)) as b → Tok [')'] c →
      ExprText .suffixed (.call f as) (a ++ (['('] ++ (b ++ c)))
  | field {r : Expr} {x : Name} {a b c : List Char} :
      ExprText .suffixed r a → Tok ['.'] b → NameText x c →
      ExprText .suffixed (.field r x) (a ++ (b ++ c))
  | try_ {e : Expr} {a b : List Char} :
      ExprText .suffixed e a → Tok ['?'] b → ExprText .suffixed (.unary .try_ e) (a ++ b)
  | ofAtomic {e : Expr} {u : List Char} : ExprText .atomic e u → ExprText .suffixed e u
  | parentheses {e : Expr} {a b c : List Char} :
      Tok ['('] a → ExprText (.chain 0) e b → Tok [')'] c → ExprText .atomic e (a ++ (b ++ c))
  | variable {x : Name} {u : List Char} : QualifiedText x u → ExprText .atomic (.variable x) u
  | number {n : Number} {u : List Char} : NumberText n u → ExprText .atomic (.number n) u
  | string {s : List Char} {u : List Char} : StringText s u → ExprText .atomic (.string s) u
  | lambda {xs : List (Name × Ty)} {t : Ty} {k : Block} {a b c d e : List Char} :
      Tok ['\\', '('] a → Elements TypedText xs b → Tok [')'] c → TypeText .any t d →
      BlockText k e → ExprText .atomic (.lambda xs t k) (a ++ (b ++ (c ++ (d ++ e))))
  | if_ {b : Branch} {bs : List Branch} {k : Block} {u v w x y : List Char} :
      Tok "if".toList u → BranchText b v → Repeated ElseIfText bs w → Tok "else".toList x →
      BlockText k y → ExprText .atomic (.if_ (b :: bs) k) (u ++ (v ++ (w ++ (x ++ y))))
  | ifList {l : Expr} {x y : Name} {k k' : Block} {a b c d e f g h i j m n : List Char} :
      Tok "if".toList a → Tok ['['] b → NameText x c → Tok [','] d → Tok ['.', '.', '.'] e →
      NameText y f → Tok [']'] g → Tok ['='] h → ExprText (.chain 0) l i → BlockText k j →
      Tok "else".toList m → BlockText k' n →
      ExprText .atomic (.ifList l x y k k')
        (a ++ (b ++ (c ++ (d ++ (e ++ (f ++ (g ++ (h ++ (i ++ (j ++ (m ++ n)))))))))))
  | ifMap {x : Name} {m k : Expr} {t t' : Block} {a b c d e f g h i j : List Char} :
      Tok "if".toList a → NameText x b → Tok ['='] c → ExprText (.chain 0) m d → Tok ['['] e →
      ExprText (.chain 0) k f → Tok [']'] g → BlockText t h → Tok "else".toList i → BlockText t' j →
      ExprText .atomic (.ifMap x m k t t')
        (a ++ (b ++ (c ++ (d ++ (e ++ (f ++ (g ++ (h ++ (i ++ j)))))))))
  | ifType {x : Name} {y : Expr} {k : TypeBranch} {ks : List TypeBranch} {z : Option Block}
      {a b c d e f g h : List Char} :
      Tok "if".toList a → NameText x b → Tok ['='] c → ExprText (.chain 0) y d → Tok "as".toList e →
      TypeBranchText k f → Repeated ElseIfTypeText ks g → Optional ElseText z h →
      ExprText .atomic (.ifType x y (k :: ks) z)
        (a ++ (b ++ (c ++ (d ++ (e ++ (f ++ (g ++ h)))))))
  | list {t : Ty} {xs : List ListElement} {a b c d : List Char} :
      Tok ['['] a → TypeText .any t b → Elements ListElementText xs c → Tok [']'] d →
      ExprText .atomic (.list t xs) (a ++ (b ++ (c ++ d)))
  | comprehension {t : Ty} {x : Expr} {k : CompBranch} {ks : List CompBranch}
      {a b c d e f : List Char} :
      Tok ['['] a → TypeText .any t b → ExprText (.chain 0) x c → CompBranchText k d →
      Repeated CompBranchText ks e → Tok [']'] f →
      ExprText .atomic (.comprehension t x (k :: ks)) (a ++ (b ++ (c ++ (d ++ (e ++ f)))))
  | map {k v : Ty} {xs : List MapElement} {a b c d e f : List Char} :
      Tok ['{'] a → TypeText .any k b → Tok [':'] c → TypeText .any v d →
      Elements MapElementText xs e → Tok ['}'] f →
      ExprText .atomic (.map k v xs) (a ++ (b ++ (c ++ (d ++ (e ++ f)))))
  | record {x : Name} {fs : List Field} {a b c d : List Char} :
      QualifiedText x a → Tok ['{'] b → Elements FieldText fs c → Tok ['}'] d →
      (fs.map Field.name).Nodup → ExprText .atomic (.record x none fs) (a ++ (b ++ (c ++ d)))
  | update {x : Name} {r : Expr} {fs : List Field} {a b c d e f g : List Char} :
      QualifiedText x a → Tok ['{'] b → Tok ['.', '.', '.'] c → ExprText (.chain 0) r d →
      Tok [','] e → Elements1 FieldText fs f → Tok ['}'] g → (fs.map Field.name).Nodup →
      ExprText .atomic (.record x (some r) fs) (a ++ (b ++ ((c ++ (d ++ (e ++ f))) ++ g)))

/-- Blocks: statements with an expression at the end. -/
inductive BlockText : Block → List Char → Prop where
  | mk {ss : List Statement} {e : Expr} {a b c d : List Char} :
      Tok ['{'] a → Repeated StatementText ss b → ExprText (.chain 0) e c → Tok ['}'] d →
      BlockText (.mk ss e) (a ++ (b ++ (c ++ d)))

/-- Statements, with or without a name. -/
inductive StatementText : Statement → List Char → Prop where
  | named {x : Name} {e : Expr} {a b c : List Char} :
      NameText x a → Tok ['='] b → ExprText (.chain 0) e c →
      StatementText (.mk (some x) e) (a ++ (b ++ c))
  | unnamed {e : Expr} {u : List Char} : ExprText (.chain 0) e u → StatementText (.mk none e) u

inductive BranchText : Branch → List Char → Prop where
  | mk {e : Expr} {k : Block} {a b : List Char} :
      ExprText (.chain 0) e a → BlockText k b → BranchText (.mk e k) (a ++ b)

inductive ElseIfText : Branch → List Char → Prop where
  | mk {k : Branch} {a b c : List Char} :
      Tok "else".toList a → Tok "if".toList b → BranchText k c → ElseIfText k (a ++ (b ++ c))

inductive TypeBranchText : TypeBranch → List Char → Prop where
  | mk {t : Ty} {k : Block} {a b : List Char} :
      TypeText .any t a → BlockText k b → TypeBranchText (.mk t k) (a ++ b)

inductive ElseIfTypeText : TypeBranch → List Char → Prop where
  | mk {k : TypeBranch} {a b c : List Char} :
      Tok "else".toList a → Tok "if".toList b → TypeBranchText k c →
      ElseIfTypeText k (a ++ (b ++ c))

inductive ElseText : Block → List Char → Prop where
  | mk {k : Block} {a b : List Char} : Tok "else".toList a → BlockText k b → ElseText k (a ++ b)

inductive ListElementText : ListElement → List Char → Prop where
  | multiple {e : Expr} {a b : List Char} :
      Tok ['.', '.', '.'] a → ExprText (.chain 0) e b → ListElementText (.multiple e) (a ++ b)
  | single {e : Expr} {u : List Char} : ExprText (.chain 0) e u → ListElementText (.single e) u

inductive MapElementText : MapElement → List Char → Prop where
  | multiple {e : Expr} {a b : List Char} :
      Tok ['.', '.', '.'] a → ExprText (.chain 0) e b → MapElementText (.multiple e) (a ++ b)
  | entry {k v : Expr} {a b c : List Char} :
      ExprText (.chain 0) k a → Tok [':'] b → ExprText (.chain 0) v c →
      MapElementText (.entry k v) (a ++ (b ++ c))

inductive FieldText : Field → List Char → Prop where
  | mk {x : Name} {e : Expr} {a b c : List Char} :
      NameText x a → Tok [':'] b → ExprText (.chain 0) e c → FieldText (.mk x e) (a ++ (b ++ c))

inductive CompBranchText : CompBranch → List Char → Prop where
  | mk {xs : List Name} {es : List Expr} {z : Option Expr} {a b c d e : List Char} :
      Tok "for".toList a → Elements1 NameText xs b → Tok "in".toList c →
      Elements1 (ExprText (.chain 0)) es d → Optional ConditionText z e →
      CompBranchText (.mk xs es z) (a ++ (b ++ (c ++ (d ++ e))))

inductive ConditionText : Expr → List Char → Prop where
  | mk {e : Expr} {a b : List Char} :
      Tok "if".toList a → ExprText (.chain 0) e b → ConditionText e (a ++ b)

end

/-! ## Modules -/

/-- A component of a path, after `'`. -/
inductive ComponentText : Name → List Char → Prop where
  | mk {x u : List Char} : NameText x u → ComponentText x (['\''] ++ u)

inductive PathText : ModulePath → List Char → Prop where
  | external {b p u v : List Char} {c : Name} {cs : List Name} :
      Blank b → NameText p u → ComponentText c v → (∀ x ∈ c :: cs, isPublic x = true) →
      {w : List Char} → Repeated ComponentText cs w →
      PathText (.external p (c :: cs)) (b ++ (u ++ (v ++ w)))
  | internal {b v w : List Char} {c : Name} {cs : List Name} :
      Blank b → ComponentText c v → Repeated ComponentText cs w →
      PathText (.internal (c :: cs)) (b ++ (v ++ w))

/-- `as` and the prefix of an import. -/
inductive AliasText : Name → List Char → Prop where
  | mk {x a b : List Char} : Tok "as".toList a → NameText x b → AliasText x (a ++ b)

/-- The names of an import. -/
inductive NamesText : List Name → List Char → Prop where
  | none : NamesText [] []
  | some {xs : List Name} {a b c : List Char} :
      Tok ['{'] a → Elements1 NameText xs b → Tok ['}'] c → NamesText xs (a ++ (b ++ c))

inductive ImportText : Import → List Char → Prop where
  | mk {p : ModulePath} {x : Option Name} {xs : List Name} {a b c d : List Char} :
      Tok "import".toList a → PathText p b → Optional AliasText x c → NamesText xs d →
      ImportText ⟨p, x, xs⟩ (a ++ (b ++ (c ++ d)))

/-- A calling convention. -/
inductive ConventionText : CallingConvention → List Char → Prop where
  | native : ConventionText .native []
  | c {u : List Char} : Tok ['"', 'c', '"'] u → ConventionText .c u

inductive ForeignImportText : ForeignImport → List Char → Prop where
  | mk {x : Name} {k : CallingConvention} {t : Ty} {a b c d e : List Char} :
      Tok "import".toList a → Tok "foreign".toList b → ConventionText k c → NameText x d →
      TypeText .any t e → ForeignImportText ⟨x, k, t⟩ (a ++ (b ++ (c ++ (d ++ e))))

inductive TypeDefinitionText : TypeDefinition → List Char → Prop where
  | record {x : Name} {fs : List (Name × Ty)} {a b c d e : List Char} :
      Tok "type".toList a → NameText x b → Tok ['{'] c → Repeated TypedText fs d → Tok ['}'] e →
      TypeDefinitionText (.record x fs) (a ++ (b ++ (c ++ (d ++ e))))
  | alias_ {x : Name} {t : Ty} {a b c d : List Char} :
      Tok "type".toList a → NameText x b → Tok ['='] c → TypeText .any t d →
      TypeDefinitionText (.alias_ x t) (a ++ (b ++ (c ++ d)))

/-- What is before an exported function. -/
inductive ExportText : CallingConvention → List Char → Prop where
  | mk {k : CallingConvention} {a b : List Char} :
      Tok "foreign".toList a → ConventionText k b → ExportText k (a ++ b)

/-- A function literal. -/
inductive LambdaText : Lambda → List Char → Prop where
  | mk {xs : List (Name × Ty)} {t : Ty} {k : Block} {a b c d e : List Char} :
      Tok ['\\', '('] a → Elements TypedText xs b → Tok [')'] c → TypeText .any t d →
      BlockText k e → LambdaText ⟨xs, t, k⟩ (a ++ (b ++ (c ++ (d ++ e))))

inductive FunctionText : FunctionDefinition → List Char → Prop where
  | mk {x : Name} {l : Lambda} {k : Option CallingConvention} {a b c d : List Char} :
      Optional ExportText k a → NameText x b → Tok ['='] c → LambdaText l d →
      FunctionText ⟨x, l, k⟩ (a ++ (b ++ (c ++ d)))

/-- White space and comments, of which the last one need not end with a line break. -/
inductive FinalBlank : List Char → Prop where
  | blank {b : List Char} : Blank b → FinalBlank b
  | comment {b t : List Char} : Blank b → (∀ d ∈ t, isNewline d = false) → FinalBlank (b ++ '#' :: t)

/-- Modules: imports, foreign imports, types and functions, in this order. -/
inductive ModuleText : Module → List Char → Prop where
  | mk {is : List Import} {fs : List ForeignImport} {ts : List TypeDefinition}
      {ds : List FunctionDefinition} {a b c d e : List Char} :
      Repeated ImportText is a → Repeated ForeignImportText fs b → Repeated TypeDefinitionText ts c →
      Repeated FunctionText ds d → FinalBlank e →
      ModuleText ⟨is, fs, ts, ds⟩ (a ++ (b ++ (c ++ (d ++ e))))

end Verif.Grammar
