import Verif.Grammar.Printer

/-
Specification for the round trip: which syntax trees the formatter writes faithfully.

A tree is *plain* if its names and literals are such as the parser makes them and if it has none of
the following shapes, which the formatter writes without the parentheses they need (see
`Properties.lean` for what happens to each of them):

1. a binary operation as the right operand of a binary operation of the same priority;
2. a binary operation or `!`-operation that is called, whose field is read, or (only `!`) that is
   followed by `?`;
3. a field of a number literal;
4. a function type as the last member of a union type; a union type as the right member of a union
   type (which is only regrouped);
5. an `if` whose first condition starts with a list;
6. in a block, a statement followed by one that starts with a signed number or one that starts with
   a point, or a statement ending with a variable followed by one that starts with a map.
-/

namespace Verif.Grammar

/-! ## Names and literals -/

/-- An identifier that is not a keyword. -/
def IsIdentifier (x : Name) : Prop :=
  ∃ c s, x = c :: s ∧ (c.isAlpha = true ∨ c = '_') ∧ (∀ d ∈ s, isWord d = true) ∧ x ∉ keywords

/-- An identifier, or two joined by `'`. -/
def IsQualified (x : Name) : Prop :=
  IsIdentifier x ∨ ∃ a b, x = a ++ '\'' :: b ∧ IsIdentifier a ∧ IsIdentifier b

/-- A non-empty sequence of decimal digits. -/
def IsDigits (s : List Char) : Prop := s ≠ [] ∧ ∀ c ∈ s, c.isDigit = true

/-- A sign or nothing. -/
def IsSign (s : List Char) : Prop := s = [] ∨ s = ['+'] ∨ s = ['-']

/-- A decimal literal: a sign, digits with a fraction, and an exponent, of which at least some
digits have to be there. -/
def IsDecimal (s : List Char) : Prop :=
  ∃ sgn m e, s = sgn ++ m ++ e ∧ IsSign sgn ∧
    (IsDigits m ∨ (∃ d, m = d ++ ['.'] ∧ IsDigits d) ∨
      (∃ d f, m = d ++ '.' :: f ∧ IsDigits d ∧ IsDigits f) ∨ (∃ f, m = '.' :: f ∧ IsDigits f)) ∧
    (e = [] ∨ ∃ x sgn' d, e = x :: (sgn' ++ d) ∧ (x = 'e' ∨ x = 'E') ∧ IsSign sgn' ∧ IsDigits d)

/-- A number literal as the parser makes it. -/
def IsNumber : Number → Prop
  | .binary d => d ≠ [] ∧ ∀ c ∈ d, c = '0' ∨ c = '1'
  | .hexadecimal d => d ≠ [] ∧ ∀ c ∈ d, isHex c = true ∧ c.isUpper = false
  | .floatingPoint t => IsDecimal t

/-- A character or an escape sequence of a string literal. -/
def IsStringPiece (p : List Char) : Prop :=
  (∃ c, p = [c] ∧ c ≠ '"' ∧ c ≠ '\\') ∨
  (∃ e, p = ['\\', e] ∧ (e = '\\' ∨ e = '"' ∨ e = 'n' ∨ e = 'r' ∨ e = 't')) ∨
  (∃ h l, p = ['\\', 'x', h, l] ∧ isHex h = true ∧ isHex l = true)

/-- The text of a string literal. -/
def IsStringText (s : List Char) : Prop := ∃ ps : List (List Char), s = ps.flatten ∧
  ∀ p ∈ ps, IsStringPiece p

/-! ## Types -/

/-- Is it a union? -/
def Ty.isUnion : Ty → Bool
  | .union .. => true
  | _ => false

/-- Is it a function type? -/
def Ty.isFunction : Ty → Bool
  | .function .. => true
  | _ => false

mutual

/-- Types that are written faithfully. -/
def Ty.Plain : Ty → Prop
  | .function as r => allPlainTypes as ∧ r.Plain
  | .list t => t.Plain
  | .map k v => k.Plain ∧ v.Plain
  | .reference x => IsQualified x
  | .union l r => l.Plain ∧ r.Plain ∧ r.isUnion = false ∧ r.isFunction = false

def allPlainTypes : List Ty → Prop
  | [] => True
  | t :: ts => t.Plain ∧ allPlainTypes ts

end

/-! ## Expressions -/

/-- Can a suffix follow it without parentheses? -/
def Expr.suffixable : Expr → Bool
  | .binary .. => false
  | .unary .not _ => false
  | _ => true

/-- Is it a number literal? -/
def Expr.isNumber : Expr → Bool
  | .number _ => true
  | _ => false

/-- How the text of an expression starts. -/
inductive Opening where
  | parenthesis
  | bang
  | bracket
  | brace
  /-- A sign or point of a number. -/
  | sign
  /-- A letter, digit, quote or backslash. -/
  | other
deriving DecidableEq

/-- How the text of an expression starts. -/
def opening : Expr → Opening
  | .binary o l _ => if lower o l then .parenthesis else opening l
  | .call f _ => opening f
  | .list .. => .bracket
  | .comprehension .. => .bracket
  | .map .. => .brace
  | .number n =>
    if startsWith (fun c => c = '+' || c = '-' || c = '.') (numberText n) then .sign else .other
  | .field r _ => opening r
  | .unary .not _ => .bang
  | .unary .try_ e => if e.isBinary then .parenthesis else opening e
  | _ => .other

/-- Does the text of an expression end with a variable? -/
def endsWithName : Expr → Bool
  | .binary o _ r => if lower o r then false else endsWithName r
  | .unary .not e => if e.isBinary then false else endsWithName e
  | .variable _ => true
  | _ => false

/-- Does an expression `e` stay apart from a following expression `f` on the next line? -/
def Apart (e f : Expr) : Prop :=
  opening f ≠ .sign ∧ ¬ (endsWithName e = true ∧ opening f = .brace)

/-- A statement with a name starts with this name, so that it stays apart from everything. -/
def ApartStatement (e : Expr) : Statement → Prop
  | .mk none f => Apart e f
  | .mk (some _) _ => True

/-- The expression of a statement. -/
def Statement.expr : Statement → Expr
  | .mk _ e => e

/-- All statements of a block stay apart from the next one, and the last one from the
expression. -/
def AllApart : List Statement → Expr → Prop
  | [], _ => True
  | [s], e => Apart s.expr e
  | s :: t :: ss, e => ApartStatement s.expr t ∧ AllApart (t :: ss) e

/-- The condition of the first branch does not start with a list. -/
def FirstCondition : List Branch → Prop
  | [] => False
  | .mk c _ :: _ => opening c ≠ .bracket

mutual

/-- Expressions that are written faithfully. -/
def Expr.Plain : Expr → Prop
  | .binary o l r => l.Plain ∧ r.Plain ∧ ∀ o' a b, r = .binary o' a b → o'.priority ≠ o.priority
  | .call f as => f.Plain ∧ f.suffixable = true ∧ allPlain as
  | .if_ bs e => FirstCondition bs ∧ allPlainBranches bs ∧ e.Plain
  | .ifList l x y t e => l.Plain ∧ IsIdentifier x ∧ IsIdentifier y ∧ t.Plain ∧ e.Plain
  | .ifMap x m k t e => IsIdentifier x ∧ m.Plain ∧ k.Plain ∧ t.Plain ∧ e.Plain
  | .ifType x e bs f => IsIdentifier x ∧ e.Plain ∧ bs ≠ [] ∧ allPlainTypeBranches bs ∧ plainElse f
  | .lambda as t b => (∀ a ∈ as, IsIdentifier a.1 ∧ a.2.Plain) ∧ t.Plain ∧ b.Plain
  | .list t es => t.Plain ∧ allPlainListElements es
  | .comprehension t e bs => t.Plain ∧ e.Plain ∧ bs ≠ [] ∧ allPlainCompBranches bs
  | .map k v es => k.Plain ∧ v.Plain ∧ allPlainMapElements es
  | .number n => IsNumber n
  | .record x r fs =>
    IsQualified x ∧ plainOption r ∧ (r.isSome = true → fs ≠ []) ∧ allPlainFields fs ∧
      (fs.map Field.name).Nodup
  | .field r x => r.Plain ∧ r.suffixable = true ∧ r.isNumber = false ∧ IsIdentifier x
  | .string s => IsStringText s
  | .unary .not e => e.Plain
  | .unary .try_ e => e.Plain ∧ (e.isBinary = true ∨ e.suffixable = true)
  | .variable x => IsQualified x

def allPlain : List Expr → Prop
  | [] => True
  | e :: es => e.Plain ∧ allPlain es

def allPlainBranches : List Branch → Prop
  | [] => True
  | .mk c b :: bs => c.Plain ∧ b.Plain ∧ allPlainBranches bs

def allPlainTypeBranches : List TypeBranch → Prop
  | [] => True
  | .mk t b :: bs => t.Plain ∧ b.Plain ∧ allPlainTypeBranches bs

def plainElse : Option Block → Prop
  | none => True
  | some b => b.Plain

def Block.Plain : Block → Prop
  | .mk ss e => allPlainStatements ss ∧ e.Plain ∧ AllApart ss e

def allPlainStatements : List Statement → Prop
  | [] => True
  | .mk x e :: ss => (∀ y, x = some y → IsIdentifier y) ∧ e.Plain ∧ allPlainStatements ss

def allPlainListElements : List ListElement → Prop
  | [] => True
  | .multiple e :: es => e.Plain ∧ allPlainListElements es
  | .single e :: es => e.Plain ∧ allPlainListElements es

def allPlainMapElements : List MapElement → Prop
  | [] => True
  | .multiple e :: es => e.Plain ∧ allPlainMapElements es
  | .entry k v :: es => k.Plain ∧ v.Plain ∧ allPlainMapElements es

def plainOption : Option Expr → Prop
  | none => True
  | some e => e.Plain

def allPlainFields : List Field → Prop
  | [] => True
  | .mk x e :: fs => IsIdentifier x ∧ e.Plain ∧ allPlainFields fs

def allPlainCompBranches : List CompBranch → Prop
  | [] => True
  | .mk xs es c :: bs =>
    xs ≠ [] ∧ (∀ x ∈ xs, IsIdentifier x) ∧ es ≠ [] ∧ allPlain es ∧ plainOption c ∧
      allPlainCompBranches bs

end

/-! ## What the parser makes, and what the formatter keeps

`Plain` is the conjunction of the two (`plain_of` in `Sources.lean`). -/

mutual

/-- Types as the parser makes them: names are identifiers, possibly qualified. -/
def Ty.Made : Ty → Prop
  | .function as r => allMadeTypes as ∧ r.Made
  | .list t => t.Made
  | .map k v => k.Made ∧ v.Made
  | .reference x => IsQualified x
  | .union l r => l.Made ∧ r.Made

def allMadeTypes : List Ty → Prop
  | [] => True
  | t :: ts => t.Made ∧ allMadeTypes ts

end

mutual

/-- Types without the shapes of 4. -/
def Ty.Safe : Ty → Prop
  | .function as r => allSafeTypes as ∧ r.Safe
  | .list t => t.Safe
  | .map k v => k.Safe ∧ v.Safe
  | .reference _ => True
  | .union l r => l.Safe ∧ r.Safe ∧ r.isUnion = false ∧ r.isFunction = false

def allSafeTypes : List Ty → Prop
  | [] => True
  | t :: ts => t.Safe ∧ allSafeTypes ts

end

mutual

/-- Expressions as the parser makes them: names are identifiers, literals are literals, there is at
least one branch, element or name where the grammar asks for one, and the names of the fields of a
record are different. -/
def Expr.Made : Expr → Prop
  | .binary _ l r => l.Made ∧ r.Made
  | .call f as => f.Made ∧ allMade as
  | .if_ bs e => bs ≠ [] ∧ allMadeBranches bs ∧ e.Made
  | .ifList l x y t e => l.Made ∧ IsIdentifier x ∧ IsIdentifier y ∧ t.Made ∧ e.Made
  | .ifMap x m k t e => IsIdentifier x ∧ m.Made ∧ k.Made ∧ t.Made ∧ e.Made
  | .ifType x e bs f => IsIdentifier x ∧ e.Made ∧ bs ≠ [] ∧ allMadeTypeBranches bs ∧ madeElse f
  | .lambda as t b => (∀ a ∈ as, IsIdentifier a.1 ∧ a.2.Made) ∧ t.Made ∧ b.Made
  | .list t es => t.Made ∧ allMadeListElements es
  | .comprehension t e bs => t.Made ∧ e.Made ∧ bs ≠ [] ∧ allMadeCompBranches bs
  | .map k v es => k.Made ∧ v.Made ∧ allMadeMapElements es
  | .number n => IsNumber n
  | .record x r fs =>
    IsQualified x ∧ madeOption r ∧ (r.isSome = true → fs ≠ []) ∧ allMadeFields fs ∧
      (fs.map Field.name).Nodup
  | .field r x => r.Made ∧ IsIdentifier x
  | .string s => IsStringText s
  | .unary _ e => e.Made
  | .variable x => IsQualified x

def allMade : List Expr → Prop
  | [] => True
  | e :: es => e.Made ∧ allMade es

def allMadeBranches : List Branch → Prop
  | [] => True
  | .mk c b :: bs => c.Made ∧ b.Made ∧ allMadeBranches bs

def allMadeTypeBranches : List TypeBranch → Prop
  | [] => True
  | .mk t b :: bs => t.Made ∧ b.Made ∧ allMadeTypeBranches bs

def madeElse : Option Block → Prop
  | none => True
  | some b => b.Made

def Block.Made : Block → Prop
  | .mk ss e => allMadeStatements ss ∧ e.Made

def allMadeStatements : List Statement → Prop
  | [] => True
  | .mk x e :: ss => (∀ y, x = some y → IsIdentifier y) ∧ e.Made ∧ allMadeStatements ss

def allMadeListElements : List ListElement → Prop
  | [] => True
  | .multiple e :: es => e.Made ∧ allMadeListElements es
  | .single e :: es => e.Made ∧ allMadeListElements es

def allMadeMapElements : List MapElement → Prop
  | [] => True
  | .multiple e :: es => e.Made ∧ allMadeMapElements es
  | .entry k v :: es => k.Made ∧ v.Made ∧ allMadeMapElements es

def madeOption : Option Expr → Prop
  | none => True
  | some e => e.Made

def allMadeFields : List Field → Prop
  | [] => True
  | .mk x e :: fs => IsIdentifier x ∧ e.Made ∧ allMadeFields fs

def allMadeCompBranches : List CompBranch → Prop
  | [] => True
  | .mk xs es c :: bs =>
    xs ≠ [] ∧ (∀ x ∈ xs, IsIdentifier x) ∧ es ≠ [] ∧ allMade es ∧ madeOption c ∧
      allMadeCompBranches bs

end

mutual

/-- Expressions without the shapes of 1 to 6. -/
def Expr.Safe : Expr → Prop
  | .binary o l r => l.Safe ∧ r.Safe ∧ ∀ o' a b, r = .binary o' a b → o'.priority ≠ o.priority
  | .call f as => f.Safe ∧ f.suffixable = true ∧ allSafe as
  | .if_ bs e => (bs ≠ [] → FirstCondition bs) ∧ allSafeBranches bs ∧ e.Safe
  | .ifList l _ _ t e => l.Safe ∧ t.Safe ∧ e.Safe
  | .ifMap _ m k t e => m.Safe ∧ k.Safe ∧ t.Safe ∧ e.Safe
  | .ifType _ e bs f => e.Safe ∧ allSafeTypeBranches bs ∧ safeElse f
  | .lambda as t b => (∀ a ∈ as, a.2.Safe) ∧ t.Safe ∧ b.Safe
  | .list t es => t.Safe ∧ allSafeListElements es
  | .comprehension t e bs => t.Safe ∧ e.Safe ∧ allSafeCompBranches bs
  | .map k v es => k.Safe ∧ v.Safe ∧ allSafeMapElements es
  | .number _ => True
  | .record _ r fs => safeOption r ∧ allSafeFields fs
  | .field r _ => r.Safe ∧ r.suffixable = true ∧ r.isNumber = false
  | .string _ => True
  | .unary .not e => e.Safe
  | .unary .try_ e => e.Safe ∧ (e.isBinary = true ∨ e.suffixable = true)
  | .variable _ => True

def allSafe : List Expr → Prop
  | [] => True
  | e :: es => e.Safe ∧ allSafe es

def allSafeBranches : List Branch → Prop
  | [] => True
  | .mk c b :: bs => c.Safe ∧ b.Safe ∧ allSafeBranches bs

def allSafeTypeBranches : List TypeBranch → Prop
  | [] => True
  | .mk t b :: bs => t.Safe ∧ b.Safe ∧ allSafeTypeBranches bs

def safeElse : Option Block → Prop
  | none => True
  | some b => b.Safe

def Block.Safe : Block → Prop
  | .mk ss e => allSafeStatements ss ∧ e.Safe ∧ AllApart ss e

def allSafeStatements : List Statement → Prop
  | [] => True
  | .mk _ e :: ss => e.Safe ∧ allSafeStatements ss

def allSafeListElements : List ListElement → Prop
  | [] => True
  | .multiple e :: es => e.Safe ∧ allSafeListElements es
  | .single e :: es => e.Safe ∧ allSafeListElements es

def allSafeMapElements : List MapElement → Prop
  | [] => True
  | .multiple e :: es => e.Safe ∧ allSafeMapElements es
  | .entry k v :: es => k.Safe ∧ v.Safe ∧ allSafeMapElements es

def safeOption : Option Expr → Prop
  | none => True
  | some e => e.Safe

def allSafeFields : List Field → Prop
  | [] => True
  | .mk _ e :: fs => e.Safe ∧ allSafeFields fs

def allSafeCompBranches : List CompBranch → Prop
  | [] => True
  | .mk _ es c :: bs => allSafe es ∧ safeOption c ∧ allSafeCompBranches bs

end

/-! ## Modules -/

/-- Module paths as the parser makes them: the components of external ones are public. -/
def PlainPath : ModulePath → Prop
  | .external p cs => IsIdentifier p ∧ cs ≠ [] ∧ ∀ c ∈ cs, IsIdentifier c ∧ isPublic c = true
  | .internal cs => cs ≠ [] ∧ ∀ c ∈ cs, IsIdentifier c

/-- Imports as the parser makes them. -/
def PlainImport (i : Import) : Prop :=
  PlainPath i.path ∧ (∀ a, i.alias? = some a → IsIdentifier a) ∧ ∀ x ∈ i.names, IsIdentifier x

def PlainTypeDefinition : TypeDefinition → Prop
  | .record x fs => IsIdentifier x ∧ ∀ f ∈ fs, IsIdentifier f.1 ∧ f.2.Plain
  | .alias_ x t => IsIdentifier x ∧ t.Plain

/-- Modules that are written faithfully. -/
def Module.Plain (m : Module) : Prop :=
  (∀ i ∈ m.imports, PlainImport i) ∧
  (∀ i ∈ m.foreignImports, IsIdentifier i.name ∧ i.type.Plain) ∧
  (∀ d ∈ m.types, PlainTypeDefinition d) ∧
  (∀ d ∈ m.functions, IsIdentifier d.name ∧ d.lambda.expression.Plain)

def MadeTypeDefinition : TypeDefinition → Prop
  | .record x fs => IsIdentifier x ∧ ∀ f ∈ fs, IsIdentifier f.1 ∧ f.2.Made
  | .alias_ x t => IsIdentifier x ∧ t.Made

def SafeTypeDefinition : TypeDefinition → Prop
  | .record _ fs => ∀ f ∈ fs, f.2.Safe
  | .alias_ _ t => t.Safe

/-- Modules as the parser makes them. -/
def Module.Made (m : Module) : Prop :=
  (∀ i ∈ m.imports, PlainImport i) ∧
  (∀ i ∈ m.foreignImports, IsIdentifier i.name ∧ i.type.Made) ∧
  (∀ d ∈ m.types, MadeTypeDefinition d) ∧
  (∀ d ∈ m.functions, IsIdentifier d.name ∧ d.lambda.expression.Made)

/-- Modules without the shapes of 1 to 6. -/
def Module.Safe (m : Module) : Prop :=
  (∀ i ∈ m.foreignImports, i.type.Safe) ∧
  (∀ d ∈ m.types, SafeTypeDefinition d) ∧
  (∀ d ∈ m.functions, d.lambda.expression.Safe)

/-- The module with its imports sorted, and the names of each import sorted. -/
def Module.sorted (m : Module) : Module :=
  { m with imports :=
      (orderedImports m.imports).map fun i => { i with names := i.names.mergeSort nameLe } }

/-- A text is a rendering of a module by the formatter: its texts are those that the formatter
writes, with any white space and comments in the places where the formatter writes any. -/
def Formatted (m : Module) (s : List Char) : Prop := Fills (printModule m) s

end Verif.Grammar
