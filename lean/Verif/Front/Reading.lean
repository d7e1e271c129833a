import Verif.Front.Facts

/-
What HIR says, read in the order in which a program is written: a separate description of what the
conversion has to keep, namely all names, literals, types and operators, in their order and nesting.
-/

namespace Verif.Front

open Verif

/-- What is written in a program. -/
inductive Token where
  | word (s : String)
  | name (x : String)
  | number (v : UInt64)
  | bytes (bs : List UInt8)
  | type (words : List String)
deriving DecidableEq

mutual

/-- How a type of HIR reads, in prefix notation. Types of the kinds missing here are not written in
programs: names of types are references. -/
def typeWords : Hir.Ty → List String
  | .function as r => "\\(" :: typesWords as ++ ")" :: typeWords r
  | .list t => "[" :: typeWords t
  | .map k v => "{" :: typeWords k ++ typeWords v
  | .union l r => "|" :: typeWords l ++ typeWords r
  | .reference x => [x]
  | _ => ["?"]

def typesWords : List Hir.Ty → List String
  | [] => []
  | t :: ts => "," :: typeWords t ++ typesWords ts

end

mutual

/-- How a type is written, in prefix notation. -/
def writtenType : Grammar.Ty → List String
  | .function as r => "\\(" :: writtenTypes as ++ ")" :: writtenType r
  | .list t => "[" :: writtenType t
  | .map k v => "{" :: writtenType k ++ writtenType v
  | .union l r => "|" :: writtenType l ++ writtenType r
  | .reference x => [text x]

def writtenTypes : List Grammar.Ty → List String
  | [] => []
  | t :: ts => "," :: writtenType t ++ writtenTypes ts

end

mutual

theorem convertType_reads : ∀ t : Grammar.Ty, typeWords (convertType t) = writtenType t
  | .function as r => by
    simp only [convertType, typeWords, writtenType, convertTypes_reads as, convertType_reads r]
  | .list t => by simp only [convertType, typeWords, writtenType, convertType_reads t]
  | .map k v => by simp only [convertType, typeWords, writtenType, convertType_reads k, convertType_reads v]
  | .union l r => by simp only [convertType, typeWords, writtenType, convertType_reads l, convertType_reads r]
  | .reference x => by simp only [convertType, typeWords, writtenType]

theorem convertTypes_reads : ∀ ts : List Grammar.Ty, typesWords (convertTypes ts) = writtenTypes ts
  | [] => rfl
  | t :: ts => by simp only [convertTypes, typesWords, writtenTypes, convertType_reads t, convertTypes_reads ts]

end

/-- The symbol of an arithmetic operator. -/
def arithmeticSymbol : Hir.ArithOp → String
  | .subtract => "-"
  | .multiply => "*"
  | .divide => "/"

def orderSymbol : Hir.OrderOp → String
  | .lessThan => "<"
  | .lessThanOrEqual => "<="
  | .greaterThan => ">"
  | .greaterThanOrEqual => ">="

def equalitySymbol : Hir.EqOp → String
  | .equal => "=="
  | .notEqual => "!="

def booleanSymbol : Hir.BoolOp → String
  | .and => "&"
  | .or => "|"

/-- The symbols of operators of the language (`lib/parse/src/operations.rs`). -/
def symbol : Grammar.BinOp → String
  | .add => "+"
  | .subtract => "-"
  | .multiply => "*"
  | .divide => "/"
  | .and => "&"
  | .or => "|"
  | .equal => "=="
  | .notEqual => "!="
  | .lessThan => "<"
  | .lessThanOrEqual => "<="
  | .greaterThan => ">"
  | .greaterThanOrEqual => ">="

/-- Something in parentheses. -/
def group (ts : List Token) : List Token := .word "(" :: ts ++ [.word ")"]

mutual

/-- How an expression of HIR reads. Blocks of statements are `let` expressions; expressions that are not
blocks are in parentheses. -/
inductive Reads : Hir.Expr → List Token → Prop
  | addition {l r a b} : Reads l a → Reads r b →
      Reads (.addition none l r) (group (a ++ .word "+" :: b))
  | arithmetic {o l r a b} : Reads l a → Reads r b →
      Reads (.arithmetic o l r) (group (a ++ .word (arithmeticSymbol o) :: b))
  | boolean {o l r a b} : Reads l a → Reads r b →
      Reads (.booleanOp o l r) (group (a ++ .word (booleanSymbol o) :: b))
  | equality {o l r a b} : Reads l a → Reads r b →
      Reads (.equality none o l r) (group (a ++ .word (equalitySymbol o) :: b))
  | order {o l r a b} : Reads l a → Reads r b →
      Reads (.order o l r) (group (a ++ .word (orderSymbol o) :: b))
  | not {e a} : Reads e a → Reads (.not e) (group (.word "!" :: a))
  | try_ {e a} : Reads e a → Reads (.try_ none e) (group (a ++ [.word "?"]))
  | call {f es a b} : Reads f a → ReadsAll es b → Reads (.call none f es) (group (a ++ b))
  | if_ {c t e a b k} : Reads c a → Reads t b → Reads e k →
      Reads (.if_ c t e) (.word "if" :: a ++ b ++ .word "else" :: k)
  | ifList {l x y t e a b k} : Reads l a → Reads t b → Reads e k →
      Reads (.ifList none l x y t e)
        (group (.word "if" :: .name x :: .name y :: a ++ b ++ .word "else" :: k))
  | ifMap {x m i t e a j b k} : Reads m a → Reads i j → Reads t b → Reads e k →
      Reads (.ifMap none none x m i t e)
        (group (.word "if" :: .name x :: a ++ .word "[" :: j ++ b ++ .word "else" :: k))
  | ifType {x e bs f a b k} : Reads e a → ReadsTypes bs b → ReadsElse f k →
      Reads (.ifType x e bs f) (group (.word "if" :: .name x :: a ++ b ++ k))
  | lambda {ps t b a} : Reads b a →
      Reads (.lambda ps t b)
        (group (.word "\\" :: ps.flatMap (fun p => [.name p.1, .type (typeWords p.2)]) ++ .type (typeWords t) :: a))
  | let_ {x e b a k} : Reads e a → Reads b k →
      Reads (.let_ (some x) none e b) (.name x :: .word "=" :: a ++ .word ";" :: k)
  | statement {e b a k} : Reads e a → Reads b k →
      Reads (.let_ none none e b) (a ++ .word ";" :: k)
  | list {t es a} : ReadsElements es a → Reads (.list t es) (group (.word "[" :: .type (typeWords t) :: a))
  | comprehension {t e b bs a k} : Reads e a → ReadsBranches (b :: bs) k →
      Reads (.comprehension t e b bs) (group (.word "[" :: .type (typeWords t) :: a ++ k))
  | map {k v es a} : ReadsEntries es a → Reads (.map k v es) (group (.word "{" :: .type (typeWords k) :: .type (typeWords v) :: a))
  | number {v} : Reads (.number v) [.number v]
  | record {t fs a} : ReadsFields fs a → Reads (.record t fs) (group (.type (typeWords t) :: .word "{" :: a))
  | update {t e fs a b} : Reads e a → ReadsFields fs b →
      Reads (.update t e fs) (group (.type (typeWords t) :: .word "{" :: .word "..." :: a ++ b))
  | field {e x a} : Reads e a → Reads (.deconstruct none e x) (group (a ++ [.word ".", .name x]))
  | string {s} : Reads (.string s) [.bytes s]
  | variable {x} : Reads (.variable x) [.name x]

inductive ReadsAll : List Hir.Expr → List Token → Prop
  | nil : ReadsAll [] []
  | cons {e es a b} : Reads e a → ReadsAll es b → ReadsAll (e :: es) (.word "," :: a ++ b)

inductive ReadsTypes : List (Hir.Ty × Hir.Expr) → List Token → Prop
  | nil : ReadsTypes [] []
  | cons {t e bs a b} : Reads e a → ReadsTypes bs b →
      ReadsTypes ((t, e) :: bs) (.word "as" :: .type (typeWords t) :: a ++ b)

inductive ReadsElse : Option (Option Hir.Ty × Hir.Expr) → List Token → Prop
  | none : ReadsElse none []
  | some {e a} : Reads e a → ReadsElse (some (none, e)) (.word "else" :: a)

inductive ReadsElements : List (Hir.ListElem Hir.Expr) → List Token → Prop
  | nil : ReadsElements [] []
  | single {e es a b} : Reads e a → ReadsElements es b → ReadsElements (.single e :: es) (.word "," :: a ++ b)
  | multiple {e es a b} : Reads e a → ReadsElements es b →
      ReadsElements (.multiple e :: es) (.word "..." :: a ++ b)

inductive ReadsEntries : List (Hir.MapElem Hir.Expr) → List Token → Prop
  | nil : ReadsEntries [] []
  | single {k v es a b c} : Reads k a → Reads v b → ReadsEntries es c →
      ReadsEntries (.single k v :: es) (.word "," :: a ++ .word ":" :: b ++ c)
  | multiple {e es a b} : Reads e a → ReadsEntries es b →
      ReadsEntries (.multiple e :: es) (.word "..." :: a ++ b)

inductive ReadsFields : List (String × Hir.Expr) → List Token → Prop
  | nil : ReadsFields [] []
  | cons {x e fs a b} : Reads e a → ReadsFields fs b →
      ReadsFields ((x, e) :: fs) (.name x :: .word ":" :: a ++ b)

/-- The loops of a comprehension: in HIR the outermost one comes first, and in a program the innermost
one. -/
inductive ReadsBranches : List (Hir.Branch Hir.Expr) → List Token → Prop
  | nil : ReadsBranches [] []
  | cons {xs es c bs a b k} : ReadsIteratees es a → ReadsCondition c b → ReadsBranches bs k →
      ReadsBranches (⟨xs, es, c⟩ :: bs) (k ++ (.word "for" :: xs.map .name ++ .word "in" :: a ++ b))

inductive ReadsIteratees : List (Option Hir.Ty × Hir.Expr) → List Token → Prop
  | nil : ReadsIteratees [] []
  | cons {e es a b} : Reads e a → ReadsIteratees es b → ReadsIteratees ((none, e) :: es) (.word "," :: a ++ b)

inductive ReadsCondition : Option Hir.Expr → List Token → Prop
  | none : ReadsCondition none []
  | some {e a} : Reads e a → ReadsCondition (some e) (.word "if" :: a)

end

/-! ## How programs are written -/

section

variable (R : Rounding)

/-- The value of a literal. -/
def numberToken : Grammar.Number → Token
  | .binary s => .number (R.natural (valueOf 2 s))
  | .hexadecimal s => .number (R.natural (valueOf 16 s))
  | .floatingPoint s => .number (R.decimal s)

mutual

/-- How an expression is written. -/
def tokens : Grammar.Expr → List Token
  | .binary o l r => group (tokens l ++ .word (symbol o) :: tokens r)
  | .call f as => group (tokens f ++ tokensAll as)
  | .if_ bs e => tokensBranches bs ++ tokensBlock e
  | .ifList l x y t e =>
    group (.word "if" :: .name (text x) :: .name (text y) :: tokens l ++ tokensBlock t ++ .word "else" :: tokensBlock e)
  | .ifMap x m k t e =>
    group (.word "if" :: .name (text x) :: tokens m ++ .word "[" :: tokens k ++ tokensBlock t ++
      .word "else" :: tokensBlock e)
  | .ifType x e bs f => group (.word "if" :: .name (text x) :: tokens e ++ tokensTypes bs ++ tokensElse f)
  | .lambda as t b =>
    group (.word "\\" :: as.flatMap (fun a => [.name (text a.1), .type (writtenType a.2)]) ++
      .type (writtenType t) :: tokensBlock b)
  | .list t es => group (.word "[" :: .type (writtenType t) :: tokensElements es)
  | .comprehension t e bs => group (.word "[" :: .type (writtenType t) :: tokens e ++ tokensLoops bs)
  | .map k v es => group (.word "{" :: .type (writtenType k) :: .type (writtenType v) :: tokensEntries es)
  | .number n => [numberToken R n]
  | .record x r fs =>
    group (.type [text x] :: .word "{" :: tokensOld r ++ tokensFields fs)
  | .field e x => group (tokens e ++ [.word ".", .name (text x)])
  | .string s => [.bytes (convertString s)]
  | .unary .not e => group (.word "!" :: tokens e)
  | .unary .try_ e => group (tokens e ++ [.word "?"])
  | .variable x => [.name (text x)]

def tokensAll : List Grammar.Expr → List Token
  | [] => []
  | e :: es => .word "," :: tokens e ++ tokensAll es

def tokensBranches : List Grammar.Branch → List Token
  | [] => []
  | .mk c b :: bs => .word "if" :: tokens c ++ tokensBlock b ++ .word "else" :: tokensBranches bs

def tokensTypes : List Grammar.TypeBranch → List Token
  | [] => []
  | .mk t b :: bs => .word "as" :: .type (writtenType t) :: tokensBlock b ++ tokensTypes bs

def tokensElse : Option Grammar.Block → List Token
  | none => []
  | some b => .word "else" :: tokensBlock b

def tokensBlock : Grammar.Block → List Token
  | .mk ss e => tokensStatements ss ++ tokens e

def tokensStatements : List Grammar.Statement → List Token
  | [] => []
  | .mk (some x) e :: ss => .name (text x) :: .word "=" :: tokens e ++ .word ";" :: tokensStatements ss
  | .mk none e :: ss => tokens e ++ .word ";" :: tokensStatements ss

def tokensElements : List Grammar.ListElement → List Token
  | [] => []
  | .multiple e :: es => .word "..." :: tokens e ++ tokensElements es
  | .single e :: es => .word "," :: tokens e ++ tokensElements es

def tokensEntries : List Grammar.MapElement → List Token
  | [] => []
  | .multiple e :: es => .word "..." :: tokens e ++ tokensEntries es
  | .entry k v :: es => .word "," :: tokens k ++ .word ":" :: tokens v ++ tokensEntries es

def tokensOld : Option Grammar.Expr → List Token
  | none => []
  | some e => .word "..." :: tokens e

def tokensFields : List Grammar.Field → List Token
  | [] => []
  | .mk x e :: fs => .name (text x) :: .word ":" :: tokens e ++ tokensFields fs

def tokensLoops : List Grammar.CompBranch → List Token
  | [] => []
  | .mk xs es c :: bs =>
    (.word "for" :: xs.map (fun x => .name (text x)) ++ .word "in" :: tokensAll es ++ tokensCondition c) ++
      tokensLoops bs

def tokensCondition : Option Grammar.Expr → List Token
  | none => []
  | some e => .word "if" :: tokens e

end

/-! ## Conversion keeps what is written -/

theorem reads_operator (o : Grammar.BinOp) {l r : Hir.Expr} {a b : List Token} (hl : Reads l a)
    (hr : Reads r b) : Reads (convertOperator o l r) (group (a ++ .word (symbol o) :: b)) := by
  cases o
  · exact .boolean (o := .or) hl hr
  · exact .boolean (o := .and) hl hr
  · exact .equality (o := .equal) hl hr
  · exact .equality (o := .notEqual) hl hr
  · exact .order (o := .lessThan) hl hr
  · exact .order (o := .lessThanOrEqual) hl hr
  · exact .order (o := .greaterThan) hl hr
  · exact .order (o := .greaterThanOrEqual) hl hr
  · exact .addition hl hr
  · exact .arithmetic (o := .subtract) hl hr
  · exact .arithmetic (o := .multiply) hl hr
  · exact .arithmetic (o := .divide) hl hr

theorem readsIteratees_of {es : List Hir.Expr} {a : List Token} (h : ReadsAll es a) :
    ReadsIteratees (es.map fun e => (none, e)) a := by
  induction es generalizing a with
  | nil => cases h; exact .nil
  | cons e es ih => cases h with | cons h1 h2 => exact .cons h1 (ih h2)

theorem readsBranches_append {bs cs : List (Hir.Branch Hir.Expr)} {a b : List Token}
    (h : ReadsBranches bs a) (h' : ReadsBranches cs b) : ReadsBranches (bs ++ cs) (b ++ a) := by
  induction bs generalizing a with
  | nil => cases h; simpa using h'
  | cons c bs ih =>
    cases h with
    | cons h1 h2 h3 =>
      rw [← List.append_assoc]
      exact .cons h1 h2 (ih h3)

variable {R}

mutual

theorem convert_reads : ∀ {e : Grammar.Expr} {h : Hir.Expr}, e.Made → convert R e = some h →
    Reads h (tokens R e)
  | .binary o a b, h, m, hc => by
    simp only [convert, Option.bind_eq_bind, Option.bind_eq_some_iff, Option.some.injEq] at hc
    obtain ⟨a', h1, b', h2, rfl⟩ := hc
    exact reads_operator o (convert_reads m.1 h1) (convert_reads m.2 h2)
  | .call f as, h, m, hc => by
    simp only [convert, Option.bind_eq_bind, Option.bind_eq_some_iff, Option.some.injEq] at hc
    obtain ⟨f', h1, as', h2, rfl⟩ := hc
    exact .call (convert_reads m.1 h1) (convertAll_reads m.2 h2)
  | .if_ bs e, h, m, hc => by
    simp only [convert, Option.bind_eq_bind, Option.bind_eq_some_iff] at hc
    obtain ⟨e', h1, h2⟩ := hc
    exact convertIf_reads (convertBlock_reads m.2.2 h1) m.2.1 h2
  | .ifList l x y t e, h, m, hc => by
    simp only [convert, Option.bind_eq_bind, Option.bind_eq_some_iff, Option.some.injEq] at hc
    obtain ⟨l', h1, t', h2, e', h3, rfl⟩ := hc
    exact .ifList (convert_reads m.1 h1) (convertBlock_reads m.2.2.2.1 h2) (convertBlock_reads m.2.2.2.2 h3)
  | .ifMap x a b t e, h, m, hc => by
    simp only [convert, Option.bind_eq_bind, Option.bind_eq_some_iff, Option.some.injEq] at hc
    obtain ⟨a', h1, b', h2, t', h3, e', h4, rfl⟩ := hc
    exact .ifMap (convert_reads m.2.1 h1) (convert_reads m.2.2.1 h2) (convertBlock_reads m.2.2.2.1 h3)
      (convertBlock_reads m.2.2.2.2 h4)
  | .ifType x e bs f, h, m, hc => by
    simp only [convert, Option.bind_eq_bind, Option.bind_eq_some_iff, Option.some.injEq] at hc
    obtain ⟨e', h1, bs', h2, f', h3, rfl⟩ := hc
    exact .ifType (convert_reads m.2.1 h1) (convertTypeBranches_reads m.2.2.2.1 h2)
      (convertElse_reads m.2.2.2.2 h3)
  | .lambda as t b, h, m, hc => by
    simp only [convert, Option.bind_eq_bind, Option.bind_eq_some_iff, Option.some.injEq] at hc
    obtain ⟨b', h1, rfl⟩ := hc
    have := Reads.lambda (ps := as.map fun a => (text a.1, convertType a.2)) (t := convertType t)
      (convertBlock_reads m.2.2 h1)
    rw [List.flatMap_map] at this
    simpa only [tokens, convertType_reads] using this
  | .list t es, h, m, hc => by
    simp only [convert, Option.bind_eq_bind, Option.bind_eq_some_iff, Option.some.injEq] at hc
    obtain ⟨es', h1, rfl⟩ := hc
    have := Reads.list (t := convertType t) (convertListElements_reads m.2 h1)
    simpa only [tokens, convertType_reads] using this
  | .comprehension t e bs, h, m, hc => by
    simp only [convert, Option.bind_eq_bind, Option.bind_eq_some_iff] at hc
    obtain ⟨e', h1, bs', h2, h3⟩ := hc
    have hb := convertCompBranches_reads m.2.2.2 h2
    split at h3
    · cases h3
    · rename_i c cs hcs
      cases h3
      rw [hcs] at hb
      have := Reads.comprehension (t := convertType t) (convert_reads m.2.1 h1) hb
      simpa only [tokens, convertType_reads] using this
  | .map k v es, h, m, hc => by
    simp only [convert, Option.bind_eq_bind, Option.bind_eq_some_iff, Option.some.injEq] at hc
    obtain ⟨es', h1, rfl⟩ := hc
    have := Reads.map (k := convertType k) (v := convertType v) (convertMapElements_reads m.2.2 h1)
    simpa only [tokens, convertType_reads] using this
  | .number n, h, m, hc => by
    simp only [convert, Option.bind_eq_bind, Option.bind_eq_some_iff, Option.some.injEq] at hc
    obtain ⟨v, h1, rfl⟩ := hc
    have : tokens R (.number n) = [.number v] := by
      rw [convertNumber_spec R m] at h1
      cases n with
      | binary s =>
        simp only at h1
        split at h1
        · cases h1; rfl
        · cases h1
      | hexadecimal s =>
        simp only at h1
        split at h1
        · cases h1; rfl
        · cases h1
      | floatingPoint s => cases h1; rfl
    rw [this]
    exact .number
  | .record x r fs, h, m, hc => by
    simp only [convert, Option.bind_eq_bind, Option.bind_eq_some_iff] at hc
    obtain ⟨fs', h1, h2⟩ := hc
    have hf := convertFields_reads m.2.2.2.1 h1
    cases r with
    | none => cases h2; exact .record hf
    | some e =>
      simp only [convertRecord, Option.bind_eq_bind, Option.bind_eq_some_iff, Option.some.injEq] at h2
      obtain ⟨e', h3, rfl⟩ := h2
      exact .update (convert_reads (e := e) m.2.1 h3) hf
  | .field r x, h, m, hc => by
    simp only [convert, Option.bind_eq_bind, Option.bind_eq_some_iff, Option.some.injEq] at hc
    obtain ⟨r', h1, rfl⟩ := hc
    exact .field (convert_reads m.1 h1)
  | .string s, h, m, hc => by cases hc; exact .string
  | .unary .not e, h, m, hc => by
    simp only [convert, Option.bind_eq_bind, Option.bind_eq_some_iff, Option.some.injEq] at hc
    obtain ⟨e', h1, rfl⟩ := hc
    exact .not (convert_reads (e := e) m h1)
  | .unary .try_ e, h, m, hc => by
    simp only [convert, Option.bind_eq_bind, Option.bind_eq_some_iff, Option.some.injEq] at hc
    obtain ⟨e', h1, rfl⟩ := hc
    exact .try_ (convert_reads (e := e) m h1)
  | .variable x, h, m, hc => by cases hc; exact .variable

theorem convertAll_reads : ∀ {es : List Grammar.Expr} {hs}, Grammar.allMade es → convertAll R es = some hs →
    ReadsAll hs (tokensAll R es)
  | [], _, _, h => by cases h; exact .nil
  | e :: es, _, m, h => by
    simp only [convertAll, Option.bind_eq_bind, Option.bind_eq_some_iff, Option.some.injEq] at h
    obtain ⟨e', h1, es', h2, rfl⟩ := h
    exact .cons (convert_reads m.1 h1) (convertAll_reads m.2 h2)

theorem convertIf_reads {f : Hir.Expr} {k : List Token} (hf : Reads f k) : ∀ {bs : List Grammar.Branch} {h},
    Grammar.allMadeBranches bs → convertIf R f bs = some h → Reads h (tokensBranches R bs ++ k)
  | [], _, _, h => by simp [convertIf] at h
  | .mk c b :: bs, h', m, h => by
    simp only [convertIf, Option.bind_eq_bind, Option.bind_eq_some_iff] at h
    obtain ⟨c', h1, b', h2, h3⟩ := h
    have : ∃ e', Reads e' (tokensBranches R bs ++ k) ∧ some (.if_ c' b' e') = some h' := by
      split at h3
      · rename_i hb
        rw [List.isEmpty_iff.mp hb]
        exact ⟨f, hf, h3⟩
      · obtain ⟨e', h4, h5⟩ := Option.bind_eq_some_iff.mp h3
        exact ⟨e', convertIf_reads hf m.2.2 h4, h5⟩
    obtain ⟨e', he, h4⟩ := this
    cases h4
    have := Reads.if_ (convert_reads m.1 h1) (convertBlock_reads m.2.1 h2) he
    simpa [tokensBranches] using this

theorem convertTypeBranches_reads : ∀ {bs : List Grammar.TypeBranch} {hs}, Grammar.allMadeTypeBranches bs →
    convertTypeBranches R bs = some hs → ReadsTypes hs (tokensTypes R bs)
  | [], _, _, h => by cases h; exact .nil
  | .mk t b :: bs, _, m, h => by
    simp only [convertTypeBranches, Option.bind_eq_bind, Option.bind_eq_some_iff, Option.some.injEq] at h
    obtain ⟨e', h1, es', h2, rfl⟩ := h
    have := ReadsTypes.cons (t := convertType t) (convertBlock_reads m.2.1 h1) (convertTypeBranches_reads m.2.2 h2)
    simpa only [tokensTypes, convertType_reads] using this

theorem convertElse_reads : ∀ {b : Option Grammar.Block} {h}, Grammar.madeElse b → convertElse R b = some h →
    ReadsElse h (tokensElse R b)
  | none, _, _, h => by cases h; exact .none
  | some b, _, m, h => by
    simp only [convertElse, Option.bind_eq_bind, Option.bind_eq_some_iff, Option.some.injEq] at h
    obtain ⟨b', h1, rfl⟩ := h
    exact .some (convertBlock_reads m h1)

theorem convertBlock_reads : ∀ {b : Grammar.Block} {h}, b.Made → convertBlock R b = some h →
    Reads h (tokensBlock R b)
  | .mk ss e, _, m, h => by
    simp only [convertBlock, Option.bind_eq_bind, Option.bind_eq_some_iff] at h
    obtain ⟨e', h1, h2⟩ := h
    exact convertStatements_reads (convert_reads m.2 h1) m.1 h2

theorem convertStatements_reads {f : Hir.Expr} {k : List Token} (hf : Reads f k) :
    ∀ {ss : List Grammar.Statement} {h}, Grammar.allMadeStatements ss →
      convertStatements R f ss = some h → Reads h (tokensStatements R ss ++ k)
  | [], _, _, h => by cases h; exact hf
  | .mk (some x) e :: ss, _, m, h => by
    simp only [convertStatements, Option.bind_eq_bind, Option.bind_eq_some_iff, Option.some.injEq] at h
    obtain ⟨e', h1, s', h2, rfl⟩ := h
    have := Reads.let_ (x := text x) (convert_reads m.2.1 h2) (convertStatements_reads hf m.2.2 h1)
    simpa [tokensStatements] using this
  | .mk none e :: ss, _, m, h => by
    simp only [convertStatements, Option.bind_eq_bind, Option.bind_eq_some_iff, Option.some.injEq] at h
    obtain ⟨e', h1, s', h2, rfl⟩ := h
    have := Reads.statement (convert_reads m.2.1 h2) (convertStatements_reads hf m.2.2 h1)
    simpa [tokensStatements] using this

theorem convertListElements_reads : ∀ {es : List Grammar.ListElement} {hs}, Grammar.allMadeListElements es →
    convertListElements R es = some hs → ReadsElements hs (tokensElements R es)
  | [], _, _, h => by cases h; exact .nil
  | .multiple e :: es, _, m, h => by
    simp only [convertListElements, Option.bind_eq_bind, Option.bind_eq_some_iff, Option.some.injEq] at h
    obtain ⟨e', h1, es', h2, rfl⟩ := h
    exact .multiple (convert_reads m.1 h1) (convertListElements_reads m.2 h2)
  | .single e :: es, _, m, h => by
    simp only [convertListElements, Option.bind_eq_bind, Option.bind_eq_some_iff, Option.some.injEq] at h
    obtain ⟨e', h1, es', h2, rfl⟩ := h
    exact .single (convert_reads m.1 h1) (convertListElements_reads m.2 h2)

theorem convertMapElements_reads : ∀ {es : List Grammar.MapElement} {hs}, Grammar.allMadeMapElements es →
    convertMapElements R es = some hs → ReadsEntries hs (tokensEntries R es)
  | [], _, _, h => by cases h; exact .nil
  | .multiple e :: es, _, m, h => by
    simp only [convertMapElements, Option.bind_eq_bind, Option.bind_eq_some_iff, Option.some.injEq] at h
    obtain ⟨e', h1, es', h2, rfl⟩ := h
    exact .multiple (convert_reads m.1 h1) (convertMapElements_reads m.2 h2)
  | .entry k v :: es, _, m, h => by
    simp only [convertMapElements, Option.bind_eq_bind, Option.bind_eq_some_iff, Option.some.injEq] at h
    obtain ⟨k', h1, v', h2, es', h3, rfl⟩ := h
    exact .single (convert_reads m.1 h1) (convert_reads m.2.1 h2) (convertMapElements_reads m.2.2 h3)

theorem convertFields_reads : ∀ {fs : List Grammar.Field} {hs}, Grammar.allMadeFields fs →
    convertFields R fs = some hs → ReadsFields hs (tokensFields R fs)
  | [], _, _, h => by cases h; exact .nil
  | .mk x e :: fs, _, m, h => by
    simp only [convertFields, Option.bind_eq_bind, Option.bind_eq_some_iff, Option.some.injEq] at h
    obtain ⟨e', h1, fs', h2, rfl⟩ := h
    exact .cons (convert_reads m.2.1 h1) (convertFields_reads m.2.2 h2)

theorem convertCompBranches_reads : ∀ {bs : List Grammar.CompBranch} {hs}, Grammar.allMadeCompBranches bs →
    convertCompBranches R bs = some hs → ReadsBranches hs.reverse (tokensLoops R bs)
  | [], _, _, h => by cases h; exact .nil
  | .mk xs es c :: bs, _, m, h => by
    simp only [convertCompBranches, Option.bind_eq_bind, Option.bind_eq_some_iff, Option.some.injEq] at h
    obtain ⟨es', h1, c', h2, bs', h3, rfl⟩ := h
    rw [List.reverse_cons]
    have h4 := ReadsBranches.cons (xs := xs.map text) (readsIteratees_of (convertAll_reads m.2.2.2.1 h1))
      (convertCondition_reads m.2.2.2.2.1 h2) .nil
    have := readsBranches_append (convertCompBranches_reads m.2.2.2.2.2 h3) h4
    simpa [tokensLoops, Function.comp_def] using this

theorem convertCondition_reads : ∀ {c : Option Grammar.Expr} {h}, Grammar.madeOption c →
    convertCondition R c = some h → ReadsCondition h (tokensCondition R c)
  | none, _, _, h => by cases h; exact .none
  | some e, _, m, h => by
    simp only [convertCondition, Option.bind_eq_bind, Option.bind_eq_some_iff, Option.some.injEq] at h
    obtain ⟨e', h1, rfl⟩ := h
    exact .some (convert_reads (e := e) m h1)

end

end

end Verif.Front
