import Verif.Grammar.Ast
import Verif.Names.Resolve
import Verif.Parse.StringLiteral

/-
Model of the conversion of syntax trees to HIR, and of the front end of the compiler from the text of
a module on.

Modelled code
* `lib/ast-hir/src/module.rs`, `type_.rs`, `number.rs`, `string.rs`, `module_prefix.rs`,
  `lib/ast-hir/src/lib.rs:20-54`
* `lib/ast/src/analysis.rs:3-15`
-/

namespace Verif.Front

open Verif

/-- The text of a name. -/
abbrev text (x : Grammar.Name) : String := String.ofList x

/-! ## Types -/

mutual

/-- `type_::compile` (`lib/ast-hir/src/type_.rs:3-33`). -/
def convertType : Grammar.Ty → Hir.Ty
  | .function as r => .function (convertTypes as) (convertType r)
  | .list t => .list (convertType t)
  | .map k v => .map (convertType k) (convertType v)
  | .reference x => .reference (text x)
  | .union l r => .union (convertType l) (convertType r)

/-- The arguments of a function type. -/
def convertTypes : List Grammar.Ty → List Hir.Ty
  | [] => []
  | t :: ts => convertType t :: convertTypes ts

end

/-! ## Literals -/

/-- `char::to_digit` for digits and lower case letters. -/
def digit (c : Char) : Nat :=
  if c.toNat ≤ '9'.toNat then c.toNat - '0'.toNat else c.toNat - 'a'.toNat + 10

/-- `usize::from_str_radix` on texts of digits that are not empty, on a machine with words of 64 bits:
both the multiplication and the addition are checked for overflow. -/
def fromStrRadix (radix : Nat) : Nat → List Char → Option Nat
  | n, [] => some n
  | n, c :: cs =>
    if n * radix < 2 ^ 64 then
      if n * radix + digit c < 2 ^ 64 then fromStrRadix radix (n * radix + digit c) cs else none
    else none

/-- How numbers are rounded to 64-bit floats: for decimal literals `str::parse`, with the sign of the
literal, and for whole numbers `as f64`. What they do is left open. -/
structure Rounding where
  decimal : List Char → UInt64
  natural : Nat → UInt64

/-- `number::compile` (`lib/ast-hir/src/number.rs:4-25`). -/
def convertNumber (R : Rounding) : Grammar.Number → Option UInt64
  | .binary s => (fromStrRadix 2 0 s).map R.natural
  | .hexadecimal s => (fromStrRadix 16 0 s).map R.natural
  | .floatingPoint s => some (R.decimal s)

/-- `str::as_bytes`. -/
def bytes (s : List Char) : List UInt8 := s.flatMap String.utf8EncodeChar

/-- `string::compile` (`lib/ast-hir/src/string.rs:7-22`). -/
def convertString (s : List Char) : List UInt8 := Parse.compileString (bytes s)

/-! ## Expressions -/

/-- A binary operation: `lib/ast-hir/src/module.rs:124-192`. -/
def convertOperator (o : Grammar.BinOp) (l r : Hir.Expr) : Hir.Expr :=
  match o with
  | .add => .addition none l r
  | .subtract => .arithmetic .subtract l r
  | .multiply => .arithmetic .multiply l r
  | .divide => .arithmetic .divide l r
  | .and => .booleanOp .and l r
  | .or => .booleanOp .or l r
  | .equal => .equality none .equal l r
  | .notEqual => .equality none .notEqual l r
  | .lessThan => .order .lessThan l r
  | .lessThanOrEqual => .order .lessThanOrEqual l r
  | .greaterThan => .order .greaterThan l r
  | .greaterThanOrEqual => .order .greaterThanOrEqual l r

/-- A unary operation: `lib/ast-hir/src/module.rs:349-360`. -/
def convertUnary (o : Grammar.UnOp) (e : Hir.Expr) : Hir.Expr :=
  match o with
  | .not => .not e
  | .try_ => .try_ none e

section

variable (R : Rounding)

mutual

/-- `compile_expression` (`lib/ast-hir/src/module.rs:120-366`). Errors are not told apart. A list
comprehension without branches, which the parser does not make and HIR of the model cannot express, is
an error. -/
def convert : Grammar.Expr → Option Hir.Expr
  | .binary o l r => do
    let l ← convert l
    let r ← convert r
    some (convertOperator o l r)
  | .call f as => do
    let f ← convert f
    let as ← convertAll as
    some (.call none f as)
  | .if_ bs e => do
    let e ← convertBlock e
    convertIf e bs
  | .ifList l x y t e => do
    let l ← convert l
    let t ← convertBlock t
    let e ← convertBlock e
    some (.ifList none l (text x) (text y) t e)
  | .ifMap x m k t e => do
    let m ← convert m
    let k ← convert k
    let t ← convertBlock t
    let e ← convertBlock e
    some (.ifMap none none (text x) m k t e)
  | .ifType x e bs f => do
    let e ← convert e
    let bs ← convertTypeBranches bs
    let f ← convertElse f
    some (.ifType (text x) e bs f)
  | .lambda as t b => do
    let b ← convertBlock b
    some (.lambda (as.map fun a => (text a.1, convertType a.2)) (convertType t) b)
  | .list t es => do
    let es ← convertListElements es
    some (.list (convertType t) es)
  | .comprehension t e bs => do
    let e ← convert e
    let bs ← convertCompBranches bs
    match bs.reverse with
    | [] => none
    | b :: bs => some (.comprehension (convertType t) e b bs)
  | .map k v es => do
    let es ← convertMapElements es
    some (.map (convertType k) (convertType v) es)
  | .number n => do
    let n ← convertNumber R n
    some (.number n)
  | .record x r fs => do
    let fs ← convertFields fs
    convertRecord (.reference (text x)) fs r
  | .field r x => do
    let r ← convert r
    some (.deconstruct none r (text x))
  | .string s => some (.string (convertString s))
  | .unary o e => do
    let e ← convert e
    some (convertUnary o e)
  | .variable x => some (.variable (text x))

/-- The arguments of a call. -/
def convertAll : List Grammar.Expr → Option (List Hir.Expr)
  | [] => some []
  | e :: es => do
    let e ← convert e
    let es ← convertAll es
    some (e :: es)

/-- `compile_if` (`lib/ast-hir/src/module.rs:368-390`). The `else` block is converted first here, and last
there, which only matters for which of several errors is reported. -/
def convertIf (f : Hir.Expr) : List Grammar.Branch → Option Hir.Expr
  | [] => none
  | .mk c b :: bs => do
    let c ← convert c
    let b ← convertBlock b
    let e ← if bs.isEmpty then some f else convertIf f bs
    some (.if_ c b e)

/-- The branches of an `if` with types: `lib/ast-hir/src/module.rs:237-245`. -/
def convertTypeBranches : List Grammar.TypeBranch → Option (List (Hir.Ty × Hir.Expr))
  | [] => some []
  | .mk t b :: bs => do
    let b ← convertBlock b
    let bs ← convertTypeBranches bs
    some ((convertType t, b) :: bs)

/-- `lib/ast-hir/src/module.rs:246-254`. -/
def convertElse : Option Grammar.Block → Option (Option (Option Hir.Ty × Hir.Expr))
  | none => some none
  | some b => do
    let b ← convertBlock b
    some (some (none, b))

/-- `compile_block` (`lib/ast-hir/src/module.rs:102-118`). -/
def convertBlock : Grammar.Block → Option Hir.Expr
  | .mk ss e => do
    let e ← convert e
    convertStatements e ss

/-- The loop of `compile_block`, from the last statement to the first one. -/
def convertStatements (e : Hir.Expr) : List Grammar.Statement → Option Hir.Expr
  | [] => some e
  | .mk x s :: ss => do
    let e ← convertStatements e ss
    let s ← convert s
    some (.let_ (x.map text) none s e)

/-- `lib/ast-hir/src/module.rs:258-273`. -/
def convertListElements : List Grammar.ListElement → Option (List (Hir.ListElem Hir.Expr))
  | [] => some []
  | .multiple e :: es => do
    let e ← convert e
    let es ← convertListElements es
    some (.multiple e :: es)
  | .single e :: es => do
    let e ← convert e
    let es ← convertListElements es
    some (.single e :: es)

/-- `lib/ast-hir/src/module.rs:308-322`. -/
def convertMapElements : List Grammar.MapElement → Option (List (Hir.MapElem Hir.Expr))
  | [] => some []
  | .multiple e :: es => do
    let e ← convert e
    let es ← convertMapElements es
    some (.multiple e :: es)
  | .entry k v :: es => do
    let k ← convert k
    let v ← convert v
    let es ← convertMapElements es
    some (.single k v :: es)

/-- A record or the update of one: `lib/ast-hir/src/module.rs:341-353`. -/
def convertRecord (t : Hir.Ty) (fs : List (String × Hir.Expr)) : Option Grammar.Expr → Option Hir.Expr
  | none => some (.record t fs)
  | some e => do
    let e ← convert e
    some (.update t e fs)

/-- `lib/ast-hir/src/module.rs:330-340`. -/
def convertFields : List Grammar.Field → Option (List (String × Hir.Expr))
  | [] => some []
  | .mk x e :: fs => do
    let e ← convert e
    let fs ← convertFields fs
    some ((text x, e) :: fs)

/-- The branches of a list comprehension, in the order they are written; they are reversed by
`.rev()` in `lib/ast-hir/src/module.rs:279-302`. -/
def convertCompBranches : List Grammar.CompBranch → Option (List (Hir.Branch Hir.Expr))
  | [] => some []
  | .mk xs es c :: bs => do
    let es ← convertAll es
    let c ← convertCondition c
    let bs ← convertCompBranches bs
    some (⟨xs.map text, es.map fun e => (none, e), c⟩ :: bs)

/-- A condition of a list comprehension. -/
def convertCondition : Option Grammar.Expr → Option (Option Hir.Expr)
  | none => some none
  | some e => do
    let e ← convert e
    some (some e)

end

/-! ## Modules -/

/-- `ast::analysis::is_name_public` (`lib/ast/src/analysis.rs:3-8`). -/
def isNamePublic : Grammar.Name → Bool
  | [] => false
  | c :: _ => c.isUpper

/-- Definitions of records: `lib/ast-hir/src/module.rs:9-28`, with `ast::analysis::is_record_open`
(`lib/ast/src/analysis.rs:10-15`). -/
def convertRecordDefinition : Grammar.TypeDefinition → Option Names.TypeDefinition
  | .record x fs => some {
      name := text x
      original := text x
      fields := fs.map fun f => ⟨text f.1, convertType f.2⟩
      isOpen := fs.all fun f => isNamePublic f.1
      isPublic := isNamePublic x
      external := false }
  | .alias_ _ _ => none

/-- Type aliases: `lib/ast-hir/src/module.rs:29-46`. -/
def convertAlias : Grammar.TypeDefinition → Option Names.TypeAlias
  | .record _ _ => none
  | .alias_ x t => some {
      name := text x
      original := text x
      type := convertType t
      isPublic := isNamePublic x
      external := false }

/-- `compile_function_definition` (`lib/ast-hir/src/module.rs:66-82`) with `compile_lambda` (`:91-102`);
without the configuration of foreign exports. -/
def convertFunction (f : Grammar.FunctionDefinition) : Option Names.FunctionDefinition := do
  let b ← convertBlock R f.lambda.body
  some {
    name := text f.name
    original := text f.name
    params := f.lambda.arguments.map fun a => (text a.1, convertType a.2)
    result := convertType f.lambda.result
    body := b
    isPublic := isNamePublic f.name }

/-- All function definitions. -/
def convertFunctions : List Grammar.FunctionDefinition → Option (List Names.FunctionDefinition)
  | [] => some []
  | f :: fs => do
    let f ← convertFunction R f
    let fs ← convertFunctions fs
    some (f :: fs)

/-- `module::compile` (`lib/ast-hir/src/module.rs:6-64`). -/
def convertModule (m : Grammar.Module) : Option Names.Module := do
  let fs ← convertFunctions R m.functions
  some {
    types := m.types.filterMap convertRecordDefinition
    aliases := m.types.filterMap convertAlias
    foreigns := m.foreignImports.map fun i => ⟨text i.name, text i.name, convertType i.type⟩
    declarations := []
    definitions := fs }

end

/-- `module_prefix::compile` (`lib/ast-hir/src/module_prefix.rs:1-9`). -/
def prefixOf (i : Grammar.Import) : String :=
  match i.alias? with
  | some a => text a
  | none => match i.path with
    | .external _ cs => text (cs.getLastD [])
    | .internal cs => text (cs.getLastD [])

/-- The imported modules: `lib/ast-hir/src/lib.rs:26-43`. -/
def importedModules (interfaces : Grammar.ModulePath → Option Names.Interface) :
    List Grammar.Import → Option (List Names.Import)
  | [] => some []
  | i :: is => do
    let f ← interfaces i.path
    let is ← importedModules interfaces is
    some (⟨f, prefixOf i, i.names.map text⟩ :: is)

/-- `ast_hir::compile` (`lib/ast-hir/src/lib.rs:20-54`); `d` is the depth to which expressions are
transformed, see `Names.mapVariables`. -/
def compileTree (R : Rounding) (d : Nat) (pre : String)
    (interfaces : Grammar.ModulePath → Option Names.Interface) (preludes : List Names.Interface)
    (m : Grammar.Module) : Option Names.Module := do
  let is ← importedModules interfaces m.imports
  let h ← convertModule R m
  Names.compile d pre h is preludes

end Verif.Front
