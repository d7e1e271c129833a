import Verif.Mir.Semantics

/-
The mid-level intermediate representation with its types, and its type checker:
`/repo/lib/mir/src/analysis/type_check.rs`.

* Errors are not told apart: a check gives a type or nothing.
* Strict operations are one constructor here, as in `Verif.Mir.Syntax`; all operands are checked, and then compared with
  what the operation needs.
* A record update with an index out of bounds makes the checker panic (type_check.rs:256); it is rejected here.
-/
namespace Verif.Mir.Typed

/-- `Type`: /repo/lib/mir/src/types/type_.rs. -/
inductive Ty
  | boolean
  | byteString
  | function (args : List Ty) (result : Ty)
  | none
  | number
  | record (name : Name)
  | variant

mutual
def Ty.decEq : (a b : Ty) → Decidable (a = b)
  | .boolean, b => by cases b <;> first | exact isTrue rfl | exact isFalse nofun
  | .byteString, b => by cases b <;> first | exact isTrue rfl | exact isFalse nofun
  | .none, b => by cases b <;> first | exact isTrue rfl | exact isFalse nofun
  | .number, b => by cases b <;> first | exact isTrue rfl | exact isFalse nofun
  | .variant, b => by cases b <;> first | exact isTrue rfl | exact isFalse nofun
  | .record n, .record m => if h : n = m then isTrue (h ▸ rfl) else isFalse (fun e => by cases e; exact h rfl)
  | .record _, .boolean => isFalse nofun
  | .record _, .byteString => isFalse nofun
  | .record _, .function .. => isFalse nofun
  | .record _, .none => isFalse nofun
  | .record _, .number => isFalse nofun
  | .record _, .variant => isFalse nofun
  | .function as r, .function bs s =>
    match Ty.decEqList as bs, Ty.decEq r s with
    | isTrue h, isTrue h' => isTrue (h ▸ h' ▸ rfl)
    | isFalse h, _ => isFalse (fun e => by cases e; exact h rfl)
    | _, isFalse h => isFalse (fun e => by cases e; exact h rfl)
  | .function .., .boolean => isFalse nofun
  | .function .., .byteString => isFalse nofun
  | .function .., .record _ => isFalse nofun
  | .function .., .none => isFalse nofun
  | .function .., .number => isFalse nofun
  | .function .., .variant => isFalse nofun
def Ty.decEqList : (as bs : List Ty) → Decidable (as = bs)
  | [], [] => isTrue rfl
  | [], _ :: _ => isFalse nofun
  | _ :: _, [] => isFalse nofun
  | a :: as, b :: bs =>
    match Ty.decEq a b, Ty.decEqList as bs with
    | isTrue h, isTrue h' => isTrue (h ▸ h' ▸ rfl)
    | isFalse h, _ => isFalse (fun e => by cases e; exact h rfl)
    | _, isFalse h => isFalse (fun e => by cases e; exact h rfl)
end

instance : DecidableEq Ty := Ty.decEq

/-- Strict operations with their types: `ArithmeticOperation`, `ComparisonOperation`, `Call`, `Record`, `RecordField`,
`RecordUpdate`, `StringConcatenation`, `Synchronize`, `TypeInformationFunction` and `Variant` of /repo/lib/mir/src/ir. -/
inductive TOp
  | arithmetic (o : ArithmeticOperator)
  | comparison (o : ComparisonOperator)
  | call (args : List Ty) (result : Ty)
  | record (type : Name)
  | field (type : Name) (index : Nat)
  | update (type : Name) (indices : List Nat)
  | concatenation
  | synchronize (type : Ty)
  | typeInformation
  | variant (type : Ty)

mutual
/-- `Expression`: /repo/lib/mir/src/ir/expression.rs:11-34. -/
inductive TExpr
  | literal (l : Literal)
  | variable (x : Name)
  | op (o : TOp) (es : TExprs)
  | case (e : TExpr) (as : TAlts)
  | if_ (c t e : TExpr)
  | let_ (x : Name) (type : Ty) (e : TExpr) (b : TExpr)
  | letRec (f : Name) (env args : List (Name × Ty)) (result : Ty) (thunk : Bool) (body : TExpr) (b : TExpr)
  | try_ (e : TExpr) (x : Name) (type : Ty) (then_ : TExpr)
  | clone (xs : List (Name × Ty)) (e : TExpr)
  | drop (xs : List (Name × Ty)) (e : TExpr)
/-- Operands. -/
inductive TExprs
  | nil
  | cons (e : TExpr) (es : TExprs)
/-- Alternatives: /repo/lib/mir/src/ir/alternative.rs and default_alternative.rs. -/
inductive TAlts
  | nil
  | default (x : Name) (e : TExpr)
  | cons (types : List Ty) (x : Name) (e : TExpr) (as : TAlts)
end

/-- `FunctionDefinition` of a `GlobalFunctionDefinition`: /repo/lib/mir/src/ir/function_definition.rs. Global functions have
no environment. -/
structure TDefinition where
  name : Name
  args : List (Name × Ty)
  result : Ty
  thunk : Bool
  body : TExpr

/-- A declaration of a function: /repo/lib/mir/src/ir/{foreign_declaration, function_declaration}.rs. -/
structure TDeclaration where
  name : Name
  args : List Ty
  result : Ty

/-- `Module`: /repo/lib/mir/src/ir/module.rs, with its `TypeInformation` (type_information.rs). -/
structure TModule where
  types : List (Name × List Ty)
  foreignDeclarations : List TDeclaration
  foreignDefinitions : List Name
  declarations : List TDeclaration
  definitions : List TDefinition
  information : List (Ty × Name)
  fallback : Name

/-- The variables in scope: `plist::FlailMap<&str, Type>`. -/
abbrev Scope := Name → Option Ty

def Scope.insert (Γ : Scope) (x : Name) (τ : Ty) : Scope := fun y => if y = x then some τ else Γ y

/-- `insert_iter`. -/
def Scope.insertMany (Γ : Scope) : List (Name × Ty) → Scope
  | [] => Γ
  | (x, τ) :: xs => (Γ.insert x τ).insertMany xs

/-- What a check needs to know: definitions of record types and the fallback of type information (`Context`:
type_check/context.rs). -/
structure Context where
  types : Name → Option (List Ty)
  fallback : Name

/-- `Alternative::type_`: ir/alternative.rs:29-35. -/
def alternativeType : List Ty → Ty
  | [τ] => τ
  | _ => .variant

def Literal.type : Literal → Ty
  | .none => .none
  | .boolean _ => .boolean
  | .number _ => .number
  | .string _ => .byteString

/-- Whether every one of the variables has the type it is said to have: type_check.rs:137-139, 377-379. -/
def checkVariables (Γ : Scope) (xs : List (Name × Ty)) : Bool := xs.all fun x => Γ x.1 == some x.2

/-- The type of a strict operation on operands of these types: type_check.rs:118-134, 141-152, 157-175, 207-216, 219-266,
288-311, 386-410. -/
def checkOp (c : Context) (Γ : Scope) : TOp → List Ty → Option Ty
  | .arithmetic _, ts => if ts = [.number, .number] then some .number else none
  | .comparison _, ts => if ts = [.number, .number] then some .boolean else none
  | .call args result, ts => if ts = .function args result :: args then some result else none
  | .record n, ts => (c.types n).bind fun fs => if ts = fs then some (.record n) else none
  | .field n i, ts => if ts = [.record n] then (c.types n).bind fun fs => fs[i]? else none
  | .update n is, ts => (c.types n).bind fun fs =>
      match ts with
      | [] => none
      | τ :: ts => if τ = .record n ∧ is.map (fun i => fs[i]?) = ts.map some then some (.record n) else none
  | .concatenation, ts => if ts.all (· == .byteString) then some .byteString else none
  | .synchronize τ, ts => if ts = [τ] then some τ else none
  | .typeInformation, ts => if ts = [.variant] then Γ c.fallback else none
  | .variant τ, ts => if τ ≠ .variant ∧ ts = [τ] then some .variant else none

/-- The type of alternatives so far, given one more: type_check.rs:346-350, 359-363. -/
def unify (expected : Option Ty) (τ : Ty) : Option Ty :=
  match expected with
  | none => some τ
  | some σ => if τ = σ then some σ else none

mutual
/-- `check_expression`, with the result type of the function around: type_check.rs:102-313. -/
def check (c : Context) (result : Ty) (Γ : Scope) : TExpr → Option Ty
  | .literal l => some (Literal.type l)
  | .variable x => Γ x
  | .op o es => (checks c result Γ es).bind (checkOp c Γ o)
  | .case e as =>
    if check c result Γ e = some .variant then (checkAlts c result Γ none as).bind id else none
  | .if_ e t f =>
    if check c result Γ e = some .boolean then
      (check c result Γ t).bind fun τ => if check c result Γ f = some τ then some τ else none
    else none
  | .let_ x τ e b => if check c result Γ e = some τ then check c result (Γ.insert x τ) b else none
  | .letRec f env args r _ body b =>
    let Δ := Γ.insert f (.function (args.map (·.2)) r)
    if check c r (Δ.insertMany (env ++ args)) body = some r then check c result Δ b else none
  | .try_ e x τ t =>
    if check c result (Γ.insert x τ) t = some result ∧ check c result Γ e = some .variant then some .variant else none
  | .clone xs e => if checkVariables Γ xs then check c result Γ e else none
  | .drop xs e => if checkVariables Γ xs then check c result Γ e else none
def checks (c : Context) (result : Ty) (Γ : Scope) : TExprs → Option (List Ty)
  | .nil => some []
  | .cons e es => (check c result Γ e).bind fun τ => (checks c result Γ es).map (τ :: ·)
/-- The alternatives of `check_case`, given the type of those before: type_check.rs:326-370. -/
def checkAlts (c : Context) (result : Ty) (Γ : Scope) (expected : Option Ty) : TAlts → Option (Option Ty)
  | .nil => some expected
  | .default x e => (check c result (Γ.insert x .variant) e).bind fun τ => (unify expected τ).map some
  | .cons types x e as =>
    if types.contains .variant || types.isEmpty then none
    else (check c result (Γ.insert x (alternativeType types)) e).bind fun τ =>
      (unify expected τ).bind fun σ => checkAlts c result Γ (some σ) as
end

/-- Names of functions and the types they have, the last ones first: type_check.rs:24-38. -/
def TModule.functions (m : TModule) : List (Name × Ty) :=
  m.foreignDeclarations.map (fun d => (d.name, .function d.args d.result)) ++
    m.declarations.map (fun d => (d.name, .function d.args d.result)) ++
    m.definitions.map (fun d => (d.name, .function (d.args.map (·.2)) d.result))

/-- The variables in scope in all functions: type_check.rs:22-40. -/
def TModule.scope (m : TModule) : Scope := Scope.insertMany (fun _ => none) m.functions

def TModule.context (m : TModule) : Context where
  types n := (m.types.find? (·.1 == n)).map (·.2)
  fallback := m.fallback

/-- `check_names`: type_check/name.rs. -/
def checkNames (m : TModule) : Bool :=
  decide (m.types.map (·.1)).Nodup && decide (m.functions.map (·.1)).Nodup

/-- `check_function_definition` of a global function: type_check.rs:81-100. -/
def checkDefinition (m : TModule) (d : TDefinition) : Bool :=
  check m.context d.result (m.scope.insertMany d.args) d.body == some d.result

/-- `check_type_information`: type_check.rs:57-79. -/
def checkInformation (m : TModule) : Bool :=
  (m.scope m.fallback).isSome && m.information.all fun x => m.scope x.2 == m.scope m.fallback

/-- `check`: type_check.rs:14-55. -/
def checkModule (m : TModule) : Bool :=
  checkNames m && m.definitions.all (checkDefinition m) && m.foreignDefinitions.all (fun x => (m.scope x).isSome) &&
    checkInformation m

/-! ### What it means at run time -/

/-- What is left of an operation at run time; types are left as their ids. -/
def TOp.erase (id : Ty → TypeId) : TOp → Op
  | .arithmetic o => .arithmetic o
  | .comparison o => .comparison o
  | .call .. => .call
  | .record n => .record (id (.record n))
  | .field _ i => .field i
  | .update _ is => .update is
  | .concatenation => .concatenation
  | .synchronize _ => .synchronize
  | .typeInformation => .typeInformation
  | .variant τ => .variant (id τ)

mutual
/-- What is left of an expression at run time. -/
def TExpr.erase (id : Ty → TypeId) : TExpr → Expr
  | .literal l => .literal l
  | .variable x => .variable x
  | .op o es => .op (o.erase id) (es.erase id)
  | .case e as => .case (e.erase id) (as.erase id)
  | .if_ c t e => .if_ (c.erase id) (t.erase id) (e.erase id)
  | .let_ x _ e b => .let_ x (e.erase id) (b.erase id)
  | .letRec f env args _ th body b => .letRec f (env.map (·.1)) (args.map (·.1)) th (body.erase id) (b.erase id)
  | .try_ e x τ t => .try_ (e.erase id) x (id τ) (t.erase id)
  | .clone xs e => .clone (xs.map (·.1)) (e.erase id)
  | .drop xs e => .drop (xs.map (·.1)) (e.erase id)
def TExprs.erase (id : Ty → TypeId) : TExprs → Exprs
  | .nil => .nil
  | .cons e es => .cons (e.erase id) (es.erase id)
def TAlts.erase (id : Ty → TypeId) : TAlts → Alts
  | .nil => .nil
  | .default x e => .cons none x (e.erase id) .nil
  | .cons types x e as => .cons (some (types.map id)) x (e.erase id) (as.erase id)
end

def TDefinition.erase (id : Ty → TypeId) (d : TDefinition) : Global :=
  ⟨d.name, d.args.map (·.1), d.thunk, d.body.erase id⟩

/-- The program a module is. Functions of other modules are native code here. -/
def TModule.program (id : Ty → TypeId) (m : TModule) : Program where
  foreign := m.foreignDeclarations.map (·.name) ++ m.declarations.map (·.name)
  globals := m.definitions.map (·.erase id)
  typeInformation t := ((m.information.find? (fun x => id x.1 == t)).map (·.2)).getD m.fallback

end Verif.Mir.Typed
