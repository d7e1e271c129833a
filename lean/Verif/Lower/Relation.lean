import Verif.Lower.Compile
import Verif.Hir.EvaluationLemmas

/-!
# Values and effects of HIR and MIR programs

What it means that a MIR value represents a HIR value, and that two runs do the same.
-/

namespace Verif.Lower

open Verif.Hir (Ty Ctx Expr Module Definition RecordField Val)
open Verif

/-! ## Programs -/

/-- Names lowering makes up: the empty one and those that begin with `$`. -/
def internal (x : String) : Bool := x == "" || x.toList.head? == some '$'

/-- Names in source programs are not made up. The function that compares strings is not used directly. -/
def plainName (K : Config) (x : String) : Bool := !internal x && x != K.stringEqual

/-- Whether tags of variants of a type are among those in `S`. -/
def tagged (S : List Ty) (c : Ty) : Bool :=
  (match c with
    | .any => true
    | c => (Hir.unionMembers c).all fun t => S.contains t)

section
variable (K : Config) (a : Nat) (C : Ctx) (S : List Ty)

/-- Whether the canonical type is known and its members are in `S`. -/
def taggedType (t : Ty) : Bool :=
  match Hir.canonicalize a C.types t with
  | .ok c => tagged S c
  | _ => false

/-- `plain`, given how subexpressions are checked. -/
def plainStep (rec : Expr → Bool) : Expr → Bool
  | .variable x => plainName K x
  | .call _ f args => rec f && args.all rec
  | .builtInCall _ _ args => S.contains .error && args.all rec
  | .if_ c t e => rec c && rec t && rec e
  | .ifType x e bs else_ => plainName K x && rec e && bs.all (fun b => taggedType a C S b.1 && rec b.2) &&
    else_.all fun b => b.1.all (taggedType a C S) && rec b.2
  | .lambda params _ body => params.all (fun p => plainName K p.1) && rec body
  | .let_ x _ e b => x.all (plainName K) && rec e && rec b
  | .addition _ l r => rec l && rec r
  | .arithmetic _ l r => rec l && rec r
  | .booleanOp _ l r => rec l && rec r
  | .equality _ _ l r => rec l && rec r
  | .not e => rec e
  | .order _ l r => rec l && rec r
  | .try_ t e => S.contains .error && t.all (taggedType a C S) && rec e
  | .record _ fields => fields.all fun f => rec f.2
  | .deconstruct _ e _ => rec e
  | .update _ e fields => rec e && fields.all fun f => rec f.2
  | .coercion src _ e => taggedType a C S src && rec e
  | _ => true

/-- Whether an expression uses only plain names, and the types of variants in it are in `S`. -/
def plain : Nat → Expr → Bool
  | 0, _ => false
  | d + 1, e => plainStep K a C S (plain d) e

end

/-- What is assumed about a module. -/
structure PlainModule (K : Config) (a d : Nat) (S : List Ty) (m : Module) : Prop where
  /-- No function is defined twice: `duplicate_function_name_validator.rs`. -/
  nodup : (m.definitions.map (·.name)).Nodup
  /-- Names of functions are plain. -/
  names : ∀ x ∈ m.definitions, plainName K x.name = true
  /-- Functions use only plain names. -/
  params : ∀ x ∈ m.definitions, ∀ p ∈ x.params, plainName K p.1 = true
  bodies : ∀ x ∈ m.definitions, plain K a m.ctx S d x.body = true
  /-- The function that compares strings is imported. -/
  stringEqual : K.stringEqual ∈ m.declarations.map (·.1)
  proper : internal K.stringEqual = false
  /-- Fields of a record have different names. -/
  fields : ∀ n ts, m.ctx.records n = some ts → (ts.map (·.name)).Nodup
  /-- Types in `S` are not `any`, unions or aliases, and have different ids. -/
  tags : ∀ t ∈ S, t ≠ .any ∧ (∀ l r, t ≠ .union l r) ∧ ∀ x, t ≠ .reference x
  ids : ∀ t ∈ S, ∀ u ∈ S, typeId K t = typeId K u → t = u

/-! ## Values -/

/-- The payload of a variant with the tag: functions, lists and maps are in a record of their own. -/
def box (K : Config) : Ty → Mir.Value → Mir.Value
  | .function as r, w => .record (typeId K (.function as r)) [w]
  | .list e, w => .record (typeId K (.list e)) [w]
  | .map k v, w => .record (typeId K (.map k v)) [w]
  | _, w => w

theorem box_eq (K : Config) (tag : Ty) (w : Mir.Value) :
    box K tag w = if boxed tag then .record (typeId K tag) [w] else w := by
  cases tag <;> rfl

section
variable (K : Config) (a : Nat) (S : List Ty) (m : Module)

mutual
/-- `Rel K a S m v w`: the MIR value `w` represents the HIR value `v`. -/
inductive Rel : Val → Mir.Value → Prop
  | none : Rel .none .none
  | boolean (b) : Rel (.boolean b) (.boolean b)
  | number (n) : Rel (.number n) (.number n)
  | string (s) : Rel (.string s) (.string s)
  /-- An error is a record with its source. -/
  | error {v w} : Rel v w → Rel (.error v) (.record (typeId K .error) [w])
  /-- Fields are in the order of the definition of the record. -/
  | record {n fs ts ws} : m.ctx.records n = some ts → RelFields fs ts ws →
      Rel (.record n fs) (.record (typeId K (.record n)) ws)
  /-- A local function is a closure of its compiled body. -/
  | closure {env params body body' ρ d d'} : compile K a m.ctx d body = some body' → plain K a m.ctx S d' body = true →
      (∀ x ∈ params, plainName K x = true) → ρ K.stringEqual = Option.none →
      (∀ x, plainName K x = true → env x = Option.none → ρ x = Option.none) →
      (∀ x v, plainName K x = true → env x = some v → ρ x ≠ Option.none) →
      (∀ x v w, plainName K x = true → env x = some v → ρ x = some w → Rel v w) →
      Rel (.closure env params body) (.closure "$closure" [] params false body' ρ)
  /-- A function of the module is the global function with the name. -/
  | definition {x} {f : Definition} : Hir.lastLookup (m.definitions.map fun f => (f.name, f)) x = some f →
      Rel (.closure (fun _ => Option.none) (f.params.map (·.1)) f.body) (.global x)
  | foreign {x} : Hir.lastLookup (m.definitions.map fun f => (f.name, f)) x = Option.none →
      x ∈ m.declarations.map (·.1) → x ≠ K.stringEqual → Rel (.foreign x) (.global x)
  | variant {tag v w} : tag ∈ S → Rel v w → Rel (.variant tag v) (.variant (typeId K tag) (box K tag w))
/-- Fields of records. -/
inductive RelFields : List (String × Val) → List RecordField → List Mir.Value → Prop
  | nil {fs} : RelFields fs [] []
  | cons {fs t ts v w ws} : Hir.lookupField fs t.name = some v → Rel v w → RelFields fs ts ws →
      RelFields fs (t :: ts) (w :: ws)
end

/-- Environments that agree on plain names. -/
def EnvRel (env : Hir.Env) (ρ : Mir.Env) : Prop := ρ K.stringEqual = none ∧ ∀ x, plainName K x = true →
  match env x, ρ x with
  | some v, some w => Rel K a S m v w
  | none, none => True
  | _, _ => False

/-! ## Effects -/

/-- `o` is what native code sees of the value. -/
def ObsRel (v : Val) (o : Mir.Obs) : Prop := ∃ w, Rel K a S m v w ∧ w.obs = o

/-- The same call of another module or the system. -/
def EventRel (e : Hir.Event) (e' : Mir.Event) : Prop :=
  e.name = e'.name ∧ List.Forall₂ (ObsRel K a S m) e.args e'.args ∧ ObsRel K a S m e.result e'.result

/-- The same calls, except for those of the function that compares strings. -/
def LogRel (l : Hir.Log) (l' : Mir.Log) : Prop :=
  List.Forall₂ (EventRel K a S m) l (l'.filter fun e => e.name != K.stringEqual)

/-- The same outcomes, unless one side runs out of fuel: only the second one does if `q` is `false`, and only the first
one if it is `true`. -/
def ResRel (q : Bool) {α β : Type} (R : α → β → Prop) : Hir.Result α → Mir.R β → Prop
  | .stuck, _ => True
  | .more, .timeout => True
  | .val x l, .ok y l' => R x y ∧ LogRel K a S m l l'
  | .ret v l, .ret w l' => Rel K a S m v w ∧ LogRel K a S m l l'
  | .more, _ => q = true
  | _, .timeout => q = false
  | _, _ => False

/-- Arithmetic operators. -/
def SameArithmetic (W : Hir.World) (w : Mir.World) : Prop := ∀ i j,
  w.arithmetic .subtract i j = W.arithmetic .subtract i j ∧ w.arithmetic .multiply i j = W.arithmetic .multiply i j ∧
  w.arithmetic .divide i j = W.arithmetic .divide i j

/-- Comparison operators. -/
def SameComparison (W : Hir.World) (w : Mir.World) : Prop := ∀ i j,
  w.comparison .lessThan i j = W.compare .lessThan i j ∧
  w.comparison .lessThanOrEqual i j = W.compare .lessThanOrEqual i j ∧
  w.comparison .greaterThan i j = W.compare .greaterThan i j ∧
  w.comparison .greaterThanOrEqual i j = W.compare .greaterThanOrEqual i j

theorem SameArithmetic.eq {W : Hir.World} {w : Mir.World} (h : SameArithmetic W w) (o i j) :
    w.arithmetic (arithmeticOperator o) i j = W.arithmetic o i j := by
  obtain ⟨h1, h2, h3⟩ := h i j
  cases o <;> assumption

theorem SameComparison.eq {W : Hir.World} {w : Mir.World} (h : SameComparison W w) (o i j) :
    w.comparison (orderOperator o) i j = W.compare o i j := by
  obtain ⟨h1, h2, h3, h4⟩ := h i j
  cases o <;> assumption

/-- Worlds that agree: numbers are the same, functions of other modules and of the system return the same, and the
function that compares strings does. -/
structure Agree (W : Hir.World) (w : Mir.World) : Prop where
  add : ∀ i j, w.arithmetic .add i j = W.add i j
  arithmetic : SameArithmetic W w
  compare : SameComparison W w
  equalNumbers : ∀ i j, w.comparison .equal i j = W.equalNumbers i j
  stringEqual : ∀ log s t, w.foreign log K.stringEqual [.string s, .string t] = .boolean (s == t)
  foreign : ∀ x ∈ m.declarations.map (·.1), x ≠ K.stringEqual → ∀ l l' vs ws, LogRel K a S m l l' →
    List.Forall₂ (Rel K a S m) vs ws →
    ∃ u, (w.foreign l' x (Mir.Value.obsList ws)).value = some u ∧ Rel K a S m (W.call l x vs) u

end

end Verif.Lower
