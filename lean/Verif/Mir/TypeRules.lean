import Mathlib.Data.List.Forall2
import Verif.Mir.Typed

/-
What the types of the mid-level intermediate representation say: typing rules, which values have a type, and which
modules are well formed. The specification of the type checker (C63).
-/
namespace Verif.Mir.Typed

/-- Strict operations: the types of the operands, and the type of the result. -/
inductive OpType (c : Context) (Γ : Scope) : TOp → List Ty → Ty → Prop
  | arithmetic (o : ArithmeticOperator) : OpType c Γ (.arithmetic o) [.number, .number] .number
  | comparison (o : ComparisonOperator) : OpType c Γ (.comparison o) [.number, .number] .boolean
  | call (args : List Ty) (result : Ty) : OpType c Γ (.call args result) (.function args result :: args) result
  | record {n : Name} {fs : List Ty} (h : c.types n = some fs) : OpType c Γ (.record n) fs (.record n)
  | field {n : Name} {fs : List Ty} {i : Nat} {τ : Ty} (h : c.types n = some fs) (hi : fs[i]? = some τ) :
      OpType c Γ (.field n i) [.record n] τ
  | update {n : Name} {fs : List Ty} {is : List Nat} {ts : List Ty} (h : c.types n = some fs)
      (hi : List.Forall₂ (fun i τ => fs[i]? = some τ) is ts) : OpType c Γ (.update n is) (.record n :: ts) (.record n)
  | concatenation {ts : List Ty} (h : ∀ τ ∈ ts, τ = .byteString) : OpType c Γ .concatenation ts .byteString
  | synchronize (τ : Ty) : OpType c Γ (.synchronize τ) [τ] τ
  | typeInformation {τ : Ty} (h : Γ c.fallback = some τ) : OpType c Γ .typeInformation [.variant] τ
  | variant {τ : Ty} (h : τ ≠ .variant) : OpType c Γ (.variant τ) [τ] .variant

mutual
/-- Typing rules: an expression in a function with a result type has a type. -/
inductive HasType (c : Context) : Ty → Scope → TExpr → Ty → Prop
  | none {r : Ty} {Γ : Scope} : HasType c r Γ (.literal .none) .none
  | boolean {r : Ty} {Γ : Scope} (b : Bool) : HasType c r Γ (.literal (.boolean b)) .boolean
  | number {r : Ty} {Γ : Scope} (n : UInt64) : HasType c r Γ (.literal (.number n)) .number
  | string {r : Ty} {Γ : Scope} (s : List UInt8) : HasType c r Γ (.literal (.string s)) .byteString
  | variable {r : Ty} {Γ : Scope} {x : Name} {τ : Ty} (h : Γ x = some τ) : HasType c r Γ (.variable x) τ
  | op {r : Ty} {Γ : Scope} {o : TOp} {es : TExprs} {ts : List Ty} {τ : Ty} (hes : HaveTypes c r Γ es ts)
      (ho : OpType c Γ o ts τ) : HasType c r Γ (.op o es) τ
  | case {r : Ty} {Γ : Scope} {e : TExpr} {as : TAlts} {τ : Ty} (he : HasType c r Γ e .variant) (hn : as ≠ .nil)
      (has : AltsHaveType c r Γ as τ) : HasType c r Γ (.case e as) τ
  | if_ {r : Ty} {Γ : Scope} {e t f : TExpr} {τ : Ty} (he : HasType c r Γ e .boolean) (ht : HasType c r Γ t τ)
      (hf : HasType c r Γ f τ) : HasType c r Γ (.if_ e t f) τ
  | let_ {r : Ty} {Γ : Scope} {x : Name} {σ τ : Ty} {e b : TExpr} (he : HasType c r Γ e σ)
      (hb : HasType c r (Γ.insert x σ) b τ) : HasType c r Γ (.let_ x σ e b) τ
  | letRec {r : Ty} {Γ : Scope} {f : Name} {env args : List (Name × Ty)} {ρ τ : Ty} {th : Bool} {body b : TExpr}
      (hbody : HasType c ρ ((Γ.insert f (.function (args.map (·.2)) ρ)).insertMany (env ++ args)) body ρ)
      (hb : HasType c r (Γ.insert f (.function (args.map (·.2)) ρ)) b τ) :
      HasType c r Γ (.letRec f env args ρ th body b) τ
  | try_ {r : Ty} {Γ : Scope} {e t : TExpr} {x : Name} {σ : Ty} (ht : HasType c r (Γ.insert x σ) t r)
      (he : HasType c r Γ e .variant) : HasType c r Γ (.try_ e x σ t) .variant
  | clone {r : Ty} {Γ : Scope} {xs : List (Name × Ty)} {e : TExpr} {τ : Ty} (hx : ∀ x ∈ xs, Γ x.1 = some x.2)
      (he : HasType c r Γ e τ) : HasType c r Γ (.clone xs e) τ
  | drop {r : Ty} {Γ : Scope} {xs : List (Name × Ty)} {e : TExpr} {τ : Ty} (hx : ∀ x ∈ xs, Γ x.1 = some x.2)
      (he : HasType c r Γ e τ) : HasType c r Γ (.drop xs e) τ
inductive HaveTypes (c : Context) : Ty → Scope → TExprs → List Ty → Prop
  | nil {r : Ty} {Γ : Scope} : HaveTypes c r Γ .nil []
  | cons {r : Ty} {Γ : Scope} {e : TExpr} {es : TExprs} {τ : Ty} {ts : List Ty} (he : HasType c r Γ e τ)
      (hes : HaveTypes c r Γ es ts) : HaveTypes c r Γ (.cons e es) (τ :: ts)
/-- All alternatives have the type. An alternative with one type gets the payload, and others get the variant. -/
inductive AltsHaveType (c : Context) : Ty → Scope → TAlts → Ty → Prop
  | nil {r : Ty} {Γ : Scope} {τ : Ty} : AltsHaveType c r Γ .nil τ
  | default {r : Ty} {Γ : Scope} {x : Name} {e : TExpr} {τ : Ty} (he : HasType c r (Γ.insert x .variant) e τ) :
      AltsHaveType c r Γ (.default x e) τ
  | one {r : Ty} {Γ : Scope} {x : Name} {e : TExpr} {as : TAlts} {σ τ : Ty} (hσ : σ ≠ .variant)
      (he : HasType c r (Γ.insert x σ) e τ) (has : AltsHaveType c r Γ as τ) : AltsHaveType c r Γ (.cons [σ] x e as) τ
  | many {r : Ty} {Γ : Scope} {x : Name} {e : TExpr} {as : TAlts} {ts : List Ty} {τ : Ty} (hl : 2 ≤ ts.length)
      (hv : Ty.variant ∉ ts) (he : HasType c r (Γ.insert x .variant) e τ) (has : AltsHaveType c r Γ as τ) :
      AltsHaveType c r Γ (.cons ts x e as) τ
end

/-- A well-typed module. Every function is known by one type; the body of a function has its result type; functions exposed to native
code exist; and all functions of type information have the same type. -/
structure WellTyped (m : TModule) : Prop where
  typeNames : (m.types.map (·.1)).Nodup
  functionNames : (m.functions.map (·.1)).Nodup
  bodies : ∀ d ∈ m.definitions, HasType m.context d.result (m.scope.insertMany d.args) d.body d.result
  exposed : ∀ x ∈ m.foreignDefinitions, ∃ τ, (x, τ) ∈ m.functions
  information : ∃ τ, (m.fallback, τ) ∈ m.functions ∧ ∀ x ∈ m.information, (x.2, τ) ∈ m.functions

/-! ### Values -/

/-- What native code sees of a value of a type. `tagged` says which types payloads of variants have, and `id` gives their
tags. -/
inductive ObsHasType (types : Name → Option (List Ty)) (id : Ty → TypeId) (tagged : Ty → Prop) : Obs → Ty → Prop
  | none : ObsHasType types id tagged .none .none
  | boolean (b : Bool) : ObsHasType types id tagged (.boolean b) .boolean
  | number (n : UInt64) : ObsHasType types id tagged (.number n) .number
  | string (s : List UInt8) : ObsHasType types id tagged (.string s) .byteString
  | record {n : Name} {fs : List Ty} {vs : List Obs} (h : types n = some fs)
      (hv : List.Forall₂ (ObsHasType types id tagged) vs fs) :
      ObsHasType types id tagged (.record (id (.record n)) vs) (.record n)
  | variant {τ : Ty} {v : Obs} (ht : tagged τ) (hn : τ ≠ .variant) (hv : ObsHasType types id tagged v τ) :
      ObsHasType types id tagged (.variant (id τ) v) .variant
  | function (args : List Ty) (r : Ty) : ObsHasType types id tagged .function (.function args r)

/-- The native functions a module declares. -/
def TModule.native (m : TModule) : List TDeclaration := m.foreignDeclarations ++ m.declarations

/-- Native code keeps its promises: called with arguments of the declared types, a native function gives a value of the
declared type, which is not a function. -/
def Honest (m : TModule) (id : Ty → TypeId) (tagged : Ty → Prop) (w : World) : Prop :=
  ∀ d ∈ m.native, ∀ (log : Log) (args : List Obs),
    List.Forall₂ (ObsHasType m.context.types id tagged) args d.args →
      (∃ v, (w.foreign log d.name args).value = some v) ∧
        ObsHasType m.context.types id tagged (w.foreign log d.name args) d.result

/-- A call of native code as it was declared. -/
def EventTyped (m : TModule) (id : Ty → TypeId) (tagged : Ty → Prop) (e : Event) : Prop :=
  ∃ d ∈ m.native, e.name = d.name ∧ List.Forall₂ (ObsHasType m.context.types id tagged) e.args d.args ∧
    ObsHasType m.context.types id tagged e.result d.result

/-! ### Conditions the checker does not check -/

mutual
/-- The types of tags an expression mentions. -/
def TExpr.tags : TExpr → List Ty
  | .literal _ => []
  | .variable _ => []
  | .op (.variant τ) es => τ :: es.tags
  | .op _ es => es.tags
  | .case e as => e.tags ++ as.tags
  | .if_ c t e => c.tags ++ t.tags ++ e.tags
  | .let_ _ _ e b => e.tags ++ b.tags
  | .letRec _ _ _ _ _ body b => body.tags ++ b.tags
  | .try_ e _ τ t => τ :: (e.tags ++ t.tags)
  | .clone _ e => e.tags
  | .drop _ e => e.tags
def TExprs.tags : TExprs → List Ty
  | .nil => []
  | .cons e es => e.tags ++ es.tags
def TAlts.tags : TAlts → List Ty
  | .nil => []
  | .default _ e => e.tags
  | .cons types _ e as => types ++ e.tags ++ as.tags
end

mutual
/-- The environments of closures agree with the variables in scope, and no variable is named as the fallback of type
information is. The first type check is before environments are inferred, and there are none then. -/
def Scoped (fallback : Name) : Scope → TExpr → Prop
  | _, .literal _ => True
  | _, .variable _ => True
  | Γ, .op _ es => ScopedAll fallback Γ es
  | Γ, .case e as => Scoped fallback Γ e ∧ ScopedAlts fallback Γ as
  | Γ, .if_ c t e => Scoped fallback Γ c ∧ Scoped fallback Γ t ∧ Scoped fallback Γ e
  | Γ, .let_ x τ e b => x ≠ fallback ∧ Scoped fallback Γ e ∧ Scoped fallback (Γ.insert x τ) b
  | Γ, .letRec f env args r _ body b =>
    let Δ := Γ.insert f (.function (args.map (·.2)) r)
    f ≠ fallback ∧ (∀ x ∈ args, x.1 ≠ fallback) ∧ (∀ x ∈ env, Δ x.1 = some x.2) ∧
      Scoped fallback (Δ.insertMany (env ++ args)) body ∧ Scoped fallback Δ b
  | Γ, .try_ e x τ t => x ≠ fallback ∧ Scoped fallback Γ e ∧ Scoped fallback (Γ.insert x τ) t
  | Γ, .clone _ e => Scoped fallback Γ e
  | Γ, .drop _ e => Scoped fallback Γ e
def ScopedAll (fallback : Name) : Scope → TExprs → Prop
  | _, .nil => True
  | Γ, .cons e es => Scoped fallback Γ e ∧ ScopedAll fallback Γ es
def ScopedAlts (fallback : Name) : Scope → TAlts → Prop
  | _, .nil => True
  | Γ, .default x e => x ≠ fallback ∧ Scoped fallback (Γ.insert x .variant) e
  | Γ, .cons types x e as =>
    x ≠ fallback ∧ Scoped fallback (Γ.insert x (alternativeType types)) e ∧ ScopedAlts fallback Γ as
end

/-- A module that mentions only some tags, whose ids differ, with scopes as above. -/
structure WellScoped (m : TModule) (id : Ty → TypeId) (tagged : Ty → Prop) : Prop where
  scopes : ∀ d ∈ m.definitions, Scoped m.fallback (m.scope.insertMany d.args) d.body
  args : ∀ d ∈ m.definitions, ∀ x ∈ d.args, x.1 ≠ m.fallback
  tags : ∀ d ∈ m.definitions, ∀ τ ∈ d.body.tags, tagged τ
  ids : ∀ σ τ, tagged σ → tagged τ → id σ = id τ → σ = τ

end Verif.Mir.Typed
