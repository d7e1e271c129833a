import Verif.Hir.Evaluation
import Verif.Hir.CanonLemmas

/-!
# Typing of analyzed modules

A declarative type system for modules after `analyze`: without subtyping, every conversion is an explicit
coercion. Types of expressions and values are canonical.
-/

namespace Verif.Hir

/-- `any` and union types, whose values are variants. -/
def IsVariant (c : Ty) : Prop := c = .any ∨ ∃ l r, c = .union l r

/-- The conversions coercions stand for. -/
inductive Coercible : Ty → Ty → Prop
  | variant {c d} : IsVariant d → Sub c d → Coercible c d
  | list {c d} : Sub c d → Coercible (.list c) (.list d)
  | map {k v k' v'} : Sub k k' → Sub v v' → Coercible (.map k v) (.map k' v')

/-- Types of built-in functions. -/
inductive BuiltInTy : BuiltIn → List Ty → Ty → Prop
  | debug : BuiltInTy .debug [.any] .none
  | delete {k v k'} : Sub k' k → BuiltInTy .delete [.map k v, k'] (.map k v)
  | error : BuiltInTy .error [.any] .error
  | keys (k v) : BuiltInTy .keys [.map k v] (.list k)
  | values (k v) : BuiltInTy .values [.map k v] (.list v)
  | race (e) : BuiltInTy .race [.list (.list e)] (.list e)
  | reflectDebug : BuiltInTy .reflectDebug [.any] .string
  | reflectEqual : BuiltInTy .reflectEqual [.any, .any] (.union .boolean .none)
  | sizeList (e) : BuiltInTy .size [.list e] .number
  | sizeMap (k v) : BuiltInTy .size [.map k v] .number
  | source : BuiltInTy .source [.error] .any
  | spawn (r) : BuiltInTy .spawn [.function [] r] (.function [] r)

/-- Built-in functions whose arguments are evaluated in functions of their own. -/
def BuiltIn.deferred : BuiltIn → Bool
  | .keys | .values | .race | .spawn => true
  | _ => false

/-- The type of a record field. -/
def FieldTy (C : Ctx) (n x : String) (c : Ty) : Prop :=
  ∃ fs t, C.records n = some fs ∧ fieldType fs x = .ok t ∧ Canon C.types t c

/-- The variable a `let` binds. -/
def letBinding {α : Type} (x : Option String) (a : α) : List (String × α) :=
  match x with
  | none => []
  | some x => [(x, a)]

mutual
/-- `Typed C Γ ρ e c`: under `Γ`, `e` has the type `c` and may return early from a function with result
type `ρ`. -/
inductive Typed (C : Ctx) : Vars → Option Ty → Expr → Ty → Prop
  | boolean {Γ ρ} (b) : Typed C Γ ρ (.boolean b) .boolean
  | none {Γ ρ} : Typed C Γ ρ .none .none
  | number {Γ ρ} (i) : Typed C Γ ρ (.number i) .number
  | string {Γ ρ} (s) : Typed C Γ ρ (.string s) .string
  | var {Γ : Vars} {ρ x t c} : Γ x = some t → Canon C.types t c → Typed C Γ ρ (.variable x) c
  | call {Γ ρ t f args as r} : Canon C.types t (.function as r) → Typed C Γ ρ f (.function as r) →
      args.length = as.length → (∀ p ∈ args.zip as, Typed C Γ ρ p.1 p.2) →
      Typed C Γ ρ (.call (some t) f args) r
  | builtInCall {Γ ρ t f args as r} : Canon C.types t (.function as r) → BuiltInTy f as r →
      args.length = as.length →
      (∀ p ∈ args.zip as, Typed C Γ (if f.deferred then none else ρ) p.1 p.2) →
      Typed C Γ ρ (.builtInCall (some t) f args) r
  | if_ {Γ ρ c a b d} : Typed C Γ ρ c .boolean → Typed C Γ ρ a d → Typed C Γ ρ b d →
      Typed C Γ ρ (.if_ c a b) d
  | ifList {Γ : Vars} {ρ e l first rest a b d} : Canon C.types e e → Typed C Γ ρ l (.list e) →
      Typed C ((Γ.insert first (.function [] e)).insert rest (.list e)) ρ a d → Typed C Γ ρ b d →
      Typed C Γ ρ (.ifList (some e) l first rest a b) d
  | ifMap {Γ : Vars} {ρ k v x e i a b d} : Canon C.types k k → Canon C.types v v →
      Typed C Γ ρ e (.map k v) → Typed C Γ ρ i k →
      Typed C (Γ.insert x v) ρ a d → Typed C Γ ρ b d →
      Typed C Γ ρ (.ifMap (some k) (some v) x e i a b) d
  | ifTypeElse {Γ : Vars} {ρ x e bs t b c ct d} : Typed C Γ ρ e c → IsVariant c →
      (∀ p ∈ bs, ∃ cp, Canon C.types p.1 cp ∧ cp ≠ .any) →
      (∀ p ∈ bs, Typed C (Γ.insert x p.1) ρ p.2 d) →
      Canon C.types t ct → (ct ≠ .any → c ≠ .any ∧ ∀ y ∈ unionMembers c, y ∈ unionMembers ct ∨
        ∃ p ∈ bs, ∃ cp, Canon C.types p.1 cp ∧ y ∈ unionMembers cp) →
      Typed C (Γ.insert x t) ρ b d →
      Typed C Γ ρ (.ifType x e bs (some (some t, b))) d
  | ifType {Γ : Vars} {ρ x e bs c d} : Typed C Γ ρ e c → IsVariant c → c ≠ .any →
      (∀ p ∈ bs, ∃ cp, Canon C.types p.1 cp ∧ cp ≠ .any) →
      (∀ p ∈ bs, Typed C (Γ.insert x p.1) ρ p.2 d) →
      (∀ y ∈ unionMembers c, ∃ p ∈ bs, ∃ cp, Canon C.types p.1 cp ∧ y ∈ unionMembers cp) →
      Typed C Γ ρ (.ifType x e bs Option.none) d
  | lambda {Γ : Vars} {ρ params result b as r} :
      Canon C.types (lambdaType params result) (.function as r) →
      Typed C (Γ.insertAll params) (some r) b r →
      Typed C Γ ρ (.lambda params result b) (.function as r)
  | let_ {Γ : Vars} {ρ x t a b c d} : Canon C.types t c → Typed C Γ ρ a c →
      Typed C (Γ.insertAll (letBinding x t)) ρ b d → Typed C Γ ρ (.let_ x (some t) a b) d
  | list {Γ ρ t c elems} : Canon C.types t c → (∀ e, .single e ∈ elems → Typed C Γ Option.none e c) →
      (∀ e, .multiple e ∈ elems → Typed C Γ Option.none e (.list c)) → Typed C Γ ρ (.list t elems) (.list c)
  | comprehension {Γ ρ t c e b bs} : Canon C.types t c → TypedBranches C Γ (b :: bs) e c →
      Typed C Γ ρ (.comprehension t e b bs) (.list c)
  | map {Γ ρ k v ck cv elems} : Canon C.types k ck → Canon C.types v cv →
      (∀ a b, .single a b ∈ elems → Typed C Γ ρ a ck) →
      (∀ a b, .single a b ∈ elems → Typed C Γ ρ b cv) →
      (∀ e, .multiple e ∈ elems → Typed C Γ ρ e (.map ck cv)) → Typed C Γ ρ (.map k v elems) (.map ck cv)
  | addNumber {Γ ρ a b} : Typed C Γ ρ a .number → Typed C Γ ρ b .number →
      Typed C Γ ρ (.addition (some .number) a b) .number
  | addString {Γ ρ a b} : Typed C Γ ρ a .string → Typed C Γ ρ b .string →
      Typed C Γ ρ (.addition (some .string) a b) .string
  | arithmetic {Γ ρ op a b} : Typed C Γ ρ a .number → Typed C Γ ρ b .number →
      Typed C Γ ρ (.arithmetic op a b) .number
  | booleanOp {Γ ρ op a b} : Typed C Γ ρ a .boolean → Typed C Γ ρ b .boolean →
      Typed C Γ ρ (.booleanOp op a b) .boolean
  | equality {Γ ρ t op a b d} : Canon C.types t d → Typed C Γ ρ a d → Typed C Γ ρ b d →
      Typed C Γ ρ (.equality (some t) op a b) .boolean
  | not {Γ ρ a} : Typed C Γ ρ a .boolean → Typed C Γ ρ (.not a) .boolean
  | order {Γ ρ op a b} : Typed C Γ ρ a .number → Typed C Γ ρ b .number →
      Typed C Γ ρ (.order op a b) .boolean
  | try_ {Γ t a c ct r} : Typed C Γ (some r) a c → IsVariant c → c ≠ .any → Canon C.types t ct → ct ≠ .any →
      (∀ y ∈ unionMembers c, y = .error ∨ y ∈ unionMembers ct) → IsVariant r → Sub .error r →
      Typed C Γ (some r) (.try_ (some t) a) ct
  | record {Γ ρ t n fs fields} {F : String → Ty} : Canon C.types t (.record n) → C.records n = some fs →
      (∀ f ∈ fs, f.name ∈ fields.map (·.1)) → (∀ f ∈ fields, FieldTy C n f.1 (F f.1)) →
      (∀ f ∈ fields, Typed C Γ ρ f.2 (F f.1)) → Typed C Γ ρ (.record t fields) (.record n)
  | deconstruct {Γ ρ t n e x c} : Canon C.types t (.record n) → Typed C Γ ρ e (.record n) →
      FieldTy C n x c → Typed C Γ ρ (.deconstruct (some t) e x) c
  | update {Γ ρ t n e fields} {F : String → Ty} : Canon C.types t (.record n) → Typed C Γ ρ e (.record n) →
      (∀ f ∈ fields, FieldTy C n f.1 (F f.1)) →
      (∀ f ∈ fields, Typed C Γ ρ f.2 (F f.1)) → Typed C Γ ρ (.update t e fields) (.record n)
  | coercion {Γ ρ src dst e c d} : Canon C.types src c → Canon C.types dst d → Typed C Γ ρ e c →
      Coercible c d → Typed C Γ ρ (.coercion src dst e) d
/-- `TypedBranches C Γ bs e c`: under `Γ` and what `bs` bind, `e` has the type `c`. -/
inductive TypedBranches (C : Ctx) : Vars → List (Branch Expr) → Expr → Ty → Prop
  | nil {Γ e c} : Typed C Γ Option.none e c → TypedBranches C Γ [] e c
  | cons {Γ : Vars} {b : Branch Expr} {bs e c} {ts : List Ty} : b.names.length = b.iteratees.length →
      b.iteratees.length = ts.length →
      (∀ p ∈ b.iteratees.zip ts, ∃ t, p.1.1 = some t ∧ Canon C.types t (.list p.2)) →
      (∀ p ∈ b.iteratees.zip ts, Typed C Γ Option.none p.1.2 (.list p.2)) →
      (∀ d, b.condition = some d →
        Typed C (Γ.insertAll (b.names.zip (ts.map (.function [])))) Option.none d .boolean) →
      TypedBranches C (Γ.insertAll (b.names.zip (ts.map (.function [])))) bs e c →
      TypedBranches C Γ (b :: bs) e c
end

/-! ## Values -/

section
variable (m : Module)

/-- Items that can be evaluated to an element. -/
def Forcible : Item → Prop
  | .one _ _ _ => True
  | .stored _ _ => True
  | _ => False

mutual
/-- `HasType m v c`: `v` is a value of the canonical type `c`. -/
inductive HasType : Val → Ty → Prop
  | none : HasType .none .none
  | boolean (b) : HasType (.boolean b) .boolean
  | number (i) : HasType (.number i) .number
  | string (s) : HasType (.string s) .string
  | error {v} : HasType v .any → HasType (.error v) .error
  | record {n vs} : (∀ x c, FieldTy m.ctx n x c → (lookupField vs x).isSome) →
      (∀ x c v, FieldTy m.ctx n x c → lookupField vs x = some v → HasType v c) →
      HasType (.record n vs) (.record n)
  | closure {Γ : Vars} {env params body} {ts as : List Ty} {r} : EnvOk env Γ →
      params.length = ts.length → List.Forall₂ (Canon m.ctx.types) ts as → Canon m.ctx.types r r →
      Typed m.ctx (Γ.insertAll (params.zip ts)) (some r) body r →
      HasType (.closure env params body) (.function as r)
  | foreign {x d as r} : lastLookup m.declarations x = some d →
      Canon m.ctx.types (.function d.1 d.2) (.function as r) → HasType (.foreign x) (.function as r)
  | element {item t c} : Forcible item → ItemOk item c → Canon m.ctx.types t c →
      HasType (.element item t) (.function [] c)
  | spawned {Γ : Vars} {env e t c} : EnvOk env Γ → Typed m.ctx Γ Option.none e (.function [] c) →
      Canon m.ctx.types t c → HasType (.spawned env e t) (.function [] c)
  | list {items c} : Canon m.ctx.types c c → (∀ i ∈ items, ItemOk i c) → HasType (.list items) (.list c)
  | map {entries k v} : Canon m.ctx.types k k → Canon m.ctx.types v v →
      (∀ p ∈ entries, IsVariantOf p.1 k) → (∀ p ∈ entries, IsVariantOf p.2 v) →
      HasType (.map entries) (.map k v)
  | variant {v c} : IsVariant c → IsVariantOf v c → HasType v c
/-- `IsVariantOf m v c`: `v` is a variant of a value of the type `c`, tagged with a member of it. -/
inductive IsVariantOf : Val → Ty → Prop
  | mk {tag v c} : c = .any ∨ tag ∈ unionMembers c → Canon m.ctx.types tag tag → NotUnion tag → tag ≠ .any →
      HasType v tag → IsVariantOf (.variant tag v) c
/-- `ItemOk m i c`: `i` stands for list elements of the type `c`. -/
inductive ItemOk : Item → Ty → Prop
  | one {Γ : Vars} {env e t d c} : EnvOk env Γ → Canon m.ctx.types t d → Typed m.ctx Γ Option.none e d →
      Sub d c → ItemOk (.one env e t) c
  | many {Γ : Vars} {env e d c} : EnvOk env Γ → Typed m.ctx Γ Option.none e (.list d) → Sub d c →
      ItemOk (.many env e) c
  | comprehension {Γ : Vars} {env t e b bs d c} : EnvOk env Γ → Canon m.ctx.types t d →
      TypedBranches m.ctx Γ (b :: bs) e d → Sub d c → ItemOk (.comprehension env t e b bs) c
  | loop {Γ : Vars} {env t e b bs ls d c} : EnvOk env Γ → Canon m.ctx.types t d →
      TypedBranches m.ctx Γ (b :: bs) e d → ls.length = b.iteratees.length →
      (∀ p ∈ b.iteratees.zip ls, ∀ u f, p.1.1 = some u → Canon m.ctx.types u (.list f) →
        ∀ i ∈ p.2, ItemOk i f) → Sub d c → ItemOk (.loop env t e b bs ls) c
  | keys {Γ : Vars} {env e t k v c} : EnvOk env Γ → Canon m.ctx.types t k →
      Typed m.ctx Γ Option.none e (.map k v) → Sub k c → ItemOk (.entries env e false t) c
  | values {Γ : Vars} {env e t k v c} : EnvOk env Γ → Canon m.ctx.types t v →
      Typed m.ctx Γ Option.none e (.map k v) → Sub v c → ItemOk (.entries env e true t) c
  | stored {v t d c} : Canon m.ctx.types t d → IsVariantOf v d → Sub d c → ItemOk (.stored v t) c
  | race {Γ : Vars} {env e t d c} : EnvOk env Γ → Canon m.ctx.types t (.list d) →
      Typed m.ctx Γ Option.none e (.list (.list d)) → Sub d c → ItemOk (.race env e t) c
  | racing {ls d c} : Canon m.ctx.types d d → (∀ l ∈ ls, ∀ i ∈ l, ItemOk i d) → Sub d c →
      ItemOk (.racing ls) c
/-- `EnvOk m env Γ`: variables have values of their types, or are global. -/
inductive EnvOk : Env → Vars → Prop
  | mk {env : Env} {Γ : Vars} : (∀ x v t c, env x = some v → Γ x = some t → Canon m.ctx.types t c →
      HasType v c) → (∀ x, env x = Option.none → Γ x = m.vars x) → EnvOk env Γ
end

end

end Verif.Hir
