import Verif.Hir.Types

/-!
# Specification of the type algebra

Independent of the analyses of the compiler: what a reader of the language guide means by "the same
type", "assignable" and "contains".
-/

namespace Verif.Hir

/-- `Expands Γ t u`: `u` is `t` with every alias replaced by its (finite) definition. -/
inductive Expands (Γ : Aliases) : Ty → Ty → Prop
  | any : Expands Γ .any .any
  | boolean : Expands Γ .boolean .boolean
  | error : Expands Γ .error .error
  | none : Expands Γ .none .none
  | number : Expands Γ .number .number
  | string : Expands Γ .string .string
  | record (n) : Expands Γ (.record n) (.record n)
  | function {as bs : List Ty} {r s : Ty} : as.length = bs.length →
      (∀ p ∈ as.zip bs, Expands Γ p.1 p.2) → Expands Γ r s → Expands Γ (.function as r) (.function bs s)
  | list {a b} : Expands Γ a b → Expands Γ (.list a) (.list b)
  | map {k v k' v'} : Expands Γ k k' → Expands Γ v v' → Expands Γ (.map k v) (.map k' v')
  | union {l r l' r'} : Expands Γ l l' → Expands Γ r r' → Expands Γ (.union l r) (.union l' r')
  | reference {x t u} : Γ x = some t → Expands Γ t u → Expands Γ (.reference x) u

/-- Equality of expanded types: the least congruence in which union is associative, commutative and
idempotent and absorbs into `any`. -/
inductive TyEq : Ty → Ty → Prop
  | refl (t) : TyEq t t
  | symm {t u} : TyEq t u → TyEq u t
  | trans {t u v} : TyEq t u → TyEq u v → TyEq t v
  | comm (t u) : TyEq (.union t u) (.union u t)
  | assoc (t u v) : TyEq (.union (.union t u) v) (.union t (.union u v))
  | idem (t) : TyEq (.union t t) t
  | absorb (t) : TyEq (.union .any t) .any
  | congUnion {l r l' r'} : TyEq l l' → TyEq r r' → TyEq (.union l r) (.union l' r')
  | congList {a b} : TyEq a b → TyEq (.list a) (.list b)
  | congMap {k v k' v'} : TyEq k k' → TyEq v v' → TyEq (.map k v) (.map k' v')
  | congResult {as r s} : TyEq r s → TyEq (.function as r) (.function as s)
  | congArg {xs ys a b r} : TyEq a b → TyEq (.function (xs ++ a :: ys) r) (.function (xs ++ b :: ys) r)

/-- Assignability of expanded types: the least preorder containing type equality in which `any` is the
top and union is the join. There is no variance: functions, lists and maps are assignable only when they
are the same type. -/
inductive Assignable : Ty → Ty → Prop
  | eq {t u} : TyEq t u → Assignable t u
  | trans {t u v} : Assignable t u → Assignable u v → Assignable t v
  | top (t) : Assignable t .any
  | left (l r) : Assignable l (.union l r)
  | right (l r) : Assignable r (.union l r)
  | join {l r u} : Assignable l u → Assignable r u → Assignable (.union l r) u

/-- `t` is a member of the union `u` (as written, without looking through `any`). -/
inductive Member : Ty → Ty → Prop
  | self {t} : (∀ l r, t ≠ .union l r) → Member t t
  | left {t l r} : Member t l → Member t (.union l r)
  | right {t l r} : Member t r → Member t (.union l r)

/-- No alias reference occurs anywhere. -/
inductive NoReference : Ty → Prop
  | any : NoReference .any
  | boolean : NoReference .boolean
  | error : NoReference .error
  | none : NoReference .none
  | number : NoReference .number
  | string : NoReference .string
  | record (n) : NoReference (.record n)
  | function {as r} : (∀ a ∈ as, NoReference a) → NoReference r → NoReference (.function as r)
  | list {e} : NoReference e → NoReference (.list e)
  | map {k v} : NoReference k → NoReference v → NoReference (.map k v)
  | union {l r} : NoReference l → NoReference r → NoReference (.union l r)

/-- `Inside t u`: `t` occurs as a sub-term of `u`. -/
inductive Inside : Ty → Ty → Prop
  | refl (t) : Inside t t
  | arg {t a as r} : a ∈ as → Inside t a → Inside t (.function as r)
  | result {t as r} : Inside t r → Inside t (.function as r)
  | list {t e} : Inside t e → Inside t (.list e)
  | key {t k v} : Inside t k → Inside t (.map k v)
  | value {t k v} : Inside t v → Inside t (.map k v)
  | left {t l r} : Inside t l → Inside t (.union l r)
  | right {t l r} : Inside t r → Inside t (.union l r)

end Verif.Hir
