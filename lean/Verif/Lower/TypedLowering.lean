import Verif.Lower.TypedCompile
import Verif.Lower.Relation
import Verif.Hir.Typing

/-!
# Lowered expressions have types

Lowering keeps types: an expression that has a type after analysis is lowered to one that has the lowered type.
-/

namespace Verif.Lower

open Verif.Hir (Ty Ctx Expr Module Definition RecordField Vars Canon Typed FieldTy IsVariant Sub)
open Verif.Mir.Typed (TExpr TExprs TAlts TOp HasType HaveTypes AltsHaveType OpType Scope Context)
open Verif.Names (children)
open Verif

/-- Variables an expression binds itself. -/
def binds : Expr → List String
  | .ifType x _ _ _ => [x]
  | .lambda ps _ _ => ps.map (·.1)
  | .let_ x _ _ _ => x.toList
  | _ => []

section
variable (K : TypedConfig) (C : Ctx)

/-- MIR knows the record types of the module, and errors. -/
structure TypesOk (c : Context) : Prop where
  records : ∀ n fs, C.records n = some fs → ∃ ts, c.types n = some ts ∧
    List.Forall₂ (fun f τ => ∃ d, Canon C.types f.type d ∧ τ = lowerType K d) fs ts
  error : c.types "hir:error" = some [.variant]

/-- MIR knows the records that functions, lists and maps in variants are put in. -/
def Generic (c : Context) (e : Expr) : Prop :=
  ∀ x, Visited x e → ∀ t ∈ lowerTypes x, ∀ u, Canon C.types t u → boxed u = true →
    c.types (typeName K.toConfig u) = some [lowerType K u]

/-- Variables have names of source programs. -/
def Sourced (e : Expr) : Prop := ∀ x, Visited x e → ∀ y ∈ binds x, internal y = false ∧ y ≠ K.stringEqual

/-- MIR variables have the lowered types of HIR variables. -/
structure Agrees (Γ : Vars) (Δ : Scope) : Prop where
  vars : ∀ x t d, Γ x = some t → Canon C.types t d → Δ x = some (lowerType K d)
  hidden : ∀ x, internal x = true → Γ x = none
  stringEqual : Δ K.stringEqual = some (.function [.byteString, .byteString] .boolean)

variable {K C}

theorem Generic.child {c : Context} {e y : Expr} (hy : y ∈ children e) (h : Generic K C c e) : Generic K C c y :=
  fun x hx => h x (.child hy hx)

theorem Sourced.child {e y : Expr} (hy : y ∈ children e) (h : Sourced K e) : Sourced K y := fun x hx => h x (.child hy hx)

theorem Agrees.insert {Γ : Vars} {Δ : Scope} {x : String} {t d : Ty} (h : Agrees K C Γ Δ)
    (hx : internal x = false ∧ x ≠ K.stringEqual) (hd : Canon C.types t d) :
    Agrees K C (Γ.insert x t) (Δ.insert x (lowerType K d)) where
  vars y u e hy he := by
    simp only [Hir.Vars.insert, Scope.insert] at hy ⊢
    by_cases e' : y = x
    · simp only [e', if_true, Option.some.injEq] at hy ⊢
      subst hy
      rw [hd.det he]
    · rw [if_neg e'] at hy ⊢
      exact h.vars y u e hy he
  hidden y hy := by
    simp only [Hir.Vars.insert]
    rw [if_neg (by rintro rfl; rw [hx.1] at hy; cases hy)]
    exact h.hidden y hy
  stringEqual := by
    simp only [Scope.insert]
    rw [if_neg (fun e => hx.2 e.symm)]
    exact h.stringEqual

theorem Agrees.internal (hK : internal K.stringEqual = false) {Γ : Vars} {Δ : Scope} {x : String} {τ : Mir.Typed.Ty}
    (h : Agrees K C Γ Δ) (hx : internal x = true) : Agrees K C Γ (Δ.insert x τ) where
  vars y u e hy he := by
    simp only [Scope.insert]
    rw [if_neg (by rintro rfl; rw [h.hidden _ hx] at hy; cases hy)]
    exact h.vars y u e hy he
  hidden := h.hidden
  stringEqual := by
    simp only [Scope.insert]
    rw [if_neg (by rintro e; rw [← e, hK] at hx; cases hx)]
    exact h.stringEqual

theorem lowerTypeList_eq (ts : List Ty) : lowerTypeList K ts = ts.map (lowerType K) := by
  induction ts with
  | nil => rfl
  | cons t ts ih => simp [lowerTypeList, ih]

theorem compileType_eq {a : Nat} {t d : Ty} {τ : Mir.Typed.Ty} (h : compileType K a C t = some τ) (hd : Canon C.types t d) :
    τ = lowerType K d := by
  obtain ⟨c, hc, rfl⟩ := Option.map_eq_some_iff.1 h
  rw [(Canon.of_ok (ok?_eq hc)).det hd]

theorem recordName_eq {a : Nat} {t : Ty} {n n' : String} (h : recordName K a C t = some n') (hd : Canon C.types t (.record n)) :
    n' = n := by
  obtain ⟨τ, hτ, h⟩ := Option.bind_eq_some_iff.1 h
  have := compileType_eq hτ hd
  subst this
  simpa [lowerType] using h.symm

theorem lowerType_variant {c : Ty} (h : IsVariant c) : lowerType K c = .variant := by
  rcases h with rfl | ⟨l, r, rfl⟩ <;> simp [lowerType]

theorem concreteType_ne {t c : Ty} (h : Canon C.types t c) (hany : c ≠ .any) (hu : ∀ l r, c ≠ .union l r) :
    concreteType K c ≠ .variant := by
  have hn := h.noReference
  cases c <;> simp_all [concreteType, boxed, lowerType]
  cases hn

/-- Canonical unions have at least two members. -/
theorem two_members {A : Hir.Aliases} {t l r : Ty} (h : Canon A t (.union l r)) :
    2 ≤ (Hir.btreeSet (Hir.unionMembers (.union l r))).length := by
  by_contra hc
  have hne := Hir.members_ne_nil (.union l r)
  cases hs : Hir.btreeSet (Hir.unionMembers (.union l r)) with
  | nil =>
    cases hm : Hir.unionMembers (.union l r) with
    | nil => exact hne hm
    | cons x xs =>
      have : x ∈ Hir.btreeSet (Hir.unionMembers (.union l r)) := (Hir.mem_btreeSet _ _).2 (by simp [hm])
      simp [hs] at this
  | cons x xs =>
    cases xs with
    | cons y ys => simp [hs] at hc
    | nil =>
      have hx : ∀ y, y ∈ Hir.unionMembers (.union l r) ↔ y = x := by
        intro y
        rw [← Hir.mem_btreeSet, hs, List.mem_singleton]
      have hm := h.member ((hx x).2 rfl)
      have : Ty.union l r = x := Hir.canon_ext h hm.1 (by
        intro y
        rw [hx, Hir.unionMembers_of_notUnion hm.2, List.mem_singleton])
      exact hm.2 l r this.symm

theorem haveTypes_operands {c : Context} {r : Mir.Typed.Ty} {Δ : Scope} {es : List TExpr} {ts : List Mir.Typed.Ty}
    (h : List.Forall₂ (HasType c r Δ) es ts) : HaveTypes c r Δ (operandsT es) ts := by
  induction h with
  | nil => exact .nil
  | cons h _ ih => exact .cons h ih

theorem two {c : Context} {r : Mir.Typed.Ty} {Δ : Scope} {e f : TExpr} {σ τ : Mir.Typed.Ty} (he : HasType c r Δ e σ)
    (hf : HasType c r Δ f τ) : HaveTypes c r Δ (.cons e (.cons f .nil)) [σ, τ] := .cons he (.cons hf .nil)

theorem one {c : Context} {r : Mir.Typed.Ty} {Δ : Scope} {e : TExpr} {σ : Mir.Typed.Ty} (he : HasType c r Δ e σ) :
    HaveTypes c r Δ (.cons e .nil) [σ] := .cons he .nil

theorem mapM_pairs {α β : Type} {f : α → Option β} : ∀ {as : List α} {bs : List β}, as.mapM f = some bs →
    List.Forall₂ (fun a b => f a = some b) as bs
  | [], bs, h => by
    simp only [List.mapM_nil, Option.pure_def, Option.some.injEq] at h
    subst h
    exact .nil
  | a :: as, bs, h => by
    simp only [List.mapM_cons, Option.pure_def, Option.bind_eq_bind, Option.bind_eq_some_iff, Option.some.injEq] at h
    obtain ⟨b, h1, bs', h2, rfl⟩ := h
    exact .cons h1 (mapM_pairs h2)

/-- An alternative binds a variable of the type of its branch. -/
theorem alternative_typed {c : Context} {r : Mir.Typed.Ty} {Δ : Scope} {x : String} {t u : Ty} {τ : Mir.Typed.Ty}
    {e : TExpr} {alt : List Mir.Typed.Ty × TExpr} (h : compileAlternativeT K x u e = some alt) (hu : Canon C.types t u)
    (hg : boxed u = true → c.types (typeName K.toConfig u) = some [lowerType K u])
    (he : ∀ Δ' : Scope, (∀ y, Δ' y = (Δ.insert x (lowerType K u)) y) → HasType c r Δ' e τ) {as : TAlts}
    (has : AltsHaveType c r Δ as τ) : AltsHaveType c r Δ (.cons alt.1 x alt.2 as) τ := by
  unfold compileAlternativeT at h
  split at h
  · rename_i hb
    cases h
    have hc : concreteType K u = .record (typeName K.toConfig u) := by simp [concreteType, hb]
    refine .one (by simp [hc]) ?_ has
    refine .let_ (.op (one (.variable (by rw [Scope.insert, if_pos rfl]))) ?_) (he _ ?_)
    · rw [hc]
      exact .field (hg hb) rfl
    · intro y
      simp only [Scope.insert]
      split <;> rfl
  · rename_i hb
    split at h
    · cases h
    · rename_i hany
      cases h
      by_cases hun : ∃ l r, u = .union l r
      · obtain ⟨l, r, rfl⟩ := hun
        refine .many (by simpa using two_members hu) ?_ (he _ fun y => by simp [lowerType]) has
        simp only [List.mem_map, not_exists, not_and]
        intro v hv
        rw [Hir.mem_btreeSet] at hv
        have hm := hu.member hv
        exact concreteType_ne hm.1 (by rintro rfl; exact hany hv) hm.2
      · have hnu : Hir.NotUnion u := fun l r e => hun ⟨l, r, e⟩
        rw [Hir.unionMembers_of_notUnion hnu] at hany ⊢
        have hs : Hir.btreeSet [u] = [u] := by simp [Hir.btreeSet, Hir.btreeInsert]
        have hc : concreteType K u = lowerType K u := by simp [concreteType, hb]
        simp only [hs, List.map_cons, List.map_nil]
        refine .one (concreteType_ne hu (by rintro rfl; simp at hany) hnu) (he _ fun y => by rw [hc]) has

/-- Names of fields of record types are distinct, which the compiler does not check. -/
def DistinctFields (C : Ctx) : Prop := ∀ n fs, C.records n = some fs → (fs.map (·.name)).Nodup

theorem resolveFields_fields {a : Nat} {t : Ty} {n : String} {ts : List RecordField} (h : Hir.resolveFields a C t = .ok ts)
    (hd : Canon C.types t (.record n)) : C.records n = some ts := by
  unfold Hir.resolveFields at h
  obtain ⟨c, hc, h⟩ := Res.bind_eq_ok.1 h
  have := (Canon.of_ok hc).det hd
  subst this
  simp only [Hir.resolveRecord] at h
  split at h
  · cases h; assumption
  · cases h

theorem forall₂_getElem {α β : Type} {R : α → β → Prop} {as : List α} {bs : List β} (h : List.Forall₂ R as bs) {i : Nat} {x : α}
    (hi : as[i]? = some x) : ∃ y, bs[i]? = some y ∧ R x y := by
  induction h generalizing i with
  | nil => simp at hi
  | cons h _ ih =>
    cases i with
    | zero =>
      simp only [List.getElem?_cons_zero, Option.some.injEq] at hi
      subst hi
      exact ⟨_, by simp, h⟩
    | succ i =>
      simp only [List.getElem?_cons_succ] at hi ⊢
      exact ih hi

/-- The position of a field has its type. -/
theorem field_typed {c : Context} (hT : TypesOk K C c) {n x : String} {ts : List RecordField} {d : Ty} {i : Nat}
    (hr : C.records n = some ts) (hi : fieldIndex ts x = some i) (hf : FieldTy C n x d) :
    ∃ fs, c.types n = some fs ∧ fs[i]? = some (lowerType K d) := by
  obtain ⟨us, hus, hall⟩ := hT.records n ts hr
  obtain ⟨fs', t, h1, h2, h3⟩ := hf
  rw [hr] at h1
  cases h1
  refine ⟨us, hus, ?_⟩
  obtain ⟨hlt, hp, hmin⟩ := List.findIdx?_eq_some_iff_getElem.1 hi
  have hfind : ts.find? (fun f => f.name == x) = some ts[i] := by
    rw [List.find?_eq_some_iff_getElem]
    exact ⟨hp, i, hlt, rfl, fun j hj => by simpa using hmin j hj⟩
  simp only [Hir.fieldType, hfind] at h2
  cases h2
  obtain ⟨y, hy, d', hd', rfl⟩ := forall₂_getElem hall (List.getElem?_eq_getElem hlt)
  rw [hy, hd'.det h3]

theorem compileType_canon {a : Nat} {t : Ty} {τ : Mir.Typed.Ty} (h : compileType K a C t = some τ) :
    ∃ d, Canon C.types t d ∧ τ = lowerType K d := by
  obtain ⟨d, hd, rfl⟩ := Option.map_eq_some_iff.1 h
  exact ⟨d, Canon.of_ok (ok?_eq hd), rfl⟩

/-- Parameters of functions. -/
theorem parameters_typed {a : Nat} : ∀ {ps : List (String × Ty)} {qs : List (String × Mir.Typed.Ty)} {Γ : Vars} {Δ : Scope},
    compileParameters K a C ps = some qs → (∀ y ∈ ps.map (·.1), Lower.internal y = false ∧ y ≠ K.stringEqual) →
    Agrees K C Γ Δ → Agrees K C (Γ.insertAll ps) (Δ.insertMany qs)
  | [], qs, Γ, Δ, h, _, hA => by
    simp only [compileParameters, List.mapM_nil, Option.pure_def, Option.some.injEq] at h
    subst h
    exact hA
  | (x, t) :: ps, qs, Γ, Δ, h, hp, hA => by
    simp only [compileParameters, List.mapM_cons, Option.pure_def, Option.bind_eq_bind, Option.bind_eq_some_iff,
      Option.some.injEq, Option.map_eq_some_iff] at h
    obtain ⟨q, ⟨τ, hτ, rfl⟩, qs', h2, rfl⟩ := h
    obtain ⟨d, hd, rfl⟩ := compileType_canon hτ
    have hA' := hA.insert (hp x (by simp)) hd
    exact parameters_typed (ps := ps) (qs := qs') (a := a) h2 (fun y hy => hp y (List.mem_cons_of_mem _ hy)) hA'

theorem parameters_types {a : Nat} {ps : List (String × Ty)} {qs : List (String × Mir.Typed.Ty)} {as : List Ty}
    (h : compileParameters K a C ps = some qs) (ha : List.Forall₂ (Canon C.types) (ps.map (·.2)) as) :
    qs.map (·.2) = lowerTypeList K as := by
  induction ps generalizing qs as with
  | nil =>
    simp only [compileParameters, List.mapM_nil, Option.pure_def, Option.some.injEq] at h
    subst h
    cases ha
    rfl
  | cons p ps ih =>
    obtain ⟨x, t⟩ := p
    simp only [compileParameters, List.mapM_cons, Option.pure_def, Option.bind_eq_bind, Option.bind_eq_some_iff,
      Option.some.injEq, Option.map_eq_some_iff] at h
    obtain ⟨q, ⟨τ, hτ, rfl⟩, qs', h2, rfl⟩ := h
    cases ha with
    | cons h1 h3 => simp only [List.map_cons, lowerTypeList, ih h2 h3, compileType_eq hτ h1]

theorem mem_zip_of_forall₂ {α β : Type} {as : List α} {bs : List β} {R : α → β → Prop} (hl : as.length = bs.length)
    (h : ∀ p ∈ as.zip bs, R p.1 p.2) : List.Forall₂ R as bs := List.forall₂_iff_zip.2 ⟨hl, fun hp => h _ hp⟩

theorem forall₂_trans {α β γ : Type} {R : α → β → Prop} {S : α → γ → Prop} {T : β → γ → Prop} {as : List α} {bs : List β} {cs : List γ}
    (h : List.Forall₂ R as bs) (h' : List.Forall₂ S as cs) (hT : ∀ a ∈ as, ∀ b c, R a b → S a c → T b c) : List.Forall₂ T bs cs := by
  induction h generalizing cs with
  | nil => cases h'; exact .nil
  | cons h _ ih =>
    cases h' with
    | cons h1 h2 => exact .cons (hT _ (by simp) _ _ h h1) (ih h2 fun a ha => hT a (by simp [ha]))

theorem lowerTypes_child {c : Context} {e : Expr} {t u : Ty} (hg : Generic K C c e) (ht : t ∈ lowerTypes e) (hu : Canon C.types t u)
    (hb : boxed u = true) : c.types (typeName K.toConfig u) = some [lowerType K u] := hg e (.here e) t ht u hu hb

theorem internal_fieldVariable (x : String) : Lower.internal (fieldVariable x) = true := by
  simp [Lower.internal, fieldVariable, String.toList_append]

/-- The variables of record fields have their types, and others do not change. -/
theorem recordFields_typed {c : Context} {r : Mir.Typed.Ty} {body : TExpr} {τ : Mir.Typed.Ty} (hK : Lower.internal K.stringEqual = false)
    {Γ : Vars} (G : String → Mir.Typed.Ty) :
    ∀ (fields : List (String × Mir.Typed.Ty × TExpr)) (Δ : Scope) (S : List String), Agrees K C Γ Δ →
      (∀ x ∈ S, Δ (fieldVariable x) = some (G x)) →
      (∀ f ∈ fields, f.2.1 = G f.1 ∧ ∀ Δ', Agrees K C Γ Δ' → HasType c r Δ' f.2.2 f.2.1) →
      (∀ Δ' : Scope, (∀ x, x ∈ S ∨ x ∈ fields.map (·.1) → Δ' (fieldVariable x) = some (G x)) → HasType c r Δ' body τ) →
      HasType c r Δ (compileRecordFieldsT fields body) τ
  | [], Δ, S, _, hS, _, hb => hb Δ fun x hx => hS x (by simpa using hx)
  | (x, σ, e) :: fs, Δ, S, hA, hS, hf, hb => by
    have hx := hf (x, σ, e) (by simp)
    simp only at hx
    refine .let_ (hx.2 Δ hA) ?_
    refine recordFields_typed hK G fs _ (x :: S) (hA.internal hK (internal_fieldVariable x)) ?_ (fun f h => hf f (by simp [h])) ?_
    · intro y hy
      simp only [Scope.insert]
      by_cases e : fieldVariable y = fieldVariable x
      · have : y = x := by
          have := congrArg String.toList e
          simp only [fieldVariable, String.toList_append] at this
          exact String.toList_inj.1 (List.append_cancel_left this)
        rw [if_pos e, hx.1, this]
      · rw [if_neg e]
        exact hS y (by rcases List.mem_cons.1 hy with rfl | h; exact absurd rfl e; exact h)
    · intro Δ' h
      refine hb Δ' fun y hy => h y ?_
      simp only [List.map_cons, List.mem_cons] at hy ⊢
      tauto

/-- Alternatives of a type branch. -/
theorem alternatives_typed {c : Context} {a : Nat} {rec : TCompiler} {r τ : Mir.Typed.Ty} {Γ : Vars} {Δ : Scope} {x : String}
    (hA : Agrees K C Γ Δ) (hx : Lower.internal x = false ∧ x ≠ K.stringEqual) {els : Option (Option Ty × Expr)}
    (hels : ∀ t e, els = some (some t, e) → (∀ u, Canon C.types t u → boxed u = true →
      c.types (typeName K.toConfig u) = some [lowerType K u]) ∧
        ∀ e' Δ', rec e = some e' → Agrees K C (Γ.insert x t) Δ' → HasType c r Δ' e' τ) :
    ∀ {bs : List (Ty × Expr)} {as : TAlts}, compileAlternativesT K a C rec x bs els = some as →
      (∀ p ∈ bs, (∀ u, Canon C.types p.1 u → boxed u = true → c.types (typeName K.toConfig u) = some [lowerType K u]) ∧
        ∀ e' Δ', rec p.2 = some e' → Agrees K C (Γ.insert x p.1) Δ' → HasType c r Δ' e' τ) → AltsHaveType c r Δ as τ
  | [], as, h, _ => by
    rcases els with _ | ⟨_ | t, e⟩
    · simp only [compileAlternativesT, Option.some.injEq] at h
      subst h
      exact .nil
    · cases h
    · simp only [compileAlternativesT, Option.bind_eq_bind, Option.bind_eq_some_iff] at h
      obtain ⟨u, hu, e', he, h⟩ := h
      have hu := Canon.of_ok (ok?_eq hu)
      have ht := hels t e rfl
      split at h
      · rename_i hany
        cases h
        subst hany
        exact .default (ht.2 e' _ he (hA.insert hx hu))
      · simp only [Option.bind_eq_some_iff, Option.some.injEq] at h
        obtain ⟨alt, h1, rfl⟩ := h
        refine alternative_typed h1 hu (ht.1 u hu) ?_ .nil
        intro Δ' hΔ
        have : Δ' = Δ.insert x (lowerType K u) := funext hΔ
        subst this
        exact ht.2 e' _ he (hA.insert hx hu)
  | (t, e) :: bs, as, h, hbs => by
    simp only [compileAlternativesT, Option.bind_eq_bind, Option.bind_eq_some_iff, Option.some.injEq] at h
    obtain ⟨u, hu, e', he, alt, h1, as', h2, rfl⟩ := h
    have hu := Canon.of_ok (ok?_eq hu)
    have ht := hbs (t, e) (by simp)
    refine alternative_typed h1 hu (ht.1 u hu) ?_ (alternatives_typed hA hx hels h2 fun p hp => hbs p (by simp [hp]))
    intro Δ' hΔ
    have : Δ' = Δ.insert x (lowerType K u) := funext hΔ
    subst this
    exact ht.2 e' _ he (hA.insert hx hu)

theorem alternatives_ne_nil {a : Nat} {rec : TCompiler} {x : String} {bs : List (Ty × Expr)} {els : Option (Option Ty × Expr)}
    {as : TAlts} (h : compileAlternativesT K a C rec x bs els = some as) (hne : bs ≠ [] ∨ els.isSome) : as ≠ .nil := by
  rcases bs with _ | ⟨⟨t, e⟩, bs⟩
  · rcases els with _ | ⟨_ | t, e⟩
    · simp at hne
    · cases h
    · simp only [compileAlternativesT, Option.bind_eq_bind, Option.bind_eq_some_iff] at h
      obtain ⟨u, _, e', _, h⟩ := h
      split at h
      · cases h; simp
      · simp only [Option.bind_eq_some_iff, Option.some.injEq] at h
        obtain ⟨_, _, rfl⟩ := h
        simp
  · simp only [compileAlternativesT, Option.bind_eq_bind, Option.bind_eq_some_iff, Option.some.injEq] at h
    obtain ⟨_, _, _, _, _, _, _, _, rfl⟩ := h
    simp

theorem error_typed {c : Context} (hT : TypesOk K C c) {r : Mir.Typed.Ty} {Δ : Scope} {e : TExpr} (h : HasType c r Δ e .variant) :
    HasType c r Δ (compileErrorT e) (.record "hir:error") := by
  refine .let_ h (.case (.variable (by simp [Scope.insert])) (by simp) ?_)
  exact .one (by simp) (.variable (by simp [Scope.insert]))
    (.default (.op (one (.variable (by simp [Scope.insert]))) (.record hT.error)))

theorem coercion_typed {c : Context} {r : Mir.Typed.Ty} {Δ : Scope} {s t u v : Ty} {e e' : TExpr} (hu : Canon C.types s u)
    (hv : Canon C.types t v) (h : Hir.Coercible u v)
    (hg : boxed u = true → c.types (typeName K.toConfig u) = some [lowerType K u]) (he : HasType c r Δ e (lowerType K u))
    (h' : compileCoercionT K u v e = some e') : HasType c r Δ e' (lowerType K v) := by
  cases h with
  | variant hvar hs =>
    rw [lowerType_variant hvar]
    have hvariant : ∀ {w : Ty}, Canon C.types s w → w ≠ .any → (∀ l r, w ≠ .union l r) → HasType c r Δ e (lowerType K w) →
        (boxed w = true → c.types (typeName K.toConfig w) = some [lowerType K w]) →
        HasType c r Δ (.op (.variant (concreteType K w)) (.cons (boxT K w e) .nil)) .variant := by
      intro w hw hany hun he hg
      refine .op (one ?_) (.variant (concreteType_ne hw hany hun))
      by_cases hb : boxed w = true
      · simp only [boxT, concreteType, hb, if_true]
        exact .op (one he) (.record (hg hb))
      · simp only [boxT, concreteType, hb]
        exact he
    have hnr := hu.noReference
    rcases hvar with rfl | ⟨l', r', rfl⟩ <;> cases u <;> simp only [compileCoercionT, Option.some.injEq, reduceCtorEq] at h'
    all_goals first
      | (subst h'; exact hvariant hu (by simp) (by simp) he hg)
      | (subst h'; simpa [lowerType] using he)
  | list hs =>
    simp only [compileCoercionT, Option.some.injEq] at h'
    subst h'
    simpa [lowerType] using he
  | map hs hs' =>
    simp only [compileCoercionT, Option.some.injEq] at h'
    subst h'
    simpa [lowerType] using he

end

end Verif.Lower
