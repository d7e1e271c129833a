import Verif.Lower.TypedLowering

/-!
# Lowered expressions have types

The main induction.
-/

namespace Verif.Lower

open Verif.Hir (Ty Ctx Expr Module Definition RecordField Vars Canon Typed FieldTy IsVariant Sub)
open Verif.Mir.Typed (TExpr TExprs TAlts TOp HasType HaveTypes AltsHaveType OpType Scope Context)
open Verif.Names (children)
open Verif

section
variable {K : TypedConfig} {C : Ctx}

/-- What is shown about subexpressions. -/
def Lowers (K : TypedConfig) (C : Ctx) (c : Context) (rec : TCompiler) : Prop :=
  ∀ {e : Expr} {e' : TExpr} {Γ : Vars} {ρ : Option Ty} {d : Ty} {Δ : Scope} {r' : Mir.Typed.Ty}, rec e = some e' →
    Typed C Γ ρ e d → Generic K C c e → Sourced K e → Agrees K C Γ Δ → (∀ r, ρ = some r → r' = lowerType K r) →
    HasType c r' Δ e' (lowerType K d)

theorem equality_typed {c : Context} {a : Nat} {rec : TCompiler} (ih : Lowers K C c rec) {t d : Ty} {l r : Expr} {e' : TExpr}
    {Γ : Vars} {ρ : Option Ty} {Δ : Scope} {r' : Mir.Typed.Ty} (h : compileEqualityT K a C rec t l r = some e')
    (hd : Canon C.types t d) (hl : Typed C Γ ρ l d) (hr : Typed C Γ ρ r d) (hgl : Generic K C c l) (hgr : Generic K C c r)
    (hsl : Sourced K l) (hsr : Sourced K r) (hA : Agrees K C Γ Δ) (hρ : ∀ r, ρ = some r → r' = lowerType K r) :
    HasType c r' Δ e' .boolean := by
  simp only [compileEqualityT, Option.bind_eq_bind, Option.bind_eq_some_iff] at h
  obtain ⟨u, hu, h⟩ := h
  have := (Canon.of_ok (ok?_eq hu)).det hd
  subst this
  split at h
  · simp only [Option.bind_eq_some_iff, Option.some.injEq] at h
    obtain ⟨l', h1, r2, h2, rfl⟩ := h
    exact .op (two (ih h1 hl hgl hsl hA hρ) (ih h2 hr hgr hsr hA hρ)) (.comparison _)
  · simp only [Option.bind_eq_some_iff, Option.some.injEq] at h
    obtain ⟨l', h1, r2, h2, rfl⟩ := h
    exact .op (.cons (.variable hA.stringEqual) (two (ih h1 hl hgl hsl hA hρ) (ih h2 hr hgr hsr hA hρ))) (.call _ _)
  · cases h

theorem fields_typed {c : Context} {a : Nat} {rec : TCompiler} {Γ : Vars} {ρ : Option Ty} {r' : Mir.Typed.Ty} (ih : Lowers K C c rec)
    {n : String} {ts : List RecordField} (hr : C.records n = some ts) {fields : List (String × Expr)} {F : String → Ty}
    (hF : ∀ f ∈ fields, FieldTy C n f.1 (F f.1)) (ht : ∀ f ∈ fields, Typed C Γ ρ f.2 (F f.1))
    (hg : ∀ f ∈ fields, Generic K C c f.2) (hs : ∀ f ∈ fields, Sourced K f.2) (hρ : ∀ r, ρ = some r → r' = lowerType K r)
    {es : List (String × Mir.Typed.Ty × TExpr)} (h : fields.mapM (compileFieldT K a C rec ts) = some es) :
    (∀ f ∈ es, f.2.1 = lowerType K (F f.1) ∧ ∀ Δ', Agrees K C Γ Δ' → HasType c r' Δ' f.2.2 f.2.1) ∧
      ∀ f ∈ fields, f.1 ∈ es.map (·.1) := by
  constructor
  · intro g hgm
    obtain ⟨f, hf, h⟩ := mapM_source h hgm
    simp only [compileFieldT, Option.bind_eq_bind, Option.bind_eq_some_iff, Option.some.injEq] at h
    obtain ⟨t, h1, τ, h2, e, h3, rfl⟩ := h
    obtain ⟨fs', t', g1, g2, g3⟩ := hF f hf
    rw [hr] at g1
    cases g1
    rw [ok?_eq h1] at g2
    cases g2
    refine ⟨compileType_eq h2 g3, fun Δ' hA => ?_⟩
    simp only
    rw [compileType_eq h2 g3]
    exact ih h3 (ht f hf) (hg f hf) (hs f hf) hA hρ
  · intro f hf
    obtain ⟨g, hgm, h⟩ := mapM_target h hf
    simp only [compileFieldT, Option.bind_eq_bind, Option.bind_eq_some_iff, Option.some.injEq] at h
    obtain ⟨t, h1, τ, h2, e, h3, rfl⟩ := h
    exact List.mem_map.2 ⟨_, hgm, rfl⟩

theorem find_of_nodup {ts : List RecordField} (h : (ts.map (·.name)).Nodup) {f : RecordField} (hf : f ∈ ts) :
    ts.find? (fun g => g.name == f.name) = some f := by
  induction ts with
  | nil => cases hf
  | cons g ts ih =>
    simp only [List.map_cons, List.nodup_cons] at h
    simp only [List.find?_cons]
    rcases List.mem_cons.1 hf with rfl | hf
    · simp
    · have : (g.name == f.name) = false := by
        rw [beq_eq_false_iff_ne]
        intro e
        exact h.1 (e ▸ List.mem_map.2 ⟨f, hf, rfl⟩)
      rw [this]
      exact ih h.2 hf

theorem call_args {c : Context} {rec : TCompiler} {Γ : Vars} {ρ : Option Ty} {Δ : Scope} {r' : Mir.Typed.Ty} (ih : Lowers K C c rec)
    {args : List Expr} {as : List Ty} (hl : args.length = as.length) (ht : ∀ p ∈ args.zip as, Typed C Γ ρ p.1 p.2)
    (hg : ∀ x ∈ args, Generic K C c x) (hs : ∀ x ∈ args, Sourced K x) (hA : Agrees K C Γ Δ)
    (hρ : ∀ r, ρ = some r → r' = lowerType K r) {es : List TExpr} (h : args.mapM rec = some es) :
    HaveTypes c r' Δ (operandsT es) (lowerTypeList K as) := by
  refine haveTypes_operands ?_
  rw [lowerTypeList_eq, List.forall₂_map_right_iff]
  refine forall₂_trans (mapM_pairs h) (mem_zip_of_forall₂ hl ht) ?_
  intro x hx e d h1 h2
  exact ih h1 h2 (hg x hx) (hs x hx) hA hρ

theorem compileT_typed {a : Nat} {c : Context} (hT : TypesOk K C c) (hD : DistinctFields C)
    (hK : Lower.internal K.stringEqual = false) (n : Nat) : Lowers K C c (compileT K a C n) := by
  induction n with
  | zero =>
    intro e e' Γ ρ d Δ r' h
    cases h
  | succ n ih =>
    intro e e' Γ ρ d Δ r' h ht hg hs hA hρ
    simp only [compileT] at h
    cases ht with
    | boolean b => cases h; exact .boolean b
    | none => cases h; exact .none
    | number i => cases h; exact .number i
    | string s => cases h; exact .string s
    | var h1 h2 => cases h; exact .variable (hA.vars _ _ _ h1 h2)
    | @call _ _ t f args as r h1 h2 h3 h4 =>
      simp only [compileStepT, Option.bind_eq_bind, Option.bind_eq_some_iff, Option.some.injEq] at h
      obtain ⟨p, hp, f', hf, es, hes, rfl⟩ := h
      have := (Hir.expectFunction_ok (ok?_eq hp)).det h1
      injection this with e1 e2
      rw [e1, e2]
      refine .op (.cons (ih hf h2 (hg.child (by simp [children])) (hs.child (by simp [children])) hA hρ)
        (call_args ih h3 h4 (fun x hx => hg.child (by simp [children, hx])) (fun x hx => hs.child (by simp [children, hx])) hA hρ
          hes)) ?_
      simp only [lowerType]
      exact .call _ _
    | @builtInCall _ _ t f args as r h1 h2 h3 h4 =>
      have hc : ∀ x ∈ args, x ∈ children (.builtInCall (some t) f args) := fun x hx => by simp [children, hx]
      cases h2 with
      | error =>
        obtain ⟨x, rfl⟩ := List.length_eq_one_iff.1 h3
        simp only [compileStepT, Option.bind_eq_bind, Option.bind_eq_some_iff, Option.some.injEq] at h
        obtain ⟨_, _, e1, he, rfl⟩ := h
        have hx := h4 (x, .any) (by simp)
        simp only [Hir.BuiltIn.deferred] at hx
        have := ih he hx (hg.child (hc x (by simp))) (hs.child (hc x (by simp))) hA (by simpa using hρ)
        simp only [lowerType] at this ⊢
        exact error_typed hT this
      | source =>
        obtain ⟨x, rfl⟩ := List.length_eq_one_iff.1 h3
        simp only [compileStepT, Option.bind_eq_bind, Option.bind_eq_some_iff, Option.some.injEq] at h
        obtain ⟨_, _, e1, he, rfl⟩ := h
        have hx := h4 (x, .error) (by simp)
        simp only [Hir.BuiltIn.deferred] at hx
        have := ih he hx (hg.child (hc x (by simp))) (hs.child (hc x (by simp))) hA (by simpa using hρ)
        simp only [lowerType] at this ⊢
        exact .op (one this) (.field hT.error rfl)
      | _ =>
        first
          | (obtain ⟨x, rfl⟩ := List.length_eq_one_iff.1 h3; cases h)
          | (cases h)
    | if_ h1 h2 h3 =>
      simp only [compileStepT, Option.bind_eq_bind, Option.bind_eq_some_iff, Option.some.injEq] at h
      obtain ⟨x, hx, y, hy, z, hz, rfl⟩ := h
      have k1 := ih hx h1 (hg.child (by simp [children])) (hs.child (by simp [children])) hA hρ
      exact .if_ (by simpa [lowerType] using k1) (ih hy h2 (hg.child (by simp [children])) (hs.child (by simp [children])) hA hρ)
        (ih hz h3 (hg.child (by simp [children])) (hs.child (by simp [children])) hA hρ)
    | ifList => cases h
    | ifMap => cases h
    | @ifTypeElse _ _ x e bs t b u ct _ h1 h2 h3 h4 h5 h6 h7 =>
      simp only [compileStepT, Option.bind_eq_bind, Option.bind_eq_some_iff, Option.some.injEq] at h
      obtain ⟨e1, he, as, has, rfl⟩ := h
      have k1 := ih he h1 (hg.child (by simp [children])) (hs.child (by simp [children])) hA hρ
      rw [lowerType_variant h2] at k1
      refine .case k1 (alternatives_ne_nil has (by simp)) (alternatives_typed hA (hs _ (.here _) x (by simp [binds])) ?_ has ?_)
      · intro t' e'' heq
        cases heq
        refine ⟨fun v hv hb => lowerTypes_child hg (by simp [lowerTypes]) hv hb, fun e' Δ' he' hA' => ?_⟩
        exact ih he' h7 (hg.child (by simp [children])) (hs.child (by simp [children])) hA' hρ
      · intro p hp
        refine ⟨fun v hv hb => lowerTypes_child hg (by simp only [lowerTypes, List.mem_append, List.mem_map]; exact Or.inl ⟨p, hp, rfl⟩) hv hb,
          fun e' Δ' he' hA' => ?_⟩
        have hm : p.2 ∈ children (Expr.ifType x e bs (some (some t, b))) := by
          simp only [children, List.mem_cons, List.mem_append, List.mem_map]
          exact Or.inr (Or.inl ⟨p, hp, rfl⟩)
        exact ih he' (h4 p hp) (hg.child hm) (hs.child hm) hA' hρ
    | @ifType _ _ x e bs u _ h1 h2 h3 h4 h5 h6 =>
      simp only [compileStepT, Option.bind_eq_bind, Option.bind_eq_some_iff, Option.some.injEq] at h
      obtain ⟨e1, he, as, has, rfl⟩ := h
      have k1 := ih he h1 (hg.child (by simp [children])) (hs.child (by simp [children])) hA hρ
      rw [lowerType_variant h2] at k1
      have hne : bs ≠ [] := by
        rintro rfl
        cases hm : Hir.unionMembers u with
        | nil => exact Hir.members_ne_nil u hm
        | cons y ys =>
          obtain ⟨p, hp, _⟩ := h6 y (by simp [hm])
          cases hp
      refine .case k1 (alternatives_ne_nil has (Or.inl hne)) (alternatives_typed hA (hs _ (.here _) x (by simp [binds])) ?_ has ?_)
      · intro t' e'' heq
        cases heq
      · intro p hp
        refine ⟨fun v hv hb => lowerTypes_child hg (by simp only [lowerTypes, List.mem_append, List.mem_map]; exact Or.inl ⟨p, hp, rfl⟩) hv hb,
          fun e' Δ' he' hA' => ?_⟩
        have hm : p.2 ∈ children (Expr.ifType x e bs Option.none) := by
          simp only [children, List.mem_cons, List.mem_append, List.mem_map]
          exact Or.inr (Or.inl ⟨p, hp, rfl⟩)
        exact ih he' (h5 p hp) (hg.child hm) (hs.child hm) hA' hρ
    | @lambda _ _ params result b as r h1 h2 =>
      simp only [compileStepT, Option.bind_eq_bind, Option.bind_eq_some_iff, Option.some.injEq] at h
      obtain ⟨ps, hps, τ, hτ, b', hb, rfl⟩ := h
      obtain ⟨as', r2, e1, g1, g2⟩ := Hir.canon_function_inv h1
      injection e1 with e1 e2
      subst e1 e2
      have e3 := compileType_eq hτ g2
      subst e3
      have e4 := parameters_types hps g1
      simp only [lowerType]
      rw [← e4]
      refine .letRec ?_ (.variable (by simp [Scope.insert]))
      simp only [List.nil_append]
      exact ih hb h2 (hg.child (by simp [children])) (hs.child (by simp [children]))
        (parameters_typed hps (hs _ (.here _)) (hA.internal hK (by decide))) (by rintro _ ⟨⟩; rfl)
    | @let_ _ _ x t e1 b u _ h1 h2 h3 =>
      simp only [compileStepT, Option.bind_eq_bind, Option.bind_eq_some_iff, Option.some.injEq] at h
      obtain ⟨τ, hτ, e2, he, b', hb, rfl⟩ := h
      have e3 := compileType_eq hτ h1
      subst e3
      refine .let_ (ih he h2 (hg.child (by simp [children])) (hs.child (by simp [children])) hA hρ) ?_
      refine ih hb h3 (hg.child (by simp [children])) (hs.child (by simp [children])) ?_ hρ
      cases x with
      | none => exact hA.internal hK (by decide)
      | some x => exact hA.insert (hs _ (.here _) x (by simp [binds])) h1
    | list => cases h
    | comprehension => cases h
    | map => cases h
    | addNumber h1 h2 =>
      simp only [compileStepT, Option.bind_eq_bind, Option.bind_eq_some_iff, Option.some.injEq] at h
      obtain ⟨x, hx, y, hy, rfl⟩ := h
      have k1 := ih hx h1 (hg.child (by simp [children])) (hs.child (by simp [children])) hA hρ
      have k2 := ih hy h2 (hg.child (by simp [children])) (hs.child (by simp [children])) hA hρ
      simp only [lowerType] at k1 k2 ⊢
      exact .op (two k1 k2) (.arithmetic _)
    | addString h1 h2 =>
      simp only [compileStepT, Option.bind_eq_bind, Option.bind_eq_some_iff, Option.some.injEq] at h
      obtain ⟨x, hx, y, hy, rfl⟩ := h
      have k1 := ih hx h1 (hg.child (by simp [children])) (hs.child (by simp [children])) hA hρ
      have k2 := ih hy h2 (hg.child (by simp [children])) (hs.child (by simp [children])) hA hρ
      simp only [lowerType] at k1 k2 ⊢
      exact .op (two k1 k2) (.concatenation (by simp))
    | arithmetic h1 h2 =>
      simp only [compileStepT, Option.bind_eq_bind, Option.bind_eq_some_iff, Option.some.injEq] at h
      obtain ⟨x, hx, y, hy, rfl⟩ := h
      have k1 := ih hx h1 (hg.child (by simp [children])) (hs.child (by simp [children])) hA hρ
      have k2 := ih hy h2 (hg.child (by simp [children])) (hs.child (by simp [children])) hA hρ
      simp only [lowerType] at k1 k2 ⊢
      exact .op (two k1 k2) (.arithmetic _)
    | @booleanOp _ _ o _ _ h1 h2 =>
      cases o <;>
      · simp only [compileStepT, Option.bind_eq_bind, Option.bind_eq_some_iff, Option.some.injEq] at h
        obtain ⟨x, hx, y, hy, rfl⟩ := h
        have k1 := ih hx h1 (hg.child (by simp [children])) (hs.child (by simp [children])) hA hρ
        have k2 := ih hy h2 (hg.child (by simp [children])) (hs.child (by simp [children])) hA hρ
        simp only [lowerType] at k1 k2 ⊢
        first
          | exact .if_ k1 k2 (.boolean _)
          | exact .if_ k1 (.boolean _) k2
    | @equality _ _ t o l r u h1 h2 h3 =>
      simp only [lowerType]
      cases o with
      | equal =>
        exact equality_typed ih h h1 h2 h3 (hg.child (by simp [children])) (hg.child (by simp [children]))
          (hs.child (by simp [children])) (hs.child (by simp [children])) hA hρ
      | notEqual =>
        simp only [compileStepT, Option.bind_eq_bind, Option.bind_eq_some_iff, Option.some.injEq] at h
        obtain ⟨e1, he, rfl⟩ := h
        exact .if_ (equality_typed ih he h1 h2 h3 (hg.child (by simp [children])) (hg.child (by simp [children]))
          (hs.child (by simp [children])) (hs.child (by simp [children])) hA hρ) (.boolean _) (.boolean _)
    | not h1 =>
      simp only [compileStepT, Option.bind_eq_bind, Option.bind_eq_some_iff, Option.some.injEq] at h
      obtain ⟨x, hx, rfl⟩ := h
      have k1 := ih hx h1 (hg.child (by simp [children])) (hs.child (by simp [children])) hA hρ
      simp only [lowerType] at k1 ⊢
      exact .if_ k1 (.boolean _) (.boolean _)
    | order h1 h2 =>
      simp only [compileStepT, Option.bind_eq_bind, Option.bind_eq_some_iff, Option.some.injEq] at h
      obtain ⟨x, hx, y, hy, rfl⟩ := h
      have k1 := ih hx h1 (hg.child (by simp [children])) (hs.child (by simp [children])) hA hρ
      have k2 := ih hy h2 (hg.child (by simp [children])) (hs.child (by simp [children])) hA hρ
      simp only [lowerType] at k1 k2 ⊢
      exact .op (two k1 k2) (.comparison _)
    | @try_ _ t e1 u ct r h1 h2 h3 h4 _ h5 h6 h7 =>
      simp only [compileStepT, Option.bind_eq_bind, Option.bind_eq_some_iff, Option.some.injEq] at h
      obtain ⟨e2, he, ct', hct, alt, halt, rfl⟩ := h
      have e3 := (Canon.of_ok (ok?_eq hct)).det h4
      subst e3
      have k1 := ih he h1 (hg.child (by simp [children])) (hs.child (by simp [children])) hA hρ
      rw [lowerType_variant h2] at k1
      have hr : r' = .variant := by rw [hρ r rfl, lowerType_variant h6]
      subst hr
      refine .case (.try_ (.op (one (.variable (by simp [Scope.insert]))) (.variant (by simp))) k1) (by simp) ?_
      refine alternative_typed halt h4 (fun hb => lowerTypes_child hg (by simp [lowerTypes]) h4 hb) ?_ .nil
      intro Δ' hΔ
      exact .variable (by simp [hΔ, Scope.insert])
    | @record _ _ t m fs fields F h1 h2 h3 h4 h5 =>
      simp only [compileStepT, Option.bind_eq_bind, Option.bind_eq_some_iff] at h
      obtain ⟨ts, hts, m', hm, es, hes, h⟩ := h
      have hts := resolveFields_fields (ok?_eq hts) h1
      rw [h2] at hts
      cases hts
      have := recordName_eq hm h1
      subst this
      split at h
      · cases h
        have hc : ∀ f ∈ fields, f.2 ∈ children (Expr.record t fields) := fun f hf => by
          simp only [children, List.mem_map]; exact ⟨f, hf, rfl⟩
        obtain ⟨k1, k2⟩ := fields_typed ih h2 h4 h5 (fun f hf => hg.child (hc f hf)) (fun f hf => hs.child (hc f hf)) hρ hes
        refine recordFields_typed hK (fun x => lowerType K (F x)) es Δ [] hA (by simp) k1 ?_
        intro Δ' hΔ
        obtain ⟨us, hus, hall⟩ := hT.records m' fs h2
        simp only [lowerType]
        refine .op (haveTypes_operands ?_) (.record hus)
        rw [List.forall₂_map_left_iff]
        have hmem : ∀ f ∈ fs, HasType c r' Δ' (.variable (fieldVariable f.name)) (lowerType K (F f.name)) := by
          intro f hf
          refine .variable (hΔ f.name (Or.inr ?_))
          obtain ⟨g, hg1, hg2⟩ := List.mem_map.1 (h3 f hf)
          exact hg2 ▸ k2 g hg1
        have hty : ∀ f ∈ fs, Canon C.types f.type (F f.name) := by
          intro f hf
          obtain ⟨g, hg1, hg2⟩ := List.mem_map.1 (h3 f hf)
          obtain ⟨fs', t', g1, g2, g3⟩ := h4 g hg1
          rw [h2] at g1
          cases g1
          rw [hg2] at g2 g3
          simp only [Hir.fieldType, find_of_nodup (hD _ _ h2) hf] at g2
          cases g2
          exact g3
        have : ∀ {gs : List RecordField} {us : List Mir.Typed.Ty}, (∀ f ∈ gs, f ∈ fs) →
            List.Forall₂ (fun f τ => ∃ d, Canon C.types f.type d ∧ τ = lowerType K d) gs us →
            List.Forall₂ (fun (f : RecordField) τ => HasType c r' Δ' (.variable (fieldVariable f.name)) τ) gs us := by
          intro gs us hgs h
          induction h with
          | nil => exact .nil
          | cons h _ ih2 =>
            obtain ⟨v, hv, rfl⟩ := h
            refine .cons ?_ (ih2 fun f hf => hgs f (by simp [hf]))
            rw [hv.det (hty _ (hgs _ (by simp)))]
            exact hmem _ (hgs _ (by simp))
        exact this (fun _ h => h) hall
      · cases h
    | @deconstruct _ _ t m e1 x u h1 h2 h3 =>
      simp only [compileStepT, Option.bind_eq_bind, Option.bind_eq_some_iff, Option.some.injEq] at h
      obtain ⟨ts, hts, m', hm, i, hi, e2, he, rfl⟩ := h
      have hts := resolveFields_fields (ok?_eq hts) h1
      have := recordName_eq hm h1
      subst this
      obtain ⟨us, hus, hu⟩ := field_typed hT hts hi h3
      have k1 := ih he h2 (hg.child (by simp [children])) (hs.child (by simp [children])) hA hρ
      simp only [lowerType] at k1
      exact .op (one k1) (.field hus hu)
    | @update _ _ t m e1 fields F h1 h2 h3 h4 =>
      simp only [compileStepT, Option.bind_eq_bind, Option.bind_eq_some_iff, Option.some.injEq] at h
      obtain ⟨ts, hts, m', hm, e2, he, is, his, es, hes, rfl⟩ := h
      have hts := resolveFields_fields (ok?_eq hts) h1
      have := recordName_eq hm h1
      subst this
      have k1 := ih he h2 (hg.child (by simp [children])) (hs.child (by simp [children])) hA hρ
      simp only [lowerType] at k1 ⊢
      obtain ⟨us, hus, _⟩ := hT.records m' ts hts
      refine .op (.cons k1 (haveTypes_operands (ts := fields.map fun f => lowerType K (F f.1)) ?_)) (.update hus ?_)
      · rw [List.forall₂_map_right_iff]
        have hc : ∀ f ∈ fields, f.2 ∈ children (Expr.update t e1 fields) := fun f hf => by
          simp only [children, List.mem_cons, List.mem_map]; exact Or.inr ⟨f, hf, rfl⟩
        refine forall₂_trans (mapM_pairs hes) (List.forall₂_same.2 fun f _ => (Eq.refl f)) ?_
        rintro f hf e3 _ he3 rfl
        exact ih he3 (h4 f hf) (hg.child (hc f hf)) (hs.child (hc f hf)) hA hρ
      · rw [List.forall₂_map_right_iff]
        refine forall₂_trans (mapM_pairs his) (List.forall₂_same.2 fun f _ => (Eq.refl f)) ?_
        rintro f hf i _ hi rfl
        obtain ⟨us', hus', hu⟩ := field_typed hT hts hi (h3 f hf)
        rw [hus] at hus'
        cases hus'
        exact hu
    | @coercion _ _ src dst e1 u v h1 h2 h3 h4 =>
      simp only [compileStepT, Option.bind_eq_bind, Option.bind_eq_some_iff] at h
      obtain ⟨u', hu, v', hv, e2, he, h⟩ := h
      have := (Canon.of_ok (ok?_eq hu)).det h1
      subst this
      have := (Canon.of_ok (ok?_eq hv)).det h2
      subst this
      exact coercion_typed h1 h2 h4 (fun hb => lowerTypes_child hg (by simp [lowerTypes]) h1 hb)
        (ih he h3 (hg.child (by simp [children])) (hs.child (by simp [children])) hA hρ) h

end

end Verif.Lower
