import Verif.Lower.TypedLowering

/-!
# Lowering with types is lowering

Without types, what `compileT` gives is what `compile` gives.
-/

namespace Verif.Lower

open Verif.Hir (Ty Ctx Expr Module Definition RecordField Vars Canon)
open Verif.Mir.Typed (TExpr TExprs TAlts TOp TDefinition)
open Verif

section
variable {K : TypedConfig} {C : Ctx} {a : Nat}

theorem tagId_concrete {t c : Ty} (h : Canon C.types t c) (hany : c ≠ .any) (hu : ∀ l r, c ≠ .union l r) :
    tagId K (concreteType K c) = typeId K.toConfig c := by
  have hn := h.noReference
  have hr : ∀ n : String, tagId K (.record n) = K.hash n := fun n => by simp [tagId, Mir.Typed.Ty.chars]
  cases c
  case any => exact absurd rfl hany
  case union => exact absurd rfl (hu _ _)
  case reference => cases hn
  all_goals first
    | exact hr _
    | rfl
    | skip

theorem erase_operands (es : List TExpr) : (operandsT es).erase (tagId K) = operands (es.map (·.erase (tagId K))) := by
  induction es with
  | nil => rfl
  | cons e es ih => simp only [operandsT, TExprs.erase, ih, operands, List.map_cons, Mir.Exprs.ofList]

theorem erase_alternative {x : String} {t c : Ty} (hc : Canon C.types t c) {e : TExpr} {alt : List Mir.Typed.Ty × TExpr}
    (h : compileAlternativeT K x c e = some alt) :
    compileAlternative K.toConfig x c (e.erase (tagId K)) = some (alt.1.map (tagId K), alt.2.erase (tagId K)) := by
  unfold compileAlternativeT at h
  unfold compileAlternative
  split at h
  · rename_i hb
    cases h
    rw [if_pos hb]
    have : tagId K (concreteType K c) = typeId K.toConfig c :=
      tagId_concrete hc (by rintro rfl; cases hb) (by rintro l r rfl; cases hb)
    simp [this, TExpr.erase, TExprs.erase, TOp.erase]
  · rename_i hb
    rw [if_neg hb]
    split at h
    · cases h
    · rename_i hany
      cases h
      rw [if_neg hany]
      congr 2
      simp only [List.map_map]
      refine List.map_congr_left fun v hv => ?_
      rw [Hir.mem_btreeSet] at hv
      exact (tagId_concrete (hc.member hv).1 (by rintro rfl; exact hany hv) (hc.member hv).2).symm

theorem erase_coercion {s t c d : Ty} (hc : Canon C.types s c) (_ : Canon C.types t d) {e e' : TExpr}
    (h : compileCoercionT K c d e = some e') : compileCoercion K.toConfig c d (e.erase (tagId K)) = some (e'.erase (tagId K)) := by
  have key : ∀ c : Ty, Canon C.types s c → c ≠ .any → (∀ l r, c ≠ .union l r) →
      (TExpr.op (.variant (concreteType K c)) (.cons (boxT K c e) .nil)).erase (tagId K) =
        .op (.variant (typeId K.toConfig c)) (.cons (if boxed c then .op (.record (typeId K.toConfig c))
          (.cons (e.erase (tagId K)) .nil) else e.erase (tagId K)) .nil) := by
    intro c hc h1 h2
    have ht := tagId_concrete (K := K) hc h1 h2
    simp only [TExpr.erase, TExprs.erase, TOp.erase, ht, boxT]
    by_cases hb : boxed c = true
    · simp only [concreteType, hb, if_true] at ht
      simp only [hb, if_true, TExpr.erase, TExprs.erase, TOp.erase, ht]
    · simp [hb]
  have hn := hc.noReference
  have key' : ∀ c : Ty, Canon C.types s c → c ≠ .any → (∀ l r, c ≠ .union l r) →
      some (TExpr.op (.variant (concreteType K c)) (.cons (boxT K c e) .nil)) = some e' →
      some (Mir.Expr.op (.variant (typeId K.toConfig c)) (.cons (if boxed c then .op (.record (typeId K.toConfig c))
          (.cons (e.erase (tagId K)) .nil) else e.erase (tagId K)) .nil)) = some (e'.erase (tagId K)) := by
    intro c hc h1 h2 h
    cases h
    rw [key c hc h1 h2]
  cases c
  case any => cases h; rfl
  case union => cases h; rfl
  case reference => cases hn
  case list => cases d <;> first | exact key' _ hc (by simp) (by simp) h | (cases h; rfl)
  case map => cases d <;> first | exact key' _ hc (by simp) (by simp) h | (cases h; rfl)
  all_goals exact key' _ hc (by simp) (by simp) h

theorem erase_recordFields (fields : List (String × Mir.Typed.Ty × TExpr)) (body : TExpr) :
    (compileRecordFieldsT fields body).erase (tagId K) =
      compileRecordFields (fields.map fun f => (f.1, f.2.2.erase (tagId K))) (body.erase (tagId K)) := by
  induction fields with
  | nil => rfl
  | cons f fs ih => simp [compileRecordFieldsT, compileRecordFields, TExpr.erase, ih]

/-- What is shown about subexpressions. -/
def Erases (K : TypedConfig) (rec : TCompiler) (rec' : Compiler) : Prop :=
  ∀ {e : Expr} {e' : TExpr}, rec e = some e' → rec' e = some (e'.erase (tagId K))

theorem erase_mapM {rec : TCompiler} {rec' : Compiler} (ih : Erases K rec rec') {es : List Expr} {es' : List TExpr}
    (h : es.mapM rec = some es') : es.mapM rec' = some (es'.map (·.erase (tagId K))) := by
  induction es generalizing es' with
  | nil =>
    simp only [List.mapM_nil, Option.pure_def, Option.some.injEq] at h
    subst h
    rfl
  | cons e es ih' =>
    simp only [List.mapM_cons, Option.pure_def, Option.bind_eq_bind, Option.bind_eq_some_iff, Option.some.injEq] at h
    obtain ⟨b, h1, bs', h2, rfl⟩ := h
    simp [List.mapM_cons, ih h1, ih' h2]

theorem erase_fields {rec : TCompiler} {rec' : Compiler} (ih : Erases K rec rec') {ts : List RecordField}
    {fs : List (String × Expr)} {es : List (String × Mir.Typed.Ty × TExpr)} (h : fs.mapM (compileFieldT K a C rec ts) = some es) :
    compileFields rec' fs = some (es.map fun f => (f.1, f.2.2.erase (tagId K))) ∧
      fs.all (fun f => ts.any (fun t => t.name == f.1)) = true := by
  induction fs generalizing es with
  | nil =>
    simp only [List.mapM_nil, Option.pure_def, Option.some.injEq] at h
    subst h
    exact ⟨rfl, rfl⟩
  | cons f fs ih' =>
    simp only [List.mapM_cons, Option.pure_def, Option.bind_eq_bind, Option.bind_eq_some_iff, Option.some.injEq] at h
    obtain ⟨b, h1, bs', h2, rfl⟩ := h
    simp only [compileFieldT, Option.bind_eq_bind, Option.bind_eq_some_iff, Option.some.injEq] at h1
    obtain ⟨t, ht, τ, _, e, he, rfl⟩ := h1
    obtain ⟨k1, k2⟩ := ih' h2
    unfold compileFields at k1 ⊢
    refine ⟨by simp [List.mapM_cons, ih he, k1], ?_⟩
    simp only [List.all_cons, k2, Bool.and_true]
    have ht := ok?_eq ht
    unfold Hir.fieldType at ht
    split at ht
    · rename_i g hg
      exact List.any_eq_true.2 ⟨g, List.mem_of_find?_eq_some hg, by simpa using List.find?_some hg⟩
    · cases ht

theorem erase_alternatives {rec : TCompiler} {rec' : Compiler} (ih : Erases K rec rec') {x : String}
    {els : Option (Option Ty × Expr)} : ∀ {bs : List (Ty × Expr)} {as : TAlts},
    compileAlternativesT K a C rec x bs els = some as → compileAlternatives K.toConfig a C rec' x bs els = some (as.erase (tagId K))
  | [], as, h => by
    rcases els with _ | ⟨_ | t, e⟩
    · simp only [compileAlternativesT, Option.some.injEq] at h
      subst h
      rfl
    · cases h
    · simp only [compileAlternativesT, Option.bind_eq_bind, Option.bind_eq_some_iff] at h
      obtain ⟨u, hu, e', he, h⟩ := h
      simp only [compileAlternatives, Option.bind_eq_bind, hu, Option.bind_some, ih he]
      split at h
      · rename_i hany
        cases h
        simp [hany, TAlts.erase]
      · rename_i hany
        simp only [Option.bind_eq_some_iff, Option.some.injEq] at h
        obtain ⟨alt, h1, rfl⟩ := h
        rw [if_neg hany, erase_alternative (Canon.of_ok (ok?_eq hu)) h1]
        simp [TAlts.erase]
  | (t, e) :: bs, as, h => by
    simp only [compileAlternativesT, Option.bind_eq_bind, Option.bind_eq_some_iff, Option.some.injEq] at h
    obtain ⟨u, hu, e', he, alt, h1, as', h2, rfl⟩ := h
    simp only [compileAlternatives, Option.bind_eq_bind, hu, Option.bind_some, ih he,
      erase_alternative (Canon.of_ok (ok?_eq hu)) h1, erase_alternatives ih h2, TAlts.erase]

theorem erase_equality {rec : TCompiler} {rec' : Compiler} (ih : Erases K rec rec') {t : Ty} {l r : Expr} {e' : TExpr}
    (h : compileEqualityT K a C rec t l r = some e') : compileEquality K.toConfig a C rec' t l r = some (e'.erase (tagId K)) := by
  simp only [compileEqualityT, Option.bind_eq_bind, Option.bind_eq_some_iff] at h
  obtain ⟨u, hu, h⟩ := h
  simp only [compileEquality, Option.bind_eq_bind, hu, Option.bind_some]
  split at h
  · simp only [Option.bind_eq_some_iff, Option.some.injEq] at h
    obtain ⟨l', h1, r2, h2, rfl⟩ := h
    simp [ih h1, ih h2, TExpr.erase, TExprs.erase, TOp.erase]
  · simp only [Option.bind_eq_some_iff, Option.some.injEq] at h
    obtain ⟨l', h1, r2, h2, rfl⟩ := h
    simp [ih h1, ih h2, TExpr.erase, TExprs.erase, TOp.erase]
  · cases h

theorem tagId_error : tagId K (.record "hir:error") = typeId K.toConfig .error := by
  simp [tagId, typeId, typeName, Mir.Typed.Ty.chars]

theorem parameters_names : ∀ {ps : List (String × Ty)} {qs : List (String × Mir.Typed.Ty)},
    compileParameters K a C ps = some qs → qs.map (·.1) = ps.map (·.1)
  | [], qs, h => by
    simp only [compileParameters, List.mapM_nil, Option.pure_def, Option.some.injEq] at h
    subst h
    rfl
  | p :: ps, qs, h => by
    simp only [compileParameters, List.mapM_cons, Option.pure_def, Option.bind_eq_bind, Option.bind_eq_some_iff,
      Option.some.injEq, Option.map_eq_some_iff] at h
    obtain ⟨q, ⟨τ, _, rfl⟩, qs', h2, rfl⟩ := h
    simp [parameters_names (ps := ps) (qs := qs') h2]

theorem recordName_canon {t : Ty} {n : String} {ts : List RecordField} (h : recordName K a C t = some n)
    (hr : Hir.resolveFields a C t = .ok ts) : ok? (Hir.canonicalize a C.types t) = some (.record n) := by
  obtain ⟨c, hc, hr⟩ := Res.bind_eq_ok.1 hr
  unfold recordName compileType at h
  simp only [hc, ok?, Option.map_some, Option.bind_some] at h ⊢
  cases c <;> simp_all [lowerType]

/-- Lowering with types gives what lowering does. -/
theorem compileT_erase (n : Nat) : Erases K (compileT K a C n) (compile K.toConfig a C n) := by
  induction n with
  | zero =>
    intro e e' h
    cases h
  | succ n ih =>
    intro e e' h
    simp only [compileT] at h
    simp only [compile]
    unfold compileStepT at h
    split at h
    all_goals try (cases h; rfl)
    all_goals try
      simp only [Option.bind_eq_bind, Option.bind_eq_some_iff, Option.some.injEq] at h
    · obtain ⟨p, hp, f', hf, es, hes, rfl⟩ := h
      simp [compileStep, hp, ih hf, erase_mapM ih hes, TExpr.erase, TExprs.erase, TOp.erase, erase_operands]
    · obtain ⟨p, hp, e1, he, rfl⟩ := h
      simp [compileStep, hp, ih he, compileErrorT, compileError, TExpr.erase, TExprs.erase, TAlts.erase, TOp.erase, tagId_error]
    · obtain ⟨p, hp, e1, he, rfl⟩ := h
      simp [compileStep, hp, ih he, TExpr.erase, TExprs.erase, TOp.erase]
    · obtain ⟨x, hx, y, hy, z, hz, rfl⟩ := h
      simp [compileStep, ih hx, ih hy, ih hz, TExpr.erase]
    · obtain ⟨e1, he, as, has, rfl⟩ := h
      simp [compileStep, ih he, erase_alternatives ih has, TExpr.erase]
    · obtain ⟨ps, hps, τ, hτ, b', hb, rfl⟩ := h
      simp [compileStep, ih hb, TExpr.erase, parameters_names hps]
    · obtain ⟨τ, hτ, e2, he, b', hb, rfl⟩ := h
      simp [compileStep, ih he, ih hb, TExpr.erase]
    all_goals try
      (obtain ⟨x, hx, y, hy, rfl⟩ := h
       simp [compileStep, ih hx, ih hy, TExpr.erase, TExprs.erase, TOp.erase]
       done)
    · simp [compileStep, erase_equality ih h]
    · obtain ⟨x, hx, rfl⟩ := h
      simp [compileStep, erase_equality ih hx, TExpr.erase]
    · obtain ⟨x, hx, rfl⟩ := h
      simp [compileStep, ih hx, TExpr.erase]
    · obtain ⟨e2, he, ct', hct, alt, halt, rfl⟩ := h
      have := erase_alternative (Canon.of_ok (ok?_eq hct)) halt
      simp only [TExpr.erase] at this
      simp [compileStep, ih he, hct, this, TExpr.erase, TExprs.erase, TAlts.erase, TOp.erase, tagId_error]
    · obtain ⟨ts, hts, m', hm, es, hes, h⟩ := h
      split at h
      · rename_i hall
        cases h
        obtain ⟨k1, k2⟩ := erase_fields ih hes
        have k3 := recordName_canon hm (ok?_eq hts)
        simp only [compileStep, Option.bind_eq_bind, hts, k3, k1, Option.bind_some, k2, hall, Bool.and_self, if_true,
          erase_recordFields, TExpr.erase, TOp.erase, erase_operands, List.map_map, Function.comp_def]
        simp [tagId, typeId, typeName, Mir.Typed.Ty.chars]
      · cases h
    · obtain ⟨ts, hts, m', hm, i, hi, e2, he, rfl⟩ := h
      simp [compileStep, hts, hi, ih he, TExpr.erase, TExprs.erase, TOp.erase]
    · obtain ⟨ts, hts, m', hm, e2, he, is, his, es, hes, rfl⟩ := h
      have : ∀ {fields : List (String × Expr)} {es : List TExpr}, fields.mapM (fun f => compileT K a C n f.2) = some es →
          fields.mapM (fun f => compile K.toConfig a C n f.2) = some (es.map (·.erase (tagId K))) := by
        intro fields
        induction fields with
        | nil =>
          intro es h
          simp only [List.mapM_nil, Option.pure_def, Option.some.injEq] at h
          subst h
          rfl
        | cons e es ih' =>
          intro es h
          simp only [List.mapM_cons, Option.pure_def, Option.bind_eq_bind, Option.bind_eq_some_iff, Option.some.injEq] at h
          obtain ⟨b, h1, bs', h2, rfl⟩ := h
          simp [List.mapM_cons, ih h1, ih' h2]
      simp [compileStep, hts, his, ih he, this hes, TExpr.erase, TExprs.erase, TOp.erase, erase_operands]
    · obtain ⟨u', hu, v', hv, e2, he, h⟩ := h
      simp [compileStep, hu, hv, ih he, erase_coercion (Canon.of_ok (ok?_eq hu)) (Canon.of_ok (ok?_eq hv)) h]
    · cases h

theorem compileDefinitionT_erase {n : Nat} {d : Definition} {d' : TDefinition} (h : compileDefinitionT K a C n d = some d') :
    compileDefinition K.toConfig a C n d = some (d'.erase (tagId K)) := by
  simp only [compileDefinitionT, Option.bind_eq_bind, Option.bind_eq_some_iff, Option.some.injEq] at h
  obtain ⟨b, hb, τ, hτ, ps, hps, rfl⟩ := h
  simp [compileDefinition, compileT_erase n hb, TDefinition.erase, parameters_names hps]

end

end Verif.Lower
