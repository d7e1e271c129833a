import Verif.Mir.TypeRules

/-
The type checker gives an expression a type exactly if the rules do.
-/
namespace Verif.Mir.Typed

theorem checkOp_iff (c : Context) (Γ : Scope) (o : TOp) (ts : List Ty) (τ : Ty) :
    checkOp c Γ o ts = some τ ↔ OpType c Γ o ts τ := by
  constructor
  · intro h
    cases o <;> simp only [checkOp] at h
    case arithmetic => split at h <;> cases h; subst ts; exact .arithmetic _
    case comparison => split at h <;> cases h; subst ts; exact .comparison _
    case call => split at h <;> cases h; subst ts; exact .call _ _
    case record n =>
      obtain ⟨fs, hf, h⟩ := Option.bind_eq_some_iff.1 h
      split at h <;> cases h; subst ts; exact .record hf
    case field n i =>
      split at h
      · subst ts
        obtain ⟨fs, hf, h⟩ := Option.bind_eq_some_iff.1 h
        exact .field hf h
      · cases h
    case update n is =>
      obtain ⟨fs, hf, h⟩ := Option.bind_eq_some_iff.1 h
      cases ts with
      | nil => cases h
      | cons σ ts =>
        simp only at h
        split at h
        · rename_i hc
          simp only [Option.some.injEq] at h
          subst h
          obtain ⟨rfl, hc⟩ := hc
          refine .update hf ?_
          clear hf h
          induction is generalizing ts with
          | nil => cases ts with
            | nil => exact .nil
            | cons => cases hc
          | cons i is ih => cases ts with
            | nil => cases hc
            | cons τ ts =>
              simp only [List.map_cons, List.cons.injEq] at hc
              exact .cons hc.1 (ih ts hc.2)
        · cases h
    case concatenation =>
      split at h <;> cases h
      rename_i h
      exact .concatenation fun τ hτ => by simpa using List.all_eq_true.1 h τ hτ
    case synchronize => split at h <;> cases h; subst ts; exact .synchronize _
    case typeInformation =>
      split at h
      · subst ts; exact .typeInformation h
      · cases h
    case variant =>
      split at h <;> cases h
      rename_i h
      obtain ⟨h, rfl⟩ := h
      exact .variant h
  · intro h
    cases h with
    | record h => simp [checkOp, h]
    | field h hi => simp [checkOp, h, hi]
    | @update n fs is ts h hi =>
      have : is.map (fun i => fs[i]?) = ts.map some := by
        clear h
        induction hi with
        | nil => rfl
        | cons h _ ih => simp only [List.map_cons, h, ih]
      simp [checkOp, h, this]
    | concatenation h =>
      have : ts.all (· == Ty.byteString) = true := List.all_eq_true.2 fun τ hτ => by simp [h τ hτ]
      simp [checkOp, this]
    | typeInformation h => simp [checkOp, h]
    | variant h => simp [checkOp, h]
    | _ => simp [checkOp]

theorem checkVariables_iff (Γ : Scope) (xs : List (Name × Ty)) :
    checkVariables Γ xs = true ↔ ∀ x ∈ xs, Γ x.1 = some x.2 := by
  simp [checkVariables]

mutual
theorem check_sound (c : Context) : (e : TExpr) → (r : Ty) → (Γ : Scope) → (τ : Ty) →
    check c r Γ e = some τ → HasType c r Γ e τ
  | .literal l, r, Γ, τ, h => by
      simp only [check, Option.some.injEq] at h
      subst h
      cases l
      · exact .none
      · exact .boolean _
      · exact .number _
      · exact .string _
  | .variable x, r, Γ, τ, h => by simp only [check] at h; exact .variable h
  | .op o es, r, Γ, τ, h => by
      simp only [check] at h
      obtain ⟨ts, hts, h⟩ := Option.bind_eq_some_iff.1 h
      exact .op (checks_sound c es r Γ ts hts) ((checkOp_iff _ _ _ _ _).1 h)
  | .case e as, r, Γ, τ, h => by
      simp only [check] at h
      split at h
      · rename_i he
        obtain ⟨o, ho, h⟩ := Option.bind_eq_some_iff.1 h
        simp only [id_eq] at h
        subst h
        refine .case (check_sound c e r Γ _ he) ?_ (checkAlts_sound c as r Γ none τ ho).1
        rintro rfl
        simp only [checkAlts, Option.some.injEq] at ho
        cases ho
      · cases h
  | .if_ e t f, r, Γ, τ, h => by
      simp only [check] at h
      split at h
      · rename_i he
        obtain ⟨σ, ht, h⟩ := Option.bind_eq_some_iff.1 h
        split at h
        · rename_i hf
          cases h
          exact .if_ (check_sound c e r Γ _ he) (check_sound c t r Γ _ ht) (check_sound c f r Γ _ hf)
        · cases h
      · cases h
  | .let_ x σ e b, r, Γ, τ, h => by
      simp only [check] at h
      split at h
      · rename_i he
        exact .let_ (check_sound c e r Γ _ he) (check_sound c b r _ _ h)
      · cases h
  | .letRec f env args ρ th body b, r, Γ, τ, h => by
      simp only [check] at h
      split at h
      · rename_i he
        exact .letRec (check_sound c body ρ _ _ he) (check_sound c b r _ _ h)
      · cases h
  | .try_ e x σ t, r, Γ, τ, h => by
      simp only [check] at h
      split at h
      · rename_i he
        cases h
        exact .try_ (check_sound c t r _ _ he.1) (check_sound c e r _ _ he.2)
      · cases h
  | .clone xs e, r, Γ, τ, h => by
      simp only [check] at h
      split at h
      · rename_i he
        exact .clone ((checkVariables_iff _ _).1 he) (check_sound c e r _ _ h)
      · cases h
  | .drop xs e, r, Γ, τ, h => by
      simp only [check] at h
      split at h
      · rename_i he
        exact .drop ((checkVariables_iff _ _).1 he) (check_sound c e r _ _ h)
      · cases h
theorem checks_sound (c : Context) : (es : TExprs) → (r : Ty) → (Γ : Scope) → (ts : List Ty) →
    checks c r Γ es = some ts → HaveTypes c r Γ es ts
  | .nil, r, Γ, ts, h => by
      simp only [checks, Option.some.injEq] at h
      subst h
      exact .nil
  | .cons e es, r, Γ, ts, h => by
      simp only [checks] at h
      obtain ⟨τ, hτ, h⟩ := Option.bind_eq_some_iff.1 h
      obtain ⟨us, hus, rfl⟩ := Option.map_eq_some_iff.1 h
      exact .cons (check_sound c e r Γ _ hτ) (checks_sound c es r Γ _ hus)
theorem checkAlts_sound (c : Context) : (as : TAlts) → (r : Ty) → (Γ : Scope) → (o : Option Ty) → (τ : Ty) →
    checkAlts c r Γ o as = some (some τ) → AltsHaveType c r Γ as τ ∧ (∀ σ, o = some σ → σ = τ)
  | .nil, r, Γ, o, τ, h => by
      simp only [checkAlts, Option.some.injEq] at h
      subst h
      exact ⟨.nil, fun σ e => by simpa using e.symm⟩
  | .default x e, r, Γ, o, τ, h => by
      simp only [checkAlts] at h
      obtain ⟨σ, hσ, h⟩ := Option.bind_eq_some_iff.1 h
      obtain ⟨σ', h, e⟩ := Option.map_eq_some_iff.1 h
      cases e
      cases o with
      | none =>
        simp only [unify, Option.some.injEq] at h
        subst h
        exact ⟨.default (check_sound c _ r _ _ hσ), nofun⟩
      | some σ'' =>
        simp only [unify] at h
        split at h <;> cases h
        subst σ
        exact ⟨.default (check_sound c _ r _ _ hσ), fun σ e => by cases e; rfl⟩
  | .cons ts x e as, r, Γ, o, τ, h => by
      simp only [checkAlts] at h
      split at h
      · cases h
      · rename_i hts
        obtain ⟨σ, hσ, h⟩ := Option.bind_eq_some_iff.1 h
        obtain ⟨σ', hu, h⟩ := Option.bind_eq_some_iff.1 h
        obtain ⟨hA, he⟩ := checkAlts_sound c as r Γ (some σ') τ h
        have he := he σ' rfl
        subst he
        have hE := check_sound c e r _ _ hσ
        have hσ' : σ = σ' := by
          cases o with
          | none => simpa [unify] using hu
          | some => simp only [unify] at hu; split at hu <;> cases hu; assumption
        subst hσ'
        simp only [Bool.or_eq_true, not_or, Bool.not_eq_true] at hts
        refine ⟨?_, ?_⟩
        · have h1 : Ty.variant ∉ ts := by
            intro hm
            have := List.contains_iff_mem.2 hm
            rw [this] at hts
            simp at hts
          match ts, hts.2 with
          | [σ'], _ => exact .one (fun e => h1 (by simp [e])) hE hA
          | _ :: _ :: _, _ => exact .many (by simp) h1 hE hA
        · intro σ'' e
          subst e
          simp only [unify] at hu
          split at hu <;> cases hu
          rfl
end

theorem unify_ok {o : Option Ty} {τ : Ty} (h : ∀ σ, o = some σ → σ = τ) : unify o τ = some τ := by
  cases o with
  | none => rfl
  | some σ => simp [unify, h σ rfl]

mutual
theorem check_complete (c : Context) : (e : TExpr) → (r : Ty) → (Γ : Scope) → (τ : Ty) →
    HasType c r Γ e τ → check c r Γ e = some τ
  | .literal l, r, Γ, τ, h => by cases h <;> rfl
  | .variable x, r, Γ, τ, h => by
      cases h
      assumption
  | .op o es, r, Γ, τ, h => by
      cases h with
      | op hes ho => simp only [check, checks_complete c es r Γ _ hes, Option.bind_some, (checkOp_iff _ _ _ _ _).2 ho]
  | .case e as, r, Γ, τ, h => by
      cases h with
      | case he hn has =>
        have := checkAlts_complete c as r Γ none τ nofun has (fun e => absurd e hn)
        simp only [check, check_complete c e r Γ _ he, if_true, this, Option.bind_some, id_eq]
  | .if_ e t f, r, Γ, τ, h => by
      cases h with
      | if_ he ht hf => simp [check, check_complete c e r Γ _ he, check_complete c t r Γ _ ht, check_complete c f r Γ _ hf]
  | .let_ x σ e b, r, Γ, τ, h => by
      cases h with
      | let_ he hb => simp [check, check_complete c e r Γ _ he, check_complete c b r _ _ hb]
  | .letRec f env args ρ th body b, r, Γ, τ, h => by
      cases h with
      | letRec he hb => simp [check, check_complete c body ρ _ _ he, check_complete c b r _ _ hb]
  | .try_ e x σ t, r, Γ, τ, h => by
      cases h with
      | try_ ht he => simp [check, check_complete c t r _ _ ht, check_complete c e r _ _ he]
  | .clone xs e, r, Γ, τ, h => by
      cases h with
      | clone hx he => simp only [check, (checkVariables_iff _ _).2 hx, if_true, check_complete c e r _ _ he]
  | .drop xs e, r, Γ, τ, h => by
      cases h with
      | drop hx he => simp only [check, (checkVariables_iff _ _).2 hx, if_true, check_complete c e r _ _ he]
theorem checks_complete (c : Context) : (es : TExprs) → (r : Ty) → (Γ : Scope) → (ts : List Ty) →
    HaveTypes c r Γ es ts → checks c r Γ es = some ts
  | .nil, r, Γ, ts, h => by cases h; rfl
  | .cons e es, r, Γ, ts, h => by
      cases h with
      | cons he hes => simp [checks, check_complete c e r Γ _ he, checks_complete c es r Γ _ hes]
theorem checkAlts_complete (c : Context) : (as : TAlts) → (r : Ty) → (Γ : Scope) → (o : Option Ty) → (τ : Ty) →
    (∀ σ, o = some σ → σ = τ) → AltsHaveType c r Γ as τ →
    (as = .nil → o ≠ none) → checkAlts c r Γ o as = some (some τ)
  | .nil, r, Γ, o, τ, ho, h, hn => by
      cases o with
      | none => exact absurd rfl (hn rfl)
      | some σ => simp [checkAlts, ho σ rfl]
  | .default x e, r, Γ, o, τ, ho, h, _ => by
      cases h with
      | default he => simp [checkAlts, check_complete c e r _ _ he, unify_ok ho]
  | .cons ts x e as, r, Γ, o, τ, ho, h, _ => by
      cases h with
      | one hσ he has =>
        have := checkAlts_complete c as r Γ (some τ) τ (fun _ e => by cases e; rfl) has nofun
        simp [checkAlts, alternativeType, Ne.symm hσ, check_complete c e r _ _ he, unify_ok ho, this]
      | many hl hv he has =>
        have := checkAlts_complete c as r Γ (some τ) τ (fun _ e => by cases e; rfl) has nofun
        match ts, hl, hv with
        | a :: b :: ts, _, hv => simp [checkAlts, alternativeType, hv, check_complete c e r _ _ he, unify_ok ho, this] <;> simpa using hv
end

/-- Looking a name up in a list of different names. -/
theorem insertMany_eq (xs : List (Name × Ty)) (Γ : Scope) (x : Name) (τ : Ty) (hn : (xs.map (·.1)).Nodup) :
    Γ.insertMany xs x = some τ ↔ (x, τ) ∈ xs ∨ x ∉ xs.map (·.1) ∧ Γ x = some τ := by
  induction xs generalizing Γ with
  | nil => simp [Scope.insertMany]
  | cons y ys ih =>
    obtain ⟨y, σ⟩ := y
    simp only [List.map_cons, List.nodup_cons] at hn
    rw [Scope.insertMany, ih _ hn.2]
    simp only [Scope.insert, List.mem_cons, Prod.mk.injEq, List.map_cons, not_or]
    constructor
    · rintro (h | ⟨h1, h2⟩)
      · exact .inl (.inr h)
      · split at h2
        · cases h2; exact .inl (.inl ⟨by assumption, rfl⟩)
        · exact .inr ⟨⟨by assumption, h1⟩, h2⟩
    · rintro ((⟨rfl, rfl⟩ | h) | ⟨⟨h1, h2⟩, h3⟩)
      · exact .inr ⟨hn.1, by simp⟩
      · exact .inl h
      · exact .inr ⟨h2, by simp [h1, h3]⟩

theorem scope_iff {m : TModule} (h : (m.functions.map (·.1)).Nodup) (x : Name) (τ : Ty) :
    m.scope x = some τ ↔ (x, τ) ∈ m.functions := by
  rw [TModule.scope, insertMany_eq _ _ _ _ h]
  simp

theorem checkModule_iff (m : TModule) : checkModule m = true ↔ WellTyped m := by
  simp only [checkModule, checkNames, Bool.and_eq_true, decide_eq_true_eq, List.all_eq_true, checkDefinition, beq_iff_eq,
    checkInformation, Option.isSome_iff_exists]
  constructor
  · rintro ⟨⟨⟨⟨h1, h2⟩, h3⟩, h4⟩, ⟨τ, h5⟩, h6⟩
    refine ⟨h1, h2, fun d hd => check_sound _ _ _ _ _ (h3 d hd), fun x hx => ?_, τ, (scope_iff h2 _ _).1 h5, fun x hx => ?_⟩
    · obtain ⟨τ, h⟩ := h4 x hx
      exact ⟨τ, (scope_iff h2 _ _).1 h⟩
    · exact (scope_iff h2 _ _).1 ((h6 x hx).trans h5)
  · rintro ⟨h1, h2, h3, h4, τ, h5, h6⟩
    refine ⟨⟨⟨⟨h1, h2⟩, fun d hd => check_complete _ _ _ _ _ (h3 d hd)⟩, fun x hx => ?_⟩, ⟨τ, (scope_iff h2 _ _).2 h5⟩, fun x hx => ?_⟩
    · obtain ⟨τ, h⟩ := h4 x hx
      exact ⟨τ, (scope_iff h2 _ _).2 h⟩
    · rw [(scope_iff h2 _ _).2 h5, (scope_iff h2 _ _).2 (h6 x hx)]

end Verif.Mir.Typed
