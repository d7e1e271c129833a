import Verif.Lower.ReflectLemmas

/-!
# What functions for reflection compute
-/

namespace Verif.Lower

open Verif.Hir (Ty Ctx Expr Module Definition RecordField Canon)
open Verif.Mir.Typed (TExpr TExprs TAlts TOp TDefinition TDeclaration TModule)
open Verif.Mir (Value World Program Env Log R)
open Verif

theorem equal_of_type_ne {same : UInt64 → UInt64 → Bool} {d e : Data} (h : d.type ≠ e.type) : d.equal same e = some false := by
  cases d <;> cases e <;> simp_all [Data.type, Data.equal]

theorem both_assoc (x y z : Option Bool) : both (both x y) z = both x (both y z) := by
  cases x <;> cases y <;> cases z <;> simp [both, Bool.and_assoc]

theorem both_true (x : Option Bool) : both (some true) x = x := by cases x <;> rfl

section
variable {K : ReflectConfig} {X : Extras} {a : Nat} {C : Ctx} {types : List Ty} {p : Program} {w : World}
  {same : UInt64 → UInt64 → Bool} {number : UInt64 → List UInt8} {capture : List Mir.Name → Env → Env} {names : List String}

theorem tagId_results (hp : Linked K X a C types p) : tagId K.toTypedConfig .boolean ≠ tagId K.toTypedConfig .none := by
  intro h
  have := hp.tags _ hp.results.1 _ hp.results.2 (by simpa [tagOf, concreteType, boxed, lowerType] using h)
  cases this

theorem gives_falseT {ρ : Env} : Gives names w p capture ρ (falseT.erase (tagId K.toTypedConfig)) (comparisonResult K.toTypedConfig (some false)) := by
  rw [falseT, erase_operationT]
  exact gives_op (givesAll_cons (gives_literal (.boolean false)) (.inl rfl) givesAll_nil) (by simp [TOp.erase]) rfl

theorem gives_trueT {ρ : Env} : Gives names w p capture ρ (trueT.erase (tagId K.toTypedConfig)) (comparisonResult K.toTypedConfig (some true)) := by
  rw [trueT, erase_operationT]
  exact gives_op (givesAll_cons (gives_literal (.boolean true)) (.inl rfl) givesAll_nil) (by simp [TOp.erase]) rfl

theorem gives_noneT {ρ : Env} : Gives names w p capture ρ (noneT.erase (tagId K.toTypedConfig)) (comparisonResult K.toTypedConfig none) := by
  rw [noneT, erase_operationT]
  exact gives_op (givesAll_cons (gives_literal .none) (.inl rfl) givesAll_nil) (by simp [TOp.erase]) rfl

/-- Results are merged. -/
theorem gives_merged (hp : Linked K X a C types p) {ρ : Env} {l r : TExpr} {x y : Option Bool}
    (hl : Gives names w p capture ρ (l.erase (tagId K.toTypedConfig)) (comparisonResult K.toTypedConfig x))
    (hr : ∀ b, Gives names w p capture (ρ.set "$lhs_result" (.boolean b)) (r.erase (tagId K.toTypedConfig)) (comparisonResult K.toTypedConfig y)) :
    Gives names w p capture ρ ((mergedResult l r).erase (tagId K.toTypedConfig)) (comparisonResult K.toTypedConfig (both x y)) := by
  have hne := tagId_results hp
  simp only [mergedResult, TExpr.erase, TAlts.erase, List.map_cons, List.map_nil]
  cases x with
  | none =>
    have : both none y = none := by cases y <;> rfl
    rw [this]
    exact gives_default hl hne gives_noneT
  | some b =>
    refine gives_match hl ?_
    cases y with
    | none => exact gives_default (hr b) hne gives_noneT
    | some c =>
      refine gives_match (hr b) ?_
      rw [erase_operationT]
      refine gives_op (givesAll_cons (v := .boolean (b && c)) ?_ (.inl rfl) givesAll_nil) (by simp [TOp.erase]) rfl
      refine gives_if (b := b) (gives_local ?_) ?_
      · simp [Env.set]
      · cases b with
        | true => exact gives_local (by simp [Env.set])
        | false => exact gives_literal (.boolean false)

/-- Calls of equality functions with a value of the type. -/
def EqualOk (w : World) (p : Program) (capture : List Mir.Name → Env → Env) (K : ReflectConfig) (C : Ctx) (types : List Ty)
    (same : UInt64 → UInt64 → Bool) (d : Data) : Prop :=
  ∀ e v u, Tagged K.toTypedConfig C types d v → Tagged K.toTypedConfig C types e u →
    Calls [K.stringEqual, K.numberDebug] w p capture (.global (equalName (hirTypeId K.toConfig d.type))) [v, u] (comparisonResult K.toTypedConfig (d.equal same e))

theorem fields_length {fs : List RecordField} {ds : List Data} {vs : List Value} (h : Fields K.toTypedConfig C types fs ds vs) :
    ds.length = fs.length ∧ vs.length = fs.length := by
  induction fs generalizing ds vs with
  | nil => cases h; exact ⟨rfl, rfl⟩
  | cons f fs ih =>
    cases h with
    | cons _ _ h =>
      obtain ⟨h1, h2⟩ := ih h
      exact ⟨by simp [h1], by simp [h2]⟩

/-- Fields are compared one after another. -/
theorem gives_fields (hp : Linked K X a C types p) {n : String} {t : Mir.TypeId} {vs us : List Value} {ρ : Env}
    (hl : ρ "$lhs" = some (.record t vs)) (hr : ρ "$rhs" = some (.record t us)) :
    ∀ {fs : List RecordField} {ds es : List Data} {vs' us' : List Value} {i : Nat} {acc e : TExpr} {x : Option Bool},
    Fields K.toTypedConfig C types fs ds vs' → Fields K.toTypedConfig C types fs es us' → vs.drop i = vs' → us.drop i = us' →
    (∀ d ∈ ds, EqualOk w p capture K C types same d) →
    (∀ ρ, ρ "$lhs" = some (.record t vs) → ρ "$rhs" = some (.record t us) →
      Gives [K.stringEqual, K.numberDebug] w p capture ρ (acc.erase (tagId K.toTypedConfig)) (comparisonResult K.toTypedConfig x)) →
    (enumerate i fs).foldlM (equalField K a C n) acc = some e →
    Gives [K.stringEqual, K.numberDebug] w p capture ρ (e.erase (tagId K.toTypedConfig)) (comparisonResult K.toTypedConfig (both x (Data.equalAll same ds es)))
  | [], ds, es, vs', us', i, acc, e, x, h1, h2, _, _, _, hacc, he => by
    cases h1
    cases h2
    simp only [enumerate, List.foldlM_nil, Option.pure_def, Option.some.injEq] at he
    subst he
    have : both x (Data.equalAll same [] []) = x := by rw [Data.equalAll]; cases x <;> simp [both]
    rw [this]
    exact hacc ρ hl hr
  | f :: fs, ds, es, vs', us', i, acc, e, x, h1, h2, hv, hu, hd, hacc, he => by
    cases h1 with
    | @cons _ _ c d ds v vs'' hc hf h1 =>
    cases h2 with
    | @cons _ _ c' d' ds' v' us'' hc' hf' h2 =>
    cases hc.det hc'
    simp only [enumerate, List.foldlM_cons, Option.bind_eq_bind, Option.bind_eq_some_iff] at he
    obtain ⟨acc', he1, he2⟩ := he
    simp only [equalField, Option.bind_eq_bind, Option.bind_eq_some_iff, Option.some.injEq] at he1
    obtain ⟨l, hl', r, hr', rfl⟩ := he1
    have hvi : vs[i]? = some v := by rw [← List.head?_drop, hv]; rfl
    have hui : us[i]? = some v' := by rw [← List.head?_drop, hu]; rfl
    rw [Data.equalAll, ← both_assoc]
    refine gives_fields hp (n := n) hl hr (i := i + 1) h1 h2 (by rw [← List.tail_drop, hv]; rfl) (by rw [← List.tail_drop, hu]; rfl)
      (fun d hd' => hd d (by simp [hd'])) ?_ he2
    intro ρ' hl2 hr2
    refine gives_merged hp (hacc ρ' hl2 hr2) ?_
    intro b
    have e1 : (ρ'.set "$lhs_result" (.boolean b)) "$lhs" = some (.record t vs) := by simpa [Env.set] using hl2
    have e2 : (ρ'.set "$lhs_result" (.boolean b)) "$rhs" = some (.record t us) := by simpa [Env.set] using hr2
    obtain ⟨w1, t1, g1⟩ := gives_any (p := p) (w := w) (capture := capture) (names := [K.stringEqual, K.numberDebug])
      (ρ := ρ'.set "$lhs_result" (.boolean b)) (e := operationT (.field n i) [.variable "$lhs"]) hc hl' hf (by
        rw [erase_operationT]
        exact gives_op (givesAll_cons (gives_local e1) (.inl rfl) givesAll_nil) (by simp [TOp.erase]) hvi)
    obtain ⟨w2, t2, g2⟩ := gives_any (p := p) (w := w) (capture := capture) (names := [K.stringEqual, K.numberDebug])
      (ρ := ρ'.set "$lhs_result" (.boolean b)) (e := operationT (.field n i) [.variable "$rhs"]) hc hr' hf' (by
        rw [erase_operationT]
        exact gives_op (givesAll_cons (gives_local e2) (.inl rfl) givesAll_nil) (by simp [TOp.erase]) hui)
    exact gives_equalCall hp t1 g1 g2 (hd d (by simp) d' w1 w2 t1 t2)

/-- A variable of the prelude. -/
theorem gives_prelude {ρ : Env} {x : String} (h : ρ x = none) (hf : p.foreign.contains x = true) :
    Gives names w p capture ρ (.variable x) (.global x) := by
  refine gives_variable ?_
  rw [Mir.lookup, h]
  simp only [Program.isGlobal, hf, Bool.true_or, if_true]

theorem internal_ne {x y : String} (hx : internal x = false) (hy : internal y = true) : x ≠ y := by
  rintro rfl
  rw [hx] at hy
  cases hy

theorem resolveRecord_eq {Δ : Hir.Records} {n : String} {fs : List RecordField} (h : Hir.resolveRecord Δ n = .ok fs) : Δ n = some fs := by
  unfold Hir.resolveRecord at h
  split at h
  · cases h; assumption
  · cases h

theorem equal_ok (hp : Linked K X a C types p) (hw : Native K same number w) (k : Nat) :
    ∀ d : Data, sizeOf d ≤ k → EqualOk w p capture K C types same d := by
  induction k with
  | zero => intro d hd; cases d <;> simp at hd
  | succ k ih =>
    intro d hk e v u hv hu
    obtain ⟨ht, pv, rfl⟩ := hv.type
    obtain ⟨ht', pu, rfl⟩ := hu.type
    obtain ⟨ds, hds, hf⟩ := hp.functions _ ht
    simp only [informationDefinitions, Option.bind_eq_bind, Option.bind_eq_some_iff, Option.some.injEq] at hds
    obtain ⟨d1, hd1, d2, hd2, rfl⟩ := hds
    have f2 := hf d2 (by simp)
    simp only [equalDefinition, Option.bind_eq_bind, Option.bind_eq_some_iff, Option.some.injEq] at hd2
    obtain ⟨body, hb, rfl⟩ := hd2
    refine calls_global f2 rfl ?_
    simp only [TDefinition.erase, TExpr.erase, TAlts.erase, List.map_cons, List.map_nil]
    refine gives_match (t := tagOf K.toTypedConfig d.type) (u := pv) (gives_local (by simp [Env.set])) ?_
    by_cases hte : e.type = d.type
    case neg =>
      rw [equal_of_type_ne fun h => hte h.symm]
      refine gives_default (t := tagOf K.toTypedConfig e.type) (u := pu) (gives_local (by simp [Env.set])) ?_ gives_falseT
      intro h
      exact hte (hp.tags _ ht' _ ht h.symm)
    rw [hte] at hu
    refine gives_match (t := tagOf K.toTypedConfig d.type) (u := pu) (gives_local (by simp [Env.set, hte])) ?_
    set ρ : Env := Env.set (Env.set (Env.set (Env.set (fun _ => none) "$lhs" _) "$rhs" _) "$lhs" pv) "$rhs" pu with hρ
    have hl : ρ "$lhs" = some pv := by simp [hρ, Env.set]
    have hr : ρ "$rhs" = some pu := by simp [hρ, Env.set]
    have he : ∀ {x : String}, internal x = false → ρ x = none := by
      intro x hx
      have h1 : x ≠ "$lhs" := internal_ne hx (by decide)
      have h2 : x ≠ "$rhs" := internal_ne hx (by decide)
      simp [hρ, Env.set, h1, h2]
    clear_value ρ
    cases d with
    | none =>
      cases e <;> simp only [Data.type, reduceCtorEq] at hte
      simp only [Data.type, equalBody, Option.some.injEq] at hb
      subst hb
      exact gives_trueT
    | boolean x =>
      cases e <;> simp only [Data.type, reduceCtorEq] at hte
      rename_i y
      simp only [Data.type, equalBody, Option.some.injEq] at hb
      subst hb
      cases hv with
      | box _ h => cases h
      | plain hv =>
      cases hu with
      | box _ h => cases h
      | plain hu =>
      cases hv
      cases hu
      rw [erase_operationT]
      refine gives_op (givesAll_cons (v := .boolean (x == y)) ?_ (.inl rfl) givesAll_nil) (by simp [TOp.erase]) rfl
      refine gives_if (gives_local hl) ?_
      cases x with
      | true => exact gives_local (by rw [hr]; simp)
      | false =>
        refine gives_if (gives_local hr) ?_
        cases y
        · exact gives_literal (.boolean true)
        · exact gives_literal (.boolean false)
    | number x =>
      cases e <;> simp only [Data.type, reduceCtorEq] at hte
      rename_i y
      simp only [Data.type, equalBody, Option.some.injEq] at hb
      subst hb
      cases hv with
      | box _ h => cases h
      | plain hv =>
      cases hu with
      | box _ h => cases h
      | plain hu =>
      cases hv
      cases hu
      rw [erase_operationT]
      refine gives_op (givesAll_cons (v := .boolean (same x y)) ?_ (.inl rfl) givesAll_nil) (by simp [TOp.erase]) rfl
      beta_reduce
      rw [erase_operationT]
      refine gives_op (givesAll_cons (gives_local hl) (.inr rfl) (givesAll_cons (gives_local hr) (.inr rfl) givesAll_nil)) (by simp [TOp.erase]) ?_
      simp only [TOp.erase, Mir.applyOp, hw.comparison]
    | string x =>
      cases e <;> simp only [Data.type, reduceCtorEq] at hte
      rename_i y
      simp only [Data.type, equalBody, Option.some.injEq] at hb
      subst hb
      cases hv with
      | box _ h => cases h
      | plain hv =>
      cases hu with
      | box _ h => cases h
      | plain hu =>
      cases hv
      cases hu
      rw [erase_operationT]
      refine gives_op (givesAll_cons (v := .boolean (x == y)) ?_ (.inl rfl) givesAll_nil) (by simp [TOp.erase]) rfl
      beta_reduce
      rw [erase_operationT]
      obtain ⟨s1, s2, s3⟩ := hp.stringEqual
      refine gives_call (givesAll_cons (gives_prelude (he s3) s2) (.inl rfl) (givesAll_cons (gives_local hl) (.inl rfl)
        (givesAll_cons (gives_local hr) (.inl rfl) givesAll_nil))) ?_
      exact calls_foreign s1 s2 (by simp) (fun l => hw.strings l x y) rfl
    | error x =>
      cases e <;> simp only [Data.type, reduceCtorEq] at hte
      rename_i y
      simp only [Data.type, equalBody, Option.some.injEq] at hb
      subst hb
      cases hv with
      | box _ h => cases h
      | plain hv =>
      cases hu with
      | box _ h => cases h
      | plain hu =>
      cases hv with
      | error hv =>
      cases hu with
      | error hu =>
      rw [Data.equal]
      refine gives_equalCall hp hv ?_ ?_ (ih x (by simp at hk; omega) y _ _ hv hu)
      all_goals rw [erase_operationT]
      · exact gives_op (givesAll_cons (gives_local hl) (.inl rfl) givesAll_nil) (by simp [TOp.erase]) rfl
      · exact gives_op (givesAll_cons (gives_local hr) (.inl rfl) givesAll_nil) (by simp [TOp.erase]) rfl
    | record n ds =>
      cases e <;> simp only [Data.type, reduceCtorEq, Ty.record.injEq] at hte
      rename_i m es
      subst hte
      simp only [Data.type, equalBody, Option.bind_eq_bind, Option.bind_eq_some_iff] at hb
      obtain ⟨fs, hfs, hb⟩ := hb
      cases hv with
      | box _ h => cases h
      | plain hv =>
      cases hu with
      | box _ h => cases h
      | plain hu =>
      cases hv with
      | record h1 h2 =>
      cases hu with
      | record h3 h4 =>
      have hfs := resolveRecord_eq (ok?_eq hfs)
      rw [h1] at h3
      cases h3
      rw [h1] at hfs
      cases hfs
      rw [Data.equal, if_pos rfl, ← both_true (Data.equalAll same ds es)]
      refine gives_fields hp hl hr (i := 0) h2 h4 rfl rfl (fun d hd => ih d ?_) (fun ρ _ _ => gives_trueT) hb
      have := List.sizeOf_lt_of_mem hd
      simp at hk
      omega
    | function as r f =>
      cases e <;> simp only [Data.type, reduceCtorEq, Ty.function.injEq] at hte
      simp only [Data.type, equalBody, Option.some.injEq] at hb
      subst hb
      rw [Data.equal, if_pos ⟨hte.1.symm, hte.2.symm⟩]
      exact gives_noneT

/-! ## Debug output -/

/-- Names of fields of a record. -/
def fieldNames (C : Ctx) (n : String) : List String := ((C.records n).getD []).map (·.name)

/-- Calls of debug functions with a value of the type. -/
def DebugOk (w : World) (p : Program) (capture : List Mir.Name → Env → Env) (K : ReflectConfig) (C : Ctx) (types : List Ty)
    (number : UInt64 → List UInt8) (X : Extras) (d : Data) : Prop :=
  ∀ v, Tagged K.toTypedConfig C types d v →
    Calls [K.stringEqual, K.numberDebug] w p capture (.global (debugName (hirTypeId K.toConfig d.type))) [v]
      (.string (d.debug number X.originalName (fieldNames C)))

/-- Strings that expressions give. -/
def Strings (names : List String) (w : World) (p : Program) (capture : List Mir.Name → Env → Env) (K : ReflectConfig) (ρ : Env)
    (es : List TExpr) (ss : List (List UInt8)) : Prop :=
  List.Forall₂ (fun e s => Gives names w p capture ρ (e.erase (tagId K.toTypedConfig)) (.string s)) es ss

theorem gives_string {ρ : Env} (s : String) : Gives names w p capture ρ ((stringT s).erase (tagId K.toTypedConfig)) (.string (bytes s)) :=
  gives_literal (.string (bytes s))

theorem gives_concatenation {ρ : Env} {es : List TExpr} {ss : List (List UInt8)} (h : Strings names w p capture K ρ es ss) :
    Gives names w p capture ρ ((operationT .concatenation es).erase (tagId K.toTypedConfig)) (.string ss.flatten) := by
  rw [erase_operationT]
  have h1 : GivesAll names w p capture false ρ (Mir.Exprs.ofList (es.map (·.erase (tagId K.toTypedConfig)))) (ss.map .string) := by
    induction h with
    | nil => exact givesAll_nil
    | cons h _ ih => exact givesAll_cons h (.inl rfl) ih
  refine gives_op h1 (by simp [TOp.erase]) ?_
  have h2 : Mir.concatenate (ss.map .string) = some ss.flatten := by
    clear h h1
    induction ss with
    | nil => rfl
    | cons s ss ih => simp [Mir.concatenate, ih]
  simp [TOp.erase, Mir.applyOp, h2]

theorem debug_fields (hp : Linked K X a C types p) {n : String} {t : Mir.TypeId} {vs : List Value} {ρ : Env} (hl : ρ "$x" = some (.record t vs)) :
    ∀ {fs : List RecordField} {ds : List Data} {vs' : List Value} {i : Nat} {ess : List (List TExpr)},
    Fields K.toTypedConfig C types fs ds vs' → vs.drop i = vs' → (∀ d ∈ ds, DebugOk w p capture K C types number X d) →
    (enumerate i fs).mapM (debugField K a C n) = some ess →
    List.Forall₂ (fun es s => ∃ ss, Strings [K.stringEqual, K.numberDebug] w p capture K ρ es ss ∧ ss.flatten = s) ess
      (Data.debugAll number X.originalName (fieldNames C) (fs.map (·.name)) ds)
  | [], ds, vs', i, ess, h1, _, _, he => by
    cases h1
    simp only [enumerate, List.mapM_nil, Option.pure_def, Option.some.injEq] at he
    subst he
    exact .nil
  | f :: fs, ds, vs', i, ess, h1, hv, hd, he => by
    cases h1 with
    | @cons _ _ c d ds v vs'' hc hf h1 =>
    simp only [enumerate, List.mapM_cons, Option.pure_def, Option.bind_eq_bind, Option.bind_eq_some_iff, Option.some.injEq] at he
    obtain ⟨es, he1, ess', he2, rfl⟩ := he
    simp only [debugField, Option.bind_eq_bind, Option.bind_eq_some_iff, Option.some.injEq] at he1
    obtain ⟨e, he1, rfl⟩ := he1
    have hvi : vs[i]? = some v := by rw [← List.head?_drop, hv]; rfl
    obtain ⟨w1, t1, g1⟩ := gives_any (p := p) (w := w) (capture := capture) (names := [K.stringEqual, K.numberDebug])
      (ρ := ρ) (e := operationT (.field n i) [.variable "$x"]) hc he1 hf (by
        rw [erase_operationT]
        exact gives_op (givesAll_cons (gives_local hl) (.inl rfl) givesAll_nil) (by simp [TOp.erase]) hvi)
    rw [List.map_cons, Data.debugAll]
    refine .cons ⟨[_, _], .cons (gives_string _) (.cons (gives_debugCall hp t1 g1 (hd d (by simp) w1 t1)) .nil), ?_⟩
      (debug_fields hp hl (i := i + 1) h1 (by rw [← List.tail_drop, hv]; rfl) (fun d hd' => hd d (by simp [hd'])) he2)
    simp

theorem strings_append {ρ : Env} {es fs : List TExpr} {ss ts : List (List UInt8)} (h : Strings names w p capture K ρ es ss)
    (h' : Strings names w p capture K ρ fs ts) : Strings names w p capture K ρ (es ++ fs) (ss ++ ts) := List.rel_append h h'

theorem strings_separated {ρ : Env} : ∀ {ess : List (List TExpr)} {ss : List (List UInt8)},
    List.Forall₂ (fun es s => ∃ ss, Strings names w p capture K ρ es ss ∧ ss.flatten = s) ess ss →
    ∃ ts, Strings names w p capture K ρ (ess.intersperse [stringT ", "]).flatten ts ∧ ts.flatten = commaSeparated ss
  | [], _, h => by cases h; exact ⟨[], .nil, rfl⟩
  | [es], _, h => by
    cases h with
    | cons h h' =>
      cases h'
      obtain ⟨ts, h, rfl⟩ := h
      exact ⟨ts, by simpa using h, rfl⟩
  | es :: fs :: ess, _, h => by
    cases h with
    | cons h h' =>
      cases h' with
      | cons h1 h2 =>
      obtain ⟨ts, h, rfl⟩ := h
      obtain ⟨us, h3, h4⟩ := strings_separated (List.Forall₂.cons h1 h2)
      refine ⟨ts ++ ([bytes ", "] ++ us), ?_, ?_⟩
      · have : ((es :: fs :: ess).intersperse [stringT ", "]).flatten = es ++ ([stringT ", "] ++ ((fs :: ess).intersperse [stringT ", "]).flatten) := by
          simp [List.intersperse]
        rw [this]
        exact strings_append h (strings_append (.cons (gives_string _) .nil) h3)
      · rw [commaSeparated, ← h4]
        · simp
        · simp

theorem debug_ok (hp : Linked K X a C types p) (hw : Native K same number w) (k : Nat) :
    ∀ d : Data, sizeOf d ≤ k → DebugOk w p capture K C types number X d := by
  induction k with
  | zero => intro d hd; cases d <;> simp at hd
  | succ k ih =>
    intro d hk v hv
    obtain ⟨ht, pv, rfl⟩ := hv.type
    obtain ⟨ds, hds, hf⟩ := hp.functions _ ht
    simp only [informationDefinitions, Option.bind_eq_bind, Option.bind_eq_some_iff, Option.some.injEq] at hds
    obtain ⟨d1, hd1, d2, hd2, rfl⟩ := hds
    have f1 := hf d1 (by simp)
    simp only [debugDefinition, Option.bind_eq_bind, Option.bind_eq_some_iff, Option.some.injEq] at hd1
    obtain ⟨body, hb, rfl⟩ := hd1
    refine calls_global f1 rfl ?_
    simp only [TDefinition.erase, TExpr.erase, TAlts.erase, List.map_cons, List.map_nil]
    refine gives_match (t := tagOf K.toTypedConfig d.type) (u := pv) (gives_local (by simp [Env.set])) ?_
    set ρ : Env := Env.set (Env.set (fun _ => none) "$x" _) "$x" pv with hρ
    have hl : ρ "$x" = some pv := by simp [hρ, Env.set]
    have he : ∀ {x : String}, internal x = false → ρ x = none := by
      intro x hx
      have h1 : x ≠ "$x" := internal_ne hx (by decide)
      simp [hρ, Env.set, h1]
    clear_value ρ
    cases d with
    | none =>
      simp only [Data.type, debugBody, Option.some.injEq] at hb
      subst hb
      exact gives_string _
    | boolean x =>
      simp only [Data.type, debugBody, Option.some.injEq] at hb
      subst hb
      cases hv with
      | box _ h => cases h
      | plain hv =>
      cases hv
      refine gives_if (gives_local hl) ?_
      cases x
      · exact gives_string (K := K) _
      · exact gives_string (K := K) _
    | number x =>
      simp only [Data.type, debugBody, Option.some.injEq] at hb
      subst hb
      cases hv with
      | box _ h => cases h
      | plain hv =>
      cases hv
      rw [erase_operationT]
      obtain ⟨s1, s2, s3⟩ := hp.numberDebug
      refine gives_call (givesAll_cons (gives_prelude (he s3) s2) (.inl rfl) (givesAll_cons (gives_local hl) (.inl rfl) givesAll_nil)) ?_
      exact calls_foreign s1 s2 (by simp) (fun l => hw.numbers l x) rfl
    | string x =>
      simp only [Data.type, debugBody, Option.some.injEq] at hb
      subst hb
      cases hv with
      | box _ h => cases h
      | plain hv =>
      cases hv
      have := gives_concatenation (K := K) (p := p) (w := w) (capture := capture) (names := [K.stringEqual, K.numberDebug]) (ρ := ρ)
        (es := [stringT "\"", .variable "$x", stringT "\""]) (ss := [bytes "\"", x, bytes "\""])
        (.cons (gives_string _) (.cons (gives_local hl) (.cons (gives_string _) .nil)))
      simpa [Data.debug] using this
    | error x =>
      simp only [Data.type, debugBody, Option.some.injEq] at hb
      subst hb
      cases hv with
      | box _ h => cases h
      | plain hv =>
      cases hv with
      | error hv =>
      have h1 := gives_debugCall (w := w) (capture := capture) (e := operationT (.field "hir:error" 0) [.variable "$x"]) (ρ := ρ) hp hv (by
          rw [erase_operationT]
          exact gives_op (givesAll_cons (gives_local hl) (.inl rfl) givesAll_nil) (by simp [TOp.erase]) rfl)
        (ih x (by simp at hk; omega) _ hv)
      have := gives_concatenation (K := K) (p := p) (w := w) (capture := capture) (names := [K.stringEqual, K.numberDebug]) (ρ := ρ)
        (es := [stringT "error(", debugCall (operationT (.field "hir:error" 0) [.variable "$x"]), stringT ")"])
        (ss := [bytes "error(", x.debug number X.originalName (fieldNames C), bytes ")"])
        (.cons (gives_string _) (.cons h1 (.cons (gives_string _) .nil)))
      simpa [Data.debug] using this
    | record n ds =>
      simp only [Data.type, debugBody, Option.bind_eq_bind, Option.bind_eq_some_iff, Option.some.injEq] at hb
      obtain ⟨fs, hfs, ess, hess, rfl⟩ := hb
      cases hv with
      | box _ h => cases h
      | plain hv =>
      cases hv with
      | record h1 h2 =>
      have hfs := resolveRecord_eq (ok?_eq hfs)
      rw [h1] at hfs
      cases hfs
      have h3 := debug_fields (number := number) (w := w) (capture := capture) hp hl (i := 0) h2 rfl (fun d hd => ih d (by
        have := List.sizeOf_lt_of_mem hd
        simp at hk
        omega)) hess
      obtain ⟨ts, h4, h5⟩ := strings_separated h3
      have := gives_concatenation (strings_append (strings_append (.cons (gives_string (X.originalName n ++ "{")) .nil) h4)
        (.cons (gives_string "}") .nil))
      have hn : fieldNames C n = fs.map (·.name) := by simp [fieldNames, h1]
      rw [Data.debug, hn, ← h5]
      simpa using this
    | function as r f =>
      simp only [Data.type, debugBody, Option.some.injEq] at hb
      subst hb
      exact gives_string _

end

end Verif.Lower
