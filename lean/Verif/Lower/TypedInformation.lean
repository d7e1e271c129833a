import Verif.Lower.TypedModule
import Verif.Lower.TypedLowering

/-!
# Functions of type information have types
-/

namespace Verif.Lower

open Verif.Hir (Ty Ctx Expr Module Definition RecordField Vars Canon Typed FieldTy IsVariant Sub)
open Verif.Mir.Typed (TExpr TExprs TAlts TOp HasType HaveTypes AltsHaveType OpType Scope Context TDefinition TDeclaration)
open Verif

/-- Names of variables in functions of type information. -/
def localName (x : String) : Bool := internal x || x == "hir:debug:element" || x == "hir:equal:element"

/-- Functions that type information is made of. -/
def needed (K : ReflectConfig) : List (String × Mir.Typed.Ty) :=
  [(K.stringEqual, .function [.byteString, .byteString] .boolean),
    (K.numberDebug, .function [.number] .byteString),
    (K.listDebug, .function [.byteString, .record K.listType, debugType] .byteString),
    (K.mapDebug, .function [.byteString, .byteString, .record K.mapType, debugType] .byteString),
    (K.listEqual, .function [equalType, .record K.listType, .record K.listType] .variant),
    (K.mapEqual, .function [equalType, .record K.mapType, .record K.mapType] .variant),
    (informationName "default", .function [] (.record informationRecord))]

section
variable {K : ReflectConfig} {C : Ctx} {X : Extras}

/-- They are in scope. -/
def Ready (K : ReflectConfig) (Δ : Scope) : Prop := ∀ p ∈ needed K, Δ p.1 = some p.2

theorem Ready.insert (hK : ∀ p ∈ needed K, localName p.1 = false) {Δ : Scope} {x : String} {τ : Mir.Typed.Ty} (h : Ready K Δ)
    (hx : localName x = true) : Ready K (Δ.insert x τ) := by
  intro p hp
  simp only [Scope.insert]
  rw [if_neg]
  · exact h p hp
  · rintro rfl
    rw [hK p hp] at hx
    cases hx

/-- What MIR has to know of types. -/
structure Knows (K : ReflectConfig) (C : Ctx) (c : Context) : Prop where
  types : TypesOk K.toTypedConfig C c
  information : c.types informationRecord = some [debugType, equalType]
  fallback : c.fallback = informationName "default"
  fields : ∀ n fs, C.records n = some fs → ∀ f ∈ fs, ∀ u, Canon C.types f.type u → boxed u = true →
    c.types (typeName K.toConfig u) = some [lowerType K.toTypedConfig u]

variable {c : Context} {r : Mir.Typed.Ty} {Δ : Scope}

theorem op_typed {o : TOp} {es : List TExpr} {ts : List Mir.Typed.Ty} {τ : Mir.Typed.Ty} (h : List.Forall₂ (HasType c r Δ) es ts)
    (ho : OpType c Δ o ts τ) : HasType c r Δ (operationT o es) τ := .op (haveTypes_operands h) ho

theorem string_typed (s : String) : HasType c r Δ (stringT s) .byteString := .string _

theorem var_typed {x : String} {τ : Mir.Typed.Ty} (h : Δ x = some τ) : HasType c r Δ (.variable x) τ := .variable h

theorem information_typed (hc : Knows K C c) (hΔ : Ready K Δ) {e : TExpr} (he : HasType c r Δ e .variant) {i : Nat} {τ : Mir.Typed.Ty}
    (hi : [debugType, equalType][i]? = some τ) : HasType c r Δ (informationFunction e i) τ :=
  op_typed (.cons (op_typed (.cons (op_typed (.cons he .nil)
    (.typeInformation (τ := .function [] (.record informationRecord)) (by
      rw [hc.fallback]
      exact hΔ (informationName "default", _) (by simp [needed])))) .nil) (.call [] _)) .nil) (.field hc.information hi)

theorem debugCall_typed (hc : Knows K C c) (hΔ : Ready K Δ) {e : TExpr} (he : HasType c r Δ e .variant) :
    HasType c r Δ (debugCall e) .byteString :=
  op_typed (.cons (information_typed hc hΔ he (by rfl)) (.cons he .nil)) (.call _ _)

theorem equalCall_typed (hc : Knows K C c) (hΔ : Ready K Δ) {e f : TExpr} (he : HasType c r Δ e .variant) (hf : HasType c r Δ f .variant) :
    HasType c r Δ (equalCall e f) .variant :=
  op_typed (.cons (information_typed hc hΔ he (by rfl)) (.cons he (.cons hf .nil))) (.call _ _)

theorem compileAny_typed {a : Nat} {t u : Ty} (ht : Canon C.types t u) {e e' : TExpr} (h : compileAny K a C t e = some e')
    (hb : boxed u = true → c.types (typeName K.toConfig u) = some [lowerType K.toTypedConfig u])
    (he : HasType c r Δ e (lowerType K.toTypedConfig u)) : HasType c r Δ e' .variant := by
  simp only [compileAny, Option.bind_eq_bind, Option.bind_eq_some_iff] at h
  obtain ⟨v, hv, h⟩ := h
  have := (Canon.of_ok (ok?_eq hv)).det ht
  subst this
  split at h
  · rename_i hvar
    cases h
    rwa [hvar] at he
  · rename_i hvar
    cases h
    have hne : concreteType K.toTypedConfig v ≠ .variant := by
      unfold concreteType
      split
      · simp
      · exact hvar
    refine op_typed (.cons ?_ .nil) (.variant hne)
    unfold concreteType boxT
    split
    · rename_i hbox
      exact .op (one he) (.record (hb hbox))
    · exact he

theorem debugElement_typed (hK : ∀ p ∈ needed K, localName p.1 = false) (hc : Knows K C c) (hΔ : Ready K Δ) :
    HasType c r Δ debugElement debugType := by
  refine .letRec (debugCall_typed hc (Ready.insert hK (Ready.insert hK hΔ (by decide)) (by decide)) (var_typed ?_)) (var_typed ?_)
  · rfl
  · rfl

theorem equalElement_typed (hK : ∀ p ∈ needed K, localName p.1 = false) (hc : Knows K C c) (hΔ : Ready K Δ) :
    HasType c r Δ equalElement equalType := by
  refine .letRec (equalCall_typed hc (Ready.insert hK (Ready.insert hK (Ready.insert hK hΔ (by decide)) (by decide)) (by decide))
    (var_typed ?_) (var_typed ?_)) (var_typed ?_)
  · simp [Scope.insert]
  · simp [Scope.insert]
  · rfl

theorem enumerate_mem {α : Type} {i j : Nat} {x : α} : ∀ {xs : List α}, (j, x) ∈ enumerate i xs → i ≤ j ∧ xs[j - i]? = some x
  | [], h => by cases h
  | y :: ys, h => by
    rcases List.mem_cons.1 h with h | h
    · cases h
      simp
    · obtain ⟨h1, h2⟩ := enumerate_mem h
      refine ⟨by omega, ?_⟩
      obtain ⟨k, rfl⟩ : ∃ k, j = i + 1 + k := ⟨j - (i + 1), by omega⟩
      rw [show i + 1 + k - i = k + 1 by omega]
      rw [show i + 1 + k - (i + 1) = k by omega] at h2
      simpa using h2

/-- Fields of a record. -/
theorem recordField_typed (hc : Knows K C c) {n : String} {fs : List RecordField} (hn : C.records n = some fs) {f : Nat × RecordField}
    (hf : f ∈ enumerate 0 fs) {e : TExpr} (he : HasType c r Δ e (.record n)) : ∃ u, Canon C.types f.2.type u ∧
      (boxed u = true → c.types (typeName K.toConfig u) = some [lowerType K.toTypedConfig u]) ∧
      HasType c r Δ (operationT (.field n f.1) [e]) (lowerType K.toTypedConfig u) := by
  obtain ⟨i, f⟩ := f
  obtain ⟨_, h⟩ := enumerate_mem hf
  simp only [Nat.sub_zero] at h
  obtain ⟨ts, hts, hall⟩ := hc.types.records n fs hn
  obtain ⟨τ, hτ, u, hu, rfl⟩ := forall₂_getElem hall h
  exact ⟨u, hu, hc.fields n fs hn f (List.mem_of_getElem? h) u hu, op_typed (.cons he .nil) (.field hts hτ)⟩

theorem strings_typed {es : List TExpr} (h : ∀ e ∈ es, HasType c r Δ e .byteString) :
    HasType c r Δ (operationT .concatenation es) .byteString := by
  refine op_typed (ts := es.map fun _ => .byteString) ?_ (.concatenation (by simp))
  rw [List.forall₂_map_right_iff]
  exact List.forall₂_same.2 h

theorem mem_intersperse {α : Type} {s x : α} : ∀ {xs : List α}, x ∈ xs.intersperse s → x = s ∨ x ∈ xs
  | [], h => by cases h
  | [y], h => by simp at h; simp [h]
  | y :: z :: ys, h => by
    rw [List.intersperse_cons₂] at h
    rcases List.mem_cons.1 h with h | h
    · exact .inr (by simp [h])
    · rcases List.mem_cons.1 h with h | h
      · exact .inl h
      · rcases mem_intersperse h with h | h
        · exact .inl h
        · exact .inr (List.mem_cons_of_mem _ h)

theorem debugBody_typed (hK : ∀ p ∈ needed K, localName p.1 = false) (hc : Knows K C c) (hΔ : Ready K Δ) {a : Nat} {t : Ty} {e : TExpr}
    (h : debugBody K a C X t = some e)
    (hb : boxed t = true → c.types (typeName K.toConfig t) = some [lowerType K.toTypedConfig t])
    (hx : Δ "$x" = some (concreteType K.toTypedConfig t)) : HasType c r Δ e .byteString := by
  have hv := var_typed (c := c) (r := r) hx
  cases t <;> simp only [debugBody, Option.some.injEq, reduceCtorEq] at h
  case boolean =>
    subst h
    exact .if_ hv (string_typed _) (string_typed _)
  case error =>
    subst h
    refine strings_typed fun e he => ?_
    simp only [List.mem_cons, List.not_mem_nil, or_false] at he
    rcases he with rfl | rfl | rfl
    · exact string_typed _
    · exact debugCall_typed hc hΔ (op_typed (.cons hv .nil) (.field hc.types.error rfl))
    · exact string_typed _
  case function => subst h; exact string_typed _
  case list t =>
    subst h
    have hu : HasType c r Δ (unboxedT K (.list t) (.variable "$x")) (.record K.listType) :=
      op_typed (.cons hv .nil) (.field (hb rfl) (by simp [lowerType]))
    exact op_typed (.cons (var_typed (hΔ (K.listDebug, _) (by simp [needed]))) (.cons (string_typed _) (.cons hu
      (.cons (debugElement_typed hK hc hΔ) .nil)))) (.call _ _)
  case map k v =>
    subst h
    have hu : HasType c r Δ (unboxedT K (.map k v) (.variable "$x")) (.record K.mapType) :=
      op_typed (.cons hv .nil) (.field (hb rfl) (by simp [lowerType]))
    exact op_typed (.cons (var_typed (hΔ (K.mapDebug, _) (by simp [needed]))) (.cons (string_typed _) (.cons (string_typed _)
      (.cons hu (.cons (debugElement_typed hK hc hΔ) .nil))))) (.call _ _)
  case none => subst h; exact string_typed _
  case number =>
    subst h
    exact op_typed (.cons (var_typed (hΔ (K.numberDebug, _) (by simp [needed]))) (.cons hv .nil)) (.call _ _)
  case record n =>
    simp only [Option.bind_eq_bind, Option.bind_eq_some_iff, Option.some.injEq] at h
    obtain ⟨fs, hfs, ess, hess, rfl⟩ := h
    have hfs : C.records n = some fs := by
      have := ok?_eq hfs
      unfold Hir.resolveRecord at this
      split at this
      · cases this; assumption
      · cases this
    refine strings_typed fun e he => ?_
    simp only [List.mem_append, List.mem_singleton, List.mem_flatten] at he
    rcases he with (rfl | ⟨es, hes, he⟩) | rfl
    · exact string_typed _
    · rcases mem_intersperse hes with rfl | hes
      · simp only [List.mem_singleton] at he
        subst he
        exact string_typed _
      · obtain ⟨f, hf, h⟩ := mapM_source hess hes
        simp only [debugField, Option.bind_eq_bind, Option.bind_eq_some_iff, Option.some.injEq] at h
        obtain ⟨e', he', rfl⟩ := h
        obtain ⟨u, h1, h2, h3⟩ := recordField_typed hc hfs hf hv
        simp only [List.mem_cons, List.not_mem_nil, or_false] at he
        rcases he with rfl | rfl
        · exact string_typed _
        · exact debugCall_typed hc hΔ (compileAny_typed h1 he' h2 h3)
    · exact string_typed _
  case string =>
    subst h
    refine strings_typed fun e he => ?_
    simp only [List.mem_cons, List.not_mem_nil, or_false] at he
    rcases he with rfl | rfl | rfl
    · exact string_typed _
    · exact hv
    · exact string_typed _

theorem true_typed : HasType c r Δ trueT .variant := op_typed (.cons (.boolean _) .nil) (.variant (by simp))
theorem false_typed : HasType c r Δ falseT .variant := op_typed (.cons (.boolean _) .nil) (.variant (by simp))
theorem none_typed : HasType c r Δ noneT .variant := op_typed (.cons .none .nil) (.variant (by simp))

theorem merged_typed {e f : TExpr} (he : HasType c r Δ e .variant) (hf : HasType c r (Δ.insert "$lhs_result" .boolean) f .variant) :
    HasType c r Δ (mergedResult e f) .variant := by
  refine .case he (by simp) (.one (by simp) (.case hf (by simp) (.one (by simp) ?_ (.default none_typed))) (.default none_typed))
  exact op_typed (.cons (.if_ (var_typed (by simp [Scope.insert])) (var_typed (by simp [Scope.insert])) (.boolean _)) .nil)
    (.variant (by simp))

theorem equalBody_typed (hK : ∀ p ∈ needed K, localName p.1 = false) (hc : Knows K C c) (hΔ : Ready K Δ) {a : Nat} {t : Ty} {e : TExpr}
    (h : equalBody K a C t = some e)
    (hb : boxed t = true → c.types (typeName K.toConfig t) = some [lowerType K.toTypedConfig t])
    (hl : Δ "$lhs" = some (concreteType K.toTypedConfig t)) (hr : Δ "$rhs" = some (concreteType K.toTypedConfig t)) :
    HasType c r Δ e .variant := by
  have hv := var_typed (c := c) (r := r) hl
  have hw := var_typed (c := c) (r := r) hr
  cases t <;> simp only [equalBody, Option.some.injEq, reduceCtorEq] at h
  case boolean =>
    subst h
    exact op_typed (.cons (.if_ hv hw (.if_ hw (.boolean _) (.boolean _))) .nil) (.variant (by simp))
  case error =>
    subst h
    exact equalCall_typed hc hΔ (op_typed (.cons hv .nil) (.field hc.types.error rfl))
      (op_typed (.cons hw .nil) (.field hc.types.error rfl))
  case function => subst h; exact none_typed
  case list t =>
    subst h
    have hu : ∀ {x : TExpr}, HasType c r Δ x (concreteType K.toTypedConfig (.list t)) →
        HasType c r Δ (unboxedT K (.list t) x) (.record K.listType) := fun hx =>
      op_typed (.cons hx .nil) (.field (hb rfl) (by simp [lowerType]))
    exact op_typed (.cons (var_typed (hΔ (K.listEqual, _) (by simp [needed]))) (.cons (equalElement_typed hK hc hΔ)
      (.cons (hu hv) (.cons (hu hw) .nil)))) (.call _ _)
  case map k v =>
    subst h
    have hu : ∀ {x : TExpr}, HasType c r Δ x (concreteType K.toTypedConfig (.map k v)) →
        HasType c r Δ (unboxedT K (.map k v) x) (.record K.mapType) := fun hx =>
      op_typed (.cons hx .nil) (.field (hb rfl) (by simp [lowerType]))
    exact op_typed (.cons (var_typed (hΔ (K.mapEqual, _) (by simp [needed]))) (.cons (equalElement_typed hK hc hΔ)
      (.cons (hu hv) (.cons (hu hw) .nil)))) (.call _ _)
  case none => subst h; exact true_typed
  case number =>
    subst h
    exact op_typed (.cons (op_typed (.cons hv (.cons hw .nil)) (.comparison _)) .nil) (.variant (by simp))
  case record n =>
    simp only [Option.bind_eq_bind, Option.bind_eq_some_iff] at h
    obtain ⟨fs, hfs, h⟩ := h
    have hfs : C.records n = some fs := by
      have := ok?_eq hfs
      unfold Hir.resolveRecord at this
      split at this
      · cases this; assumption
      · cases this
    have hl' : Δ "$lhs" = some (.record n) := hl
    have hr' : Δ "$rhs" = some (.record n) := hr
    have key : ∀ (hs : List (Nat × RecordField)) (e0 : TExpr), HasType c r Δ e0 .variant →
        hs.foldlM (equalField K a C n) e0 = some e → (∀ f ∈ hs, f ∈ enumerate 0 fs) → HasType c r Δ e .variant := by
      intro hs
      induction hs with
      | nil =>
        intro e0 h0 h _
        simp only [List.foldlM_nil, Option.pure_def, Option.some.injEq] at h
        exact h ▸ h0
      | cons f hs ih =>
        intro e0 h0 h hm
        simp only [List.foldlM_cons, Option.bind_eq_bind, Option.bind_eq_some_iff] at h
        obtain ⟨e1, h1, h⟩ := h
        refine ih e1 ?_ h fun g hg => hm g (by simp [hg])
        simp only [equalField, Option.bind_eq_bind, Option.bind_eq_some_iff, Option.some.injEq] at h1
        obtain ⟨x, hx, y, hy, rfl⟩ := h1
        refine merged_typed h0 ?_
        have hf := hm f (by simp)
        have hΔ' : Ready K (Δ.insert "$lhs_result" .boolean) := hΔ.insert hK (by decide)
        obtain ⟨u, h1, h2, h3⟩ := recordField_typed (r := r) hc hfs hf
          (var_typed (Δ := Δ.insert "$lhs_result" .boolean) (x := "$lhs") (τ := .record n) (by simpa [Scope.insert] using hl'))
        obtain ⟨u', h1', h2', h3'⟩ := recordField_typed (r := r) hc hfs hf
          (var_typed (Δ := Δ.insert "$lhs_result" .boolean) (x := "$rhs") (τ := .record n) (by simpa [Scope.insert] using hr'))
        exact equalCall_typed hc hΔ' (compileAny_typed h1 hx h2 h3) (compileAny_typed h1' hy h2' h3')
    exact key _ trueT true_typed h fun _ h => h
  case string =>
    subst h
    exact op_typed (.cons (op_typed (.cons (var_typed (hΔ (K.stringEqual, _) (by simp [needed]))) (.cons hv (.cons hw .nil)))
      (.call _ _)) .nil) (.variant (by simp))

/-- A definition has the type it says. -/
def DefinitionTyped (c : Context) (Δ : Scope) (d : TDefinition) : Prop := HasType c d.result (Δ.insertMany d.args) d.body d.result

theorem debugDefinition_typed (hK : ∀ p ∈ needed K, localName p.1 = false) (hc : Knows K C c) (hΔ : Ready K Δ) {a : Nat} {t : Ty}
    {d : TDefinition} (h : debugDefinition K a C X t = some d) (hv : concreteType K.toTypedConfig t ≠ .variant)
    (hb : boxed t = true → c.types (typeName K.toConfig t) = some [lowerType K.toTypedConfig t]) : DefinitionTyped c Δ d := by
  simp only [debugDefinition, Option.bind_eq_bind, Option.bind_eq_some_iff, Option.some.injEq] at h
  obtain ⟨e, he, rfl⟩ := h
  have h1 : Ready K (Δ.insert "$x" .variant) := hΔ.insert hK (by decide)
  refine .case (var_typed (τ := .variant) ?_) (by simp) (.one hv (debugBody_typed hK hc (h1.insert hK (by decide)) he hb ?_) .nil)
  · simp [Scope.insertMany, Scope.insert]
  · simp [Scope.insert]

theorem equalDefinition_typed (hK : ∀ p ∈ needed K, localName p.1 = false) (hc : Knows K C c) (hΔ : Ready K Δ) {a : Nat} {t : Ty}
    {d : TDefinition} (h : equalDefinition K a C t = some d) (hv : concreteType K.toTypedConfig t ≠ .variant)
    (hb : boxed t = true → c.types (typeName K.toConfig t) = some [lowerType K.toTypedConfig t]) : DefinitionTyped c Δ d := by
  simp only [equalDefinition, Option.bind_eq_bind, Option.bind_eq_some_iff, Option.some.injEq] at h
  obtain ⟨e, he, rfl⟩ := h
  have h1 : Ready K ((Δ.insert "$lhs" .variant).insert "$rhs" .variant) := (hΔ.insert hK (by decide)).insert hK (by decide)
  refine .case (var_typed (τ := .variant) ?_) (by simp) (.one hv ?_ (.default false_typed))
  · simp [Scope.insertMany, Scope.insert]
  · refine .case (var_typed (τ := .variant) ?_) (by simp) (.one hv (equalBody_typed hK hc
      ((h1.insert hK (by decide)).insert hK (by decide)) he hb ?_ ?_) (.default false_typed))
    · simp [Scope.insertMany, Scope.insert]
    · simp [Scope.insert]
    · simp [Scope.insert]

theorem informationBody_typed (hc : Knows K C c) {id : String} (hd : Δ (debugName id) = some debugType)
    (he : Δ (equalName id) = some equalType) : HasType c r Δ (informationBody id) (.record informationRecord) :=
  op_typed (.cons (var_typed hd) (.cons (var_typed he) .nil)) (.record hc.information)

theorem informationDefinitions_typed (hK : ∀ p ∈ needed K, localName p.1 = false) (hc : Knows K C c) (hΔ : Ready K Δ) {a : Nat} {t : Ty}
    {ds : List TDefinition} (h : informationDefinitions K a C X t = some ds) (hv : concreteType K.toTypedConfig t ≠ .variant)
    (hb : boxed t = true → c.types (typeName K.toConfig t) = some [lowerType K.toTypedConfig t])
    (hd : Δ (debugName (hirTypeId K.toConfig t)) = some debugType) (he : Δ (equalName (hirTypeId K.toConfig t)) = some equalType) :
    ∀ d ∈ ds, DefinitionTyped c Δ d := by
  simp only [informationDefinitions, Option.bind_eq_bind, Option.bind_eq_some_iff, Option.some.injEq] at h
  obtain ⟨d1, h1, d2, h2, rfl⟩ := h
  intro d hmem
  simp only [List.mem_cons, List.not_mem_nil, or_false] at hmem
  rcases hmem with rfl | rfl | rfl
  · exact debugDefinition_typed hK hc hΔ h1 hv hb
  · exact equalDefinition_typed hK hc hΔ h2 hv hb
  · exact informationBody_typed hc hd he

theorem defaultDefinitions_typed (hc : Knows K C c) (hd : Δ (debugName "default") = some debugType)
    (he : Δ (equalName "default") = some equalType) : ∀ d ∈ defaultDefinitions, DefinitionTyped c Δ d := by
  intro d hmem
  simp only [defaultDefinitions, List.mem_cons, List.not_mem_nil, or_false] at hmem
  rcases hmem with rfl | rfl | rfl
  · exact string_typed _
  · exact none_typed
  · exact informationBody_typed hc hd he

/-- Functions of type information: their names and types. -/
def informationFunctions (id : String) : List (String × Mir.Typed.Ty) :=
  [(debugName id, debugType), (equalName id, equalType), (informationName id, .function [] (.record informationRecord))]

theorem informationDefinitions_functions {a : Nat} {t : Ty} {ds : List TDefinition} (h : informationDefinitions K a C X t = some ds) :
    ds.map (fun d => (d.name, Mir.Typed.Ty.function (d.args.map (·.2)) d.result)) = informationFunctions (hirTypeId K.toConfig t) := by
  simp only [informationDefinitions, Option.bind_eq_bind, Option.bind_eq_some_iff, Option.some.injEq] at h
  obtain ⟨d1, h1, d2, h2, rfl⟩ := h
  simp only [debugDefinition, Option.bind_eq_bind, Option.bind_eq_some_iff, Option.some.injEq] at h1
  obtain ⟨_, _, rfl⟩ := h1
  simp only [equalDefinition, Option.bind_eq_bind, Option.bind_eq_some_iff, Option.some.injEq] at h2
  obtain ⟨_, _, rfl⟩ := h2
  rfl

theorem informationDeclarations_functions (t : Ty) :
    (informationDeclarations K t).map (fun d => (d.name, Mir.Typed.Ty.function d.args d.result)) =
      informationFunctions (hirTypeId K.toConfig t) := rfl

theorem defaultDefinitions_functions :
    defaultDefinitions.map (fun d => (d.name, Mir.Typed.Ty.function (d.args.map (·.2)) d.result)) =
      informationFunctions "default" := rfl

end

end Verif.Lower
