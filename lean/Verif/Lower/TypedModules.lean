import Verif.Lower.TypedInformation
import Verif.Lower.TypedExpressions
import Verif.Hir.AnalyzedModules
import Verif.Mir.CheckLemmas
import Verif.Hir.SoundnessProperties

/-!
# Lowered modules have types
-/

namespace Verif.Lower

open Verif.Hir (Ty Ctx Expr Module Definition RecordField Vars Canon Typed FieldTy IsVariant Sub)
open Verif.Mir.Typed (TExpr TExprs TAlts TOp HasType HaveTypes AltsHaveType OpType Scope Context TDefinition TDeclaration TModule)
open Verif

/-- Names the compiler makes up for global functions and types. -/
def reserved (x : String) : Bool := x.toList.take 4 == ['h', 'i', 'r', ':']

/-- Functions of the prelude that type information is made of: `packages/prelude/{List, Map, Number, String}.pen`. -/
def preludeFunctions (K : ReflectConfig) : List (String × (List Ty × Ty)) :=
  [(K.stringEqual, [.string, .string], .boolean),
    (K.numberDebug, [.number], .string),
    (K.listDebug, [.string, .record K.listType, .function [.any] .string], .string),
    (K.mapDebug, [.string, .string, .record K.mapType, .function [.any] .string], .string),
    (K.listEqual, [.function [.any, .any] (.union .boolean .none), .record K.listType, .record K.listType], .union .boolean .none),
    (K.mapEqual, [.function [.any, .any] (.union .boolean .none), .record K.mapType, .record K.mapType], .union .boolean .none)]

/-- Names of functions of a module. -/
def functionNames (m : Module) : List String := m.declarations.map (·.1) ++ m.definitions.map (·.name)

/-- What is assumed about names in a module: functions, records and fields have different names, names are not ones the
compiler makes up, the prelude is imported, and functions exposed to foreign code are defined. -/
structure Nameable (K : ReflectConfig) (X : Extras) (m : Module) : Prop where
  recordNames : (m.types.records.map (·.1)).Nodup
  records : ∀ r ∈ m.types.records, reserved r.1 = false
  fields : ∀ r ∈ m.types.records, (r.2.map (·.name)).Nodup
  functionNames : (functionNames m).Nodup
  functions : ∀ x ∈ Lower.functionNames m, internal x = false ∧ reserved x = false ∧ x ∉ ["__debug", "__race", "__spawn"]
  sources : ∀ d ∈ m.definitions, Sourced K.toTypedConfig d.body ∧
    ∀ y ∈ d.params.map (·.1), internal y = false ∧ y ≠ K.stringEqual
  exposed : ∀ x ∈ X.exposed, x ∈ Lower.functionNames m
  imports : ∀ p ∈ preludeFunctions K, p ∈ m.declarations

/-- Hashes of types do not collide. -/
structure NoCollisions (K : Config) (types : List Ty) : Prop where
  ids : ∀ c ∈ types, ∀ d ∈ types, hirTypeId K c = hirTypeId K d → c = d
  names : ∀ c ∈ types, ∀ d ∈ types, boxed c = true → boxed d = true → typeName K c = typeName K d → c = d
  default : ∀ c ∈ types, hirTypeId K c ≠ "default"

section
variable {K : ReflectConfig} {X : Extras} {a n : Nat} {m : Module}

/-! ## Names -/

theorem debugName_toList (i : String) : (debugName i).toList =
    ['h', 'i', 'r', ':', 'r', 'e', 'f', 'l', 'e', 'c', 't', ':', 'd', 'e', 'b', 'u', 'g', ':'] ++ i.toList := by
  unfold debugName
  rw [String.toList_append]
  congr 1

theorem equalName_toList (i : String) : (equalName i).toList =
    ['h', 'i', 'r', ':', 'r', 'e', 'f', 'l', 'e', 'c', 't', ':', 'e', 'q', 'u', 'a', 'l', ':'] ++ i.toList := by
  unfold equalName
  rw [String.toList_append]
  congr 1

theorem informationName_toList (i : String) : (informationName i).toList =
    ['h', 'i', 'r', ':', 't', 'y', 'p', 'e', '_', 'i', 'n', 'f', 'o', 'r', 'm', 'a', 't', 'i', 'o', 'n', ':'] ++ i.toList := by
  unfold informationName
  rw [String.toList_append]
  congr 1

attribute [local irreducible] debugName equalName informationName

theorem debugName_inj {i j : String} (h : debugName i = debugName j) : i = j := by
  have := congrArg String.toList h
  rw [debugName_toList, debugName_toList] at this
  exact String.toList_inj.1 (List.append_cancel_left this)

theorem equalName_inj {i j : String} (h : equalName i = equalName j) : i = j := by
  have := congrArg String.toList h
  rw [equalName_toList, equalName_toList] at this
  exact String.toList_inj.1 (List.append_cancel_left this)

theorem informationName_inj {i j : String} (h : informationName i = informationName j) : i = j := by
  have := congrArg String.toList h
  rw [informationName_toList, informationName_toList] at this
  exact String.toList_inj.1 (List.append_cancel_left this)

theorem debugName_ne_equalName (i j : String) : debugName i ≠ equalName j := by
  intro h
  have := congrArg String.toList h
  rw [debugName_toList, equalName_toList] at this
  simp at this

theorem debugName_ne_informationName (i j : String) : debugName i ≠ informationName j := by
  intro h
  have := congrArg String.toList h
  rw [debugName_toList, informationName_toList] at this
  simp at this

theorem equalName_ne_informationName (i j : String) : equalName i ≠ informationName j := by
  intro h
  have := congrArg String.toList h
  rw [equalName_toList, informationName_toList] at this
  simp at this

theorem informationFunctions_names (id : String) :
    (informationFunctions id).map (·.1) = [debugName id, equalName id, informationName id] := rfl

theorem informationFunctions_reserved {id x : String} (h : x ∈ (informationFunctions id).map (·.1)) : reserved x = true := by
  rw [informationFunctions_names] at h
  simp only [List.mem_cons, List.not_mem_nil, or_false] at h
  rcases h with rfl | rfl | rfl <;> simp [reserved, debugName_toList, equalName_toList, informationName_toList]

theorem informationFunctions_id {i j x : String} (h : x ∈ (informationFunctions i).map (·.1))
    (h' : x ∈ (informationFunctions j).map (·.1)) : i = j := by
  rw [informationFunctions_names] at h h'
  simp only [List.mem_cons, List.not_mem_nil, or_false] at h h'
  rcases h with rfl | rfl | rfl
  · rcases h' with h | h | h
    · exact debugName_inj h
    · exact absurd h (debugName_ne_equalName _ _)
    · exact absurd h (debugName_ne_informationName _ _)
  · rcases h' with h | h | h
    · exact absurd h.symm (debugName_ne_equalName _ _)
    · exact equalName_inj h
    · exact absurd h (equalName_ne_informationName _ _)
  · rcases h' with h | h | h
    · exact absurd h.symm (debugName_ne_informationName _ _)
    · exact absurd h.symm (equalName_ne_informationName _ _)
    · exact informationName_inj h

theorem informationFunctions_nodup (id : String) : ((informationFunctions id).map (·.1)).Nodup := by
  rw [informationFunctions_names]
  simp [debugName_ne_equalName, debugName_ne_informationName, equalName_ne_informationName]

theorem nodup_flatMap_ids {ids : List String} (h : ids.Nodup) : (ids.flatMap fun id => (informationFunctions id).map (·.1)).Nodup := by
  rw [List.nodup_flatMap]
  refine ⟨fun id _ => informationFunctions_nodup id, ?_⟩
  refine h.imp ?_
  intro i j hij x hx hy
  exact hij (informationFunctions_id hx hy)

theorem typeName_reserved {c : Ty} (h : boxed c = true) : reserved (typeName K.toConfig c) = true ∧
    typeName K.toConfig c ≠ "hir:error" ∧ typeName K.toConfig c ≠ informationRecord := by
  have hne : ∀ {x y : String}, x.toList ≠ y.toList → x ≠ y := fun h e => h (congrArg String.toList e)
  cases c <;> simp only [boxed, Bool.false_eq_true] at h
  all_goals
    refine ⟨by simp [reserved, typeName, String.toList_append], hne ?_, hne ?_⟩ <;>
      simp [typeName, informationRecord, String.toList_append]

/-! ## Types -/

theorem mapM_names {α β : Type} {f : α → Option β} {g : α → String} {g' : β → String} (hf : ∀ x y, f x = some y → g' y = g x) :
    ∀ {xs : List α} {ys : List β}, xs.mapM f = some ys → ys.map g' = xs.map g
  | [], ys, h => by
    simp only [List.mapM_nil, Option.pure_def, Option.some.injEq] at h
    subst h
    rfl
  | x :: xs, ys, h => by
    simp only [List.mapM_cons, Option.pure_def, Option.bind_eq_bind, Option.bind_eq_some_iff, Option.some.injEq] at h
    obtain ⟨y, hy, zs, hzs, rfl⟩ := h
    simp [hf x y hy, mapM_names hf hzs]

theorem variant_mem {a n : Nat} {m : Module} {vs ts : List Ty} (hv : variantTypes a n m = some vs)
    (ht : informationTypes a n m = some ts) {u : Ty} (hu : u ∈ vs) (hb : boxed u = true) : u ∈ ts := by
  simp only [informationTypes, Option.bind_eq_bind, Option.bind_eq_some_iff, Option.some.injEq] at ht
  obtain ⟨vs', hvs, cs, hcs, rfl⟩ := ht
  rw [hv] at hvs
  cases hvs
  obtain ⟨v, hv', hev⟩ := mapM_target hcs (a := u) (List.mem_append_left _ (List.mem_append_right _ hu))
  have hvu : v = u := by
    simp only [variantTypes, Option.bind_eq_bind, Option.bind_eq_some_iff, Option.some.injEq] at hv
    obtain ⟨tss, h1, ms, h2, rfl⟩ := hv
    obtain ⟨us, hus, hu⟩ := List.mem_flatten.1 hu
    obtain ⟨t, _, he⟩ := mapM_source h2 hus
    have he := ok?_eq he
    simp only [Hir.unionMemberSet] at he
    obtain ⟨c, hc, he⟩ := Res.bind_eq_ok.1 he
    cases he
    exact (Hir.Canon.of_ok (ok?_eq hev)).det ((Hir.Canon.of_ok hc).member ((Hir.mem_btreeSet _ _).1 hu)).1
  subst hvu
  refine List.mem_filter.2 ⟨hv', ?_⟩
  cases v <;> first | rfl | cases hb

/-- Types in bodies and fields are in the collection. -/
theorem variantTypes_mem {a n : Nat} {m : Module} {vs : List Ty} (h : variantTypes a n m = some vs) :
    (∀ d ∈ m.definitions, ∀ x, Visited x d.body → ∀ t ∈ lowerTypes x, ∀ u, Canon m.ctx.types t u → boxed u = true → u ∈ vs) ∧
    ∀ r ∈ m.types.records, ∀ f ∈ r.2, ∀ u, Canon m.ctx.types f.type u → boxed u = true → u ∈ vs := by
  simp only [variantTypes, Option.bind_eq_bind, Option.bind_eq_some_iff, Option.some.injEq] at h
  obtain ⟨tss, h1, ms, h2, rfl⟩ := h
  have key : ∀ t ∈ tss.flatten ++ m.types.records.flatMap fun r => r.2.map (·.type), ∀ u, Canon m.ctx.types t u → boxed u = true →
      u ∈ ms.flatten := by
    intro t ht u hu hb
    obtain ⟨us, hus, he⟩ := mapM_target h2 ht
    have he := ok?_eq he
    simp only [Hir.unionMemberSet] at he
    obtain ⟨c, hc, he⟩ := Res.bind_eq_ok.1 he
    cases he
    have := (Hir.Canon.of_ok hc).det hu
    subst this
    refine List.mem_flatten.2 ⟨_, hus, (Hir.mem_btreeSet _ _).2 ?_⟩
    cases c <;> first | exact List.mem_singleton.2 rfl | cases hb
  constructor
  · intro d hd x hx t ht u hu hb
    obtain ⟨us, hus, he⟩ := mapM_target h1 hd
    exact key t (List.mem_append_left _ (List.mem_flatten.2 ⟨us, hus, collectFrom_visited he hx t ht⟩)) u hu hb
  · intro r hr f hf u hu hb
    refine key f.type (List.mem_append_right _ (List.mem_flatMap.2 ⟨r, hr, List.mem_map.2 ⟨f, hf, rfl⟩⟩)) u hu hb

/-- Records of type information are of concrete types. -/
theorem informationTypes_concrete {a n : Nat} {m : Module} {ts : List Ty} (h : informationTypes a n m = some ts) {u : Ty} (hu : u ∈ ts) :
    concreteType K.toTypedConfig u ≠ .variant := by
  simp only [informationTypes, Option.bind_eq_bind, Option.bind_eq_some_iff, Option.some.injEq] at h
  obtain ⟨vs, hvs, cs, hcs, rfl⟩ := h
  obtain ⟨hu, hp⟩ := List.mem_filter.1 hu
  obtain ⟨t, _, he⟩ := mapM_source hcs hu
  refine concreteType_ne (Hir.Canon.of_ok (ok?_eq he)) ?_ ?_
  · rintro rfl; cases hp
  · rintro l r rfl; cases hp

/-- Boxed ones are types in bodies or fields. -/
theorem informationTypes_boxed {a n : Nat} {m : Module} {vs ts : List Ty} (hv : variantTypes a n m = some vs)
    (h : informationTypes a n m = some ts) {u : Ty} (hu : u ∈ ts) (hb : boxed u = true) : u ∈ vs := by
  simp only [informationTypes, Option.bind_eq_bind, Option.bind_eq_some_iff, Option.some.injEq] at h
  obtain ⟨vs', hvs, cs, hcs, rfl⟩ := h
  rw [hv] at hvs
  cases hvs
  obtain ⟨hu, hp⟩ := List.mem_filter.1 hu
  obtain ⟨t, ht, he⟩ := mapM_source hcs hu
  have hc := Hir.Canon.of_ok (ok?_eq he)
  have hv' := hv
  simp only [variantTypes, Option.bind_eq_bind, Option.bind_eq_some_iff, Option.some.injEq] at hv
  obtain ⟨tss, h1, ms, h2, rfl⟩ := hv
  simp only [List.mem_append, List.mem_map] at ht
  rcases ht with (ht | ht) | ⟨r, hr', rfl⟩
  · exfalso
    simp only [List.mem_cons, List.not_mem_nil, or_false] at ht
    rcases ht with rfl | rfl | rfl | rfl | rfl
    all_goals
      have := hc.det (Hir.Canon.of_ok (n := 1) (c := _) rfl)
      subst this
      simp [boxed] at hb
  · obtain ⟨us, hus, hu'⟩ := List.mem_flatten.1 ht
    obtain ⟨w, _, he'⟩ := mapM_source h2 hus
    have he' := ok?_eq he'
    simp only [Hir.unionMemberSet] at he'
    obtain ⟨c, hc', he'⟩ := Res.bind_eq_ok.1 he'
    cases he'
    have := hc.det ((Hir.Canon.of_ok hc').member ((Hir.mem_btreeSet _ _).1 hu')).1
    subst this
    exact ht
  · exfalso
    have := hc.det (Hir.Canon.of_ok (n := 1) (c := .record r.1) rfl)
    subst this
    simp [boxed] at hb

theorem lookup_of_nodup {β : Type} {x : String} {b : β} : ∀ {xs : List (String × β)}, (xs.map (·.1)).Nodup → (x, b) ∈ xs →
    (xs.find? (·.1 == x)).map (·.2) = some b
  | [], _, h => by cases h
  | (y, c) :: ys, hn, h => by
    simp only [List.map_cons, List.nodup_cons] at hn
    rw [List.find?_cons]
    rcases List.mem_cons.1 h with h | h
    · cases h
      simp
    · have : y ≠ x := by
        rintro rfl
        exact hn.1 (List.mem_map.2 ⟨_, h, rfl⟩)
      rw [show (y == x) = false by simpa using this]
      exact lookup_of_nodup hn.2 h

theorem internal_names : internalTypes.map (·.1) = ["hir:error", informationRecord] := rfl

theorem internal_reserved {x : String} (h : x ∈ internalTypes.map (·.1)) : reserved x = true := by
  rw [internal_names] at h
  simp only [List.mem_cons, List.not_mem_nil, or_false] at h
  rcases h with rfl | rfl <;> decide

theorem types_nodup {vs ts : List Ty} {records : List (String × List Mir.Typed.Ty)} (hN : Nameable K X m)
    (hc : NoCollisions K.toConfig ts) (hv : variantTypes a n m = some vs) (ht : informationTypes a n m = some ts)
    (hr : m.types.records.mapM (recordType K a m.ctx) = some records) :
    ((records ++ genericTypes K vs ++ internalTypes).map (·.1)).Nodup := by
  have hrec : records.map (·.1) = m.types.records.map (·.1) := mapM_names (fun x y h => by
    obtain ⟨ts, _, rfl⟩ := Option.map_eq_some_iff.1 h
    rfl) hr
  have hgen : (genericTypes K vs).map (·.1) = (vs.dedup.filter boxed).map (typeName K.toConfig) := by
    simp [genericTypes]
  have hg : ∀ x ∈ (genericTypes K vs).map (·.1), reserved x = true ∧ x ≠ "hir:error" ∧ x ≠ informationRecord := by
    intro x hx
    rw [hgen] at hx
    obtain ⟨u, hu, rfl⟩ := List.mem_map.1 hx
    exact typeName_reserved (List.mem_filter.1 hu).2
  have hu : ∀ x ∈ records.map (·.1), reserved x = false := by
    intro x hx
    rw [hrec] at hx
    obtain ⟨r, hr, rfl⟩ := List.mem_map.1 hx
    exact hN.records r hr
  rw [List.map_append, List.map_append]
  refine List.nodup_append'.2 ⟨List.nodup_append'.2 ⟨hrec ▸ hN.recordNames, ?_, ?_⟩, by decide, ?_⟩
  · rw [hgen]
    refine List.Nodup.map_on ?_ (List.Nodup.filter _ (List.nodup_dedup _))
    intro u hu v hv' e
    obtain ⟨h1, h2⟩ := List.mem_filter.1 hu
    obtain ⟨h3, h4⟩ := List.mem_filter.1 hv'
    exact hc.names u (variant_mem hv ht (List.mem_dedup.1 h1) h2) v (variant_mem hv ht (List.mem_dedup.1 h3) h4) h2 h4 e
  · intro x h1 h2
    have := (hg x h2).1
    rw [hu x h1] at this
    cases this
  · intro x h1 h2
    rcases List.mem_append.1 h1 with h1 | h1
    · have := internal_reserved h2
      rw [hu x h1] at this
      cases this
    · rw [internal_names] at h2
      simp only [List.mem_cons, List.not_mem_nil, or_false] at h2
      rcases h2 with rfl | rfl
      · exact (hg _ h1).2.1 rfl
      · exact (hg _ h1).2.2 rfl

/-! ## Functions -/

/-- Names and types of functions that are declared or defined. -/
def sourceFunctions (ds : List TDeclaration) : List (String × Mir.Typed.Ty) := ds.map fun d => (d.name, .function d.args d.result)

def definedFunctions (ds : List TDefinition) : List (String × Mir.Typed.Ty) :=
  ds.map fun d => (d.name, .function (d.args.map (·.2)) d.result)

theorem information_functions {C : Ctx} {us : List Ty} {dss : List (List TDefinition)}
    (h : us.mapM (informationDefinitions K a C X) = some dss) :
    definedFunctions dss.flatten = us.flatMap fun u => informationFunctions (hirTypeId K.toConfig u) := by
  induction us generalizing dss with
  | nil =>
    simp only [List.mapM_nil, Option.pure_def, Option.some.injEq] at h
    subst h
    rfl
  | cons u us ih =>
    simp only [List.mapM_cons, Option.pure_def, Option.bind_eq_bind, Option.bind_eq_some_iff, Option.some.injEq] at h
    obtain ⟨ds, hds, dss, hdss, rfl⟩ := h
    simp only [List.flatten_cons, definedFunctions, List.map_append, List.flatMap_cons]
    rw [informationDefinitions_functions hds]
    congr 1
    exact ih hdss

theorem declared_functions (us : List Ty) :
    sourceFunctions (us.flatMap (informationDeclarations K)) = us.flatMap fun u => informationFunctions (hirTypeId K.toConfig u) := by
  induction us with
  | nil => rfl
  | cons u us ih =>
    simp only [List.flatMap_cons, sourceFunctions, List.map_append] at ih ⊢
    rw [informationDeclarations_functions, ih]

/-- Parts of a compiled module. -/
structure Parts (K : ReflectConfig) (X : Extras) (a n : Nat) (m : Module) where
  variants : List Ty
  types : List Ty
  records : List (String × List Mir.Typed.Ty)
  foreign : List TDeclaration
  declarations : List TDeclaration
  definitions : List TDefinition
  information : List (List TDefinition)
  variants_eq : variantTypes a n m = some variants
  types_eq : informationTypes a n m = some types
  records_eq : m.types.records.mapM (recordType K a m.ctx) = some records
  foreign_eq : (m.declarations.filter fun d => X.foreign d.1).mapM (compileDeclarationT K a m.ctx) = some foreign
  declarations_eq : (m.declarations.filter fun d => !X.foreign d.1).mapM (compileDeclarationT K a m.ctx) = some declarations
  definitions_eq : m.definitions.mapM (compileDefinitionT K.toTypedConfig a m.ctx n) = some definitions
  information_eq : (types.dedup.filter fun c => !X.externalType c).mapM (informationDefinitions K a m.ctx X) = some information

def Parts.module (P : Parts K X a n m) : TModule where
  types := P.records ++ genericTypes K P.variants ++ internalTypes
  foreignDeclarations := P.foreign ++ runtimeDeclarations K
  foreignDefinitions := X.exposed
  declarations := P.declarations ++ (P.types.dedup.filter X.externalType).flatMap (informationDeclarations K)
  definitions := P.definitions ++ (P.information.flatten ++ defaultDefinitions)
  information := P.types.dedup.map fun c => (concreteType K.toTypedConfig c, informationName (hirTypeId K.toConfig c))
  fallback := informationName "default"

theorem compileModuleT_parts {t : TModule} (h : compileModuleT K X a n m = some t) : ∃ P : Parts K X a n m, t = P.module := by
  simp only [compileModuleT, Option.bind_eq_bind, Option.bind_eq_some_iff, Option.some.injEq] at h
  obtain ⟨v, hv, ts, ht, r, hr, f, hf, d, hd, e, he, i, hi, rfl⟩ := h
  exact ⟨⟨v, ts, r, f, d, e, i, hv, ht, hr, hf, hd, he, hi⟩, rfl⟩

theorem Parts.functions_eq (P : Parts K X a n m) : (P.module.functions : List (String × Mir.Typed.Ty)) =
    (sourceFunctions P.foreign ++ sourceFunctions (runtimeDeclarations K)) ++
    (sourceFunctions P.declarations ++ (P.types.dedup.filter X.externalType).flatMap fun u => informationFunctions (hirTypeId K.toConfig u)) ++
    (definedFunctions P.definitions ++
      ((P.types.dedup.filter fun c => !X.externalType c).flatMap (fun u => informationFunctions (hirTypeId K.toConfig u)) ++
        informationFunctions "default")) := by
  rw [← information_functions P.information_eq, ← declared_functions]
  simp only [Mir.Typed.TModule.functions, Parts.module, sourceFunctions, definedFunctions, List.map_append]
  rw [defaultDefinitions_functions]

theorem declaration_name {d : String × (List Ty × Ty)} {e : TDeclaration} (h : compileDeclarationT K a m.ctx d = some e) : e.name = d.1 := by
  simp only [compileDeclarationT, Option.bind_eq_bind, Option.bind_eq_some_iff, Option.some.injEq] at h
  obtain ⟨_, _, _, _, rfl⟩ := h
  rfl

theorem definition_name {d : Definition} {e : TDefinition} (h : compileDefinitionT K.toTypedConfig a m.ctx n d = some e) :
    e.name = d.name := by
  simp only [compileDefinitionT, Option.bind_eq_bind, Option.bind_eq_some_iff, Option.some.injEq] at h
  obtain ⟨_, _, _, _, _, _, rfl⟩ := h
  rfl

/-- Names of functions are those of the source, those of the runtime, and those of type information. -/
theorem Parts.names_perm (P : Parts K X a n m) : ((P.module.functions : List (String × Mir.Typed.Ty)).map (fun p : String × Mir.Typed.Ty => p.1)).Perm
    (functionNames m ++ ["__debug", "__race", "__spawn"] ++
      (P.types.dedup.map (hirTypeId K.toConfig) ++ ["default"]).flatMap fun i => (informationFunctions i).map (·.1)) := by
  have h1 : (sourceFunctions P.foreign).map (·.1) = (m.declarations.filter fun d => X.foreign d.1).map (·.1) := by
    rw [sourceFunctions, List.map_map]
    exact mapM_names (fun _ _ h => declaration_name h) P.foreign_eq
  have h2 : (sourceFunctions P.declarations).map (·.1) = (m.declarations.filter fun d => !X.foreign d.1).map (·.1) := by
    rw [sourceFunctions, List.map_map]
    exact mapM_names (fun _ _ h => declaration_name h) P.declarations_eq
  have h3 : (definedFunctions P.definitions).map (·.1) = m.definitions.map (·.name) := by
    rw [definedFunctions, List.map_map]
    exact mapM_names (fun _ _ h => definition_name h) P.definitions_eq
  have h4 : (sourceFunctions (runtimeDeclarations K)).map (·.1) = ["__debug", "__race", "__spawn"] := rfl
  rw [P.functions_eq, List.perm_iff_count]
  intro x
  have h5 := ((List.filter_append_perm (fun d => X.foreign d.1) m.declarations).map (·.1)).count_eq x
  have h6 := ((List.filter_append_perm X.externalType P.types.dedup).flatMap_right fun u =>
    (informationFunctions (hirTypeId K.toConfig u)).map (·.1)).count_eq x
  simp only [List.map_append, List.flatMap_append, List.count_append, h1, h2, h3, h4, functionNames, List.map_flatMap,
    List.flatMap_map, List.flatMap_cons, List.flatMap_nil, List.append_nil] at h5 h6 ⊢
  omega

theorem Parts.names_nodup (P : Parts K X a n m) (hN : Nameable K X m) (hc : NoCollisions K.toConfig P.types) :
    (P.module.functions.map (·.1)).Nodup := by
  rw [P.names_perm.nodup_iff]
  refine List.nodup_append'.2 ⟨List.nodup_append'.2 ⟨hN.functionNames, by decide, ?_⟩, nodup_flatMap_ids ?_, ?_⟩
  · intro x h1 h2
    exact (hN.functions x h1).2.2 h2
  · refine List.nodup_append'.2 ⟨?_, by simp, ?_⟩
    · refine List.Nodup.map_on ?_ (List.nodup_dedup _)
      intro u hu v hv e
      exact hc.ids u (List.mem_dedup.1 hu) v (List.mem_dedup.1 hv) e
    · intro x h1 h2
      obtain ⟨u, hu, rfl⟩ := List.mem_map.1 h1
      exact hc.default u (List.mem_dedup.1 hu) (List.mem_singleton.1 h2)
  · intro x h1 h2
    obtain ⟨i, _, h2⟩ := List.mem_flatMap.1 h2
    have h2 := informationFunctions_reserved h2
    rcases List.mem_append.1 h1 with h1 | h1
    · rw [(hN.functions x h1).2.1] at h2
      cases h2
    · simp only [List.mem_cons, List.not_mem_nil, or_false] at h1
      rcases h1 with rfl | rfl | rfl <;> exact absurd h2 (by decide)

/-! ## Lookups -/

theorem Parts.information_scope (P : Parts K X a n m) {i : String} (hi : i ∈ P.types.map (hirTypeId K.toConfig) ++ ["default"]) :
    ∀ p ∈ informationFunctions i, p ∈ P.module.functions := by
  intro p hp
  rw [P.functions_eq]
  simp only [List.mem_append, List.mem_flatMap, List.mem_filter, List.mem_dedup, List.mem_map, List.mem_singleton] at hi ⊢
  rcases hi with ⟨u, hu, rfl⟩ | rfl
  · by_cases he : X.externalType u = true
    · exact .inl (.inr (.inr ⟨u, ⟨hu, he⟩, hp⟩))
    · exact .inr (.inr (.inl ⟨u, ⟨hu, by simpa using he⟩, hp⟩))
  · exact .inr (.inr (.inr hp))

theorem mapM_types {C : Ctx} {as : List Ty} {ts : List Mir.Typed.Ty} {cs : List Ty}
    (h : as.mapM (compileType K.toTypedConfig a C) = some ts) (hc : List.Forall₂ (Canon C.types) as cs) :
    ts = lowerTypeList K.toTypedConfig cs := by
  induction hc generalizing ts with
  | nil =>
    simp only [List.mapM_nil, Option.pure_def, Option.some.injEq] at h
    subst h
    rfl
  | cons h1 h2 ih =>
    simp only [List.mapM_cons, Option.pure_def, Option.bind_eq_bind, Option.bind_eq_some_iff, Option.some.injEq] at h
    obtain ⟨τ, hτ, us, hus, rfl⟩ := h
    rw [lowerTypeList, compileType_eq hτ h1, ih hus]

/-- Functions of the source have their types. -/
theorem Parts.source_scope (P : Parts K X a n m) {x : String} {t d : Ty} (hx : m.vars x = some t) (hd : Canon m.ctx.types t d) :
    (x, lowerType K.toTypedConfig d) ∈ P.module.functions := by
  rw [P.functions_eq]
  rcases List.mem_append.1 (Hir.lastLookup_some hx) with h | h
  · obtain ⟨f, hf, e⟩ := List.mem_map.1 h
    cases e
    obtain ⟨cs, r, rfl, h1, h2⟩ := Hir.canon_function_inv hd
    have key : ∀ e, compileDeclarationT K a m.ctx f = some e →
        (e.name, Mir.Typed.Ty.function e.args e.result) = (f.1, lowerType K.toTypedConfig (.function cs r)) := by
      intro e he
      simp only [compileDeclarationT, Option.bind_eq_bind, Option.bind_eq_some_iff, Option.some.injEq] at he
      obtain ⟨as, has, τ, hτ, rfl⟩ := he
      simp only [lowerType]
      rw [mapM_types has h1, compileType_eq hτ h2]
    by_cases hf' : X.foreign f.1 = true
    · obtain ⟨e, he, h3⟩ := mapM_target P.foreign_eq (List.mem_filter.2 ⟨hf, hf'⟩)
      refine List.mem_append_left _ (List.mem_append_left _ (List.mem_append_left _ (List.mem_map.2 ⟨e, he, key e h3⟩)))
    · obtain ⟨e, he, h3⟩ := mapM_target P.declarations_eq (List.mem_filter.2 ⟨hf, by simpa using hf'⟩)
      refine List.mem_append_left _ (List.mem_append_right _ (List.mem_append_left _ (List.mem_map.2 ⟨e, he, key e h3⟩)))
  · obtain ⟨f, hf, e⟩ := List.mem_map.1 h
    cases e
    obtain ⟨cs, r, rfl, h1, h2⟩ := Hir.canon_function_inv hd
    obtain ⟨e, he, h3⟩ := mapM_target P.definitions_eq hf
    refine List.mem_append_right _ (List.mem_append_left _ (List.mem_map.2 ⟨e, he, ?_⟩))
    simp only [compileDefinitionT, Option.bind_eq_bind, Option.bind_eq_some_iff, Option.some.injEq] at h3
    obtain ⟨b, _, τ, hτ, ps, hps, rfl⟩ := h3
    simp only [lowerType]
    rw [parameters_types hps h1, compileType_eq hτ h2]

/-- Names a prelude function has are those of a function of the source. -/
theorem prelude_vars (hN : Nameable K X m) {p : String × (List Ty × Ty)} (hp : p ∈ preludeFunctions K) :
    m.vars p.1 = some (.function p.2.1 p.2.2) := by
  refine Hir.lastLookup_of_nodup ?_ (List.mem_append_left _ (List.mem_map.2 ⟨p, hN.imports p hp, rfl⟩))
  rw [List.map_append, List.map_map, List.map_map]
  exact hN.functionNames

theorem prelude_name (hN : Nameable K X m) {p : String × (List Ty × Ty)} (hp : p ∈ preludeFunctions K) :
    internal p.1 = false ∧ reserved p.1 = false := by
  have := hN.functions p.1 (List.mem_append_left _ (List.mem_map.2 ⟨p, hN.imports p hp, rfl⟩))
  exact ⟨this.1, this.2.1⟩

theorem needed_cases {q : String × Mir.Typed.Ty} (hq : q ∈ needed K) :
    (∃ p ∈ preludeFunctions K, ∀ A : Hir.Aliases, ∃ d, Canon A (.function p.2.1 p.2.2) d ∧ q = (p.1, lowerType K.toTypedConfig d)) ∨
      q = (informationName "default", .function [] (.record informationRecord)) := by
  have hany : ∀ A, Canon A .any .any := fun A => .of_ok (n := 1) rfl
  have hstring : ∀ A, Canon A .string .string := fun A => .of_ok (n := 1) rfl
  have hnumber : ∀ A, Canon A .number .number := fun A => .of_ok (n := 1) rfl
  have hboolean : ∀ A, Canon A .boolean .boolean := fun A => .of_ok (n := 1) rfl
  have hrecord : ∀ A n, Canon A (.record n) (.record n) := fun A n => .of_ok (n := 1) rfl
  have hresult : ∃ l r, ∀ A, Canon A (.union .boolean .none) (.union l r) := ⟨_, _, fun A => .of_ok (n := 5) rfl⟩
  obtain ⟨l, r, hresult⟩ := hresult
  simp only [needed, List.mem_cons, List.not_mem_nil, or_false] at hq
  rcases hq with rfl | rfl | rfl | rfl | rfl | rfl | rfl
  · exact .inl ⟨(K.stringEqual, [.string, .string], .boolean), by simp [preludeFunctions], fun A =>
      ⟨_, .function (.cons (hstring A) (.cons (hstring A) .nil)) (hboolean A), by simp [lowerType, lowerTypeList]⟩⟩
  · exact .inl ⟨(K.numberDebug, [.number], .string), by simp [preludeFunctions], fun A =>
      ⟨_, .function (.cons (hnumber A) .nil) (hstring A), by simp [lowerType, lowerTypeList]⟩⟩
  · exact .inl ⟨(K.listDebug, [.string, .record K.listType, .function [.any] .string], .string), by simp [preludeFunctions], fun A =>
      ⟨_, .function (.cons (hstring A) (.cons (hrecord A _) (.cons (.function (.cons (hany A) .nil) (hstring A)) .nil))) (hstring A),
        by simp [lowerType, lowerTypeList, debugType]⟩⟩
  · exact .inl ⟨(K.mapDebug, [.string, .string, .record K.mapType, .function [.any] .string], .string), by simp [preludeFunctions], fun A =>
      ⟨_, .function (.cons (hstring A) (.cons (hstring A) (.cons (hrecord A _) (.cons (.function (.cons (hany A) .nil) (hstring A)) .nil))))
        (hstring A), by simp [lowerType, lowerTypeList, debugType]⟩⟩
  · exact .inl ⟨(K.listEqual, [.function [.any, .any] (.union .boolean .none), .record K.listType, .record K.listType],
      .union .boolean .none), by simp [preludeFunctions], fun A =>
      ⟨_, .function (.cons (.function (.cons (hany A) (.cons (hany A) .nil)) (hresult A)) (.cons (hrecord A _) (.cons (hrecord A _) .nil)))
        (hresult A), by simp [lowerType, lowerTypeList, equalType]⟩⟩
  · exact .inl ⟨(K.mapEqual, [.function [.any, .any] (.union .boolean .none), .record K.mapType, .record K.mapType],
      .union .boolean .none), by simp [preludeFunctions], fun A =>
      ⟨_, .function (.cons (.function (.cons (hany A) (.cons (hany A) .nil)) (hresult A)) (.cons (hrecord A _) (.cons (hrecord A _) .nil)))
        (hresult A), by simp [lowerType, lowerTypeList, equalType]⟩⟩
  · exact .inr rfl

theorem informationName_plain (i : String) : localName (informationName i) = false := by
  have h := informationName_toList i
  simp only [localName, internal, Bool.or_eq_false_iff, beq_eq_false_iff_ne, ne_eq]
  refine ⟨⟨⟨?_, ?_⟩, ?_⟩, ?_⟩
  · intro e; rw [e] at h; simp at h
  · rw [h]; simp
  · intro e; rw [e] at h; simp at h
  · intro e; rw [e] at h; simp at h

theorem needed_names (hN : Nameable K X m) : ∀ p ∈ needed K, localName p.1 = false := by
  intro q hq
  rcases needed_cases hq with ⟨p, hp, h⟩ | rfl
  · obtain ⟨d, _, rfl⟩ := h fun _ => none
    obtain ⟨h1, h2⟩ := prelude_name hN hp
    simp only [localName, h1, Bool.false_or, Bool.or_eq_false_iff, beq_eq_false_iff_ne, ne_eq]
    constructor <;> intro e <;> rw [e] at h2 <;> exact absurd h2 (by decide)
  · exact informationName_plain _

section
variable (P : Parts K X a n m) (hN : Nameable K X m) (hc : NoCollisions K.toConfig P.types)
include hN hc

theorem Parts.ready : Ready K P.module.scope := by
  intro q hq
  rw [Mir.Typed.scope_iff (P.names_nodup hN hc)]
  rcases needed_cases hq with ⟨p, hp, h⟩ | rfl
  · obtain ⟨d, hd, rfl⟩ := h m.ctx.types
    exact P.source_scope (prelude_vars hN hp) hd
  · exact P.information_scope (i := "default") (by simp) _ (by simp [informationFunctions])

theorem Parts.agrees : Agrees K.toTypedConfig m.ctx m.vars P.module.scope where
  vars x t d hx hd := (Mir.Typed.scope_iff (P.names_nodup hN hc) _ _).2 (P.source_scope hx hd)
  hidden x hx := by
    cases h : m.vars x with
    | none => rfl
    | some t =>
      exfalso
      have : x ∈ functionNames m := by
        have := Hir.lastLookup_some h
        rcases List.mem_append.1 this with h | h
        · obtain ⟨f, hf, e⟩ := List.mem_map.1 h
          cases e
          exact List.mem_append_left _ (List.mem_map.2 ⟨f, hf, rfl⟩)
        · obtain ⟨f, hf, e⟩ := List.mem_map.1 h
          cases e
          exact List.mem_append_right _ (List.mem_map.2 ⟨f, hf, rfl⟩)
      rw [(hN.functions x this).1] at hx
      cases hx
  stringEqual := P.ready hN hc (K.stringEqual, _) (by simp [needed])

theorem Parts.type_eq {x : String} {ts : List Mir.Typed.Ty} (h : (x, ts) ∈ P.module.types) : P.module.context.types x = some ts :=
  lookup_of_nodup (types_nodup hN hc P.variants_eq P.types_eq P.records_eq) h

theorem Parts.generic_eq {u : Ty} (h : u ∈ P.variants) (hb : boxed u = true) :
    P.module.context.types (typeName K.toConfig u) = some [lowerType K.toTypedConfig u] := by
  refine P.type_eq hN hc (List.mem_append_left _ (List.mem_append_right _ (List.mem_map.2 ⟨u, ?_, rfl⟩)))
  exact List.mem_filter.2 ⟨List.mem_dedup.2 h, hb⟩

theorem Parts.knows : Knows K m.ctx P.module.context where
  types := {
    records := by
      intro r fs h
      have h := Hir.lastLookup_some h
      obtain ⟨e, he, h1⟩ := mapM_target P.records_eq h
      obtain ⟨ts, hts, rfl⟩ := Option.map_eq_some_iff.1 h1
      refine ⟨ts, P.type_eq hN hc (List.mem_append_left _ (List.mem_append_left _ he)), ?_⟩
      refine (mapM_pairs hts).imp fun f τ h => ?_
      obtain ⟨d, hd, rfl⟩ := Option.map_eq_some_iff.1 h
      exact ⟨d, Hir.Canon.of_ok (ok?_eq hd), rfl⟩
    error := P.type_eq hN hc (List.mem_append_right _ (by simp [internalTypes])) }
  information := P.type_eq hN hc (List.mem_append_right _ (by simp [internalTypes]))
  fallback := rfl
  fields := by
    intro r fs h f hf u hu hb
    exact P.generic_eq hN hc ((variantTypes_mem P.variants_eq).2 _ (Hir.lastLookup_some h) f hf u hu hb) hb

/-- Lowered modules have types. -/
theorem Parts.wellTyped (hm : Hir.ModuleOk m) : Mir.Typed.WellTyped P.module where
  typeNames := types_nodup hN hc P.variants_eq P.types_eq P.records_eq
  functionNames := P.names_nodup hN hc
  bodies := by
    intro d hd
    have hK := needed_names hN
    have hscope := Mir.Typed.scope_iff (P.names_nodup hN hc)
    have hfun : ∀ i ∈ P.types.map (hirTypeId K.toConfig) ++ ["default"],
        P.module.scope (debugName i) = some debugType ∧ P.module.scope (equalName i) = some equalType := fun i hi =>
      ⟨(hscope _ _).2 (P.information_scope hi _ (by simp [informationFunctions])),
        (hscope _ _).2 (P.information_scope hi _ (by simp [informationFunctions]))⟩
    simp only [Parts.module, List.mem_append] at hd
    rcases hd with hd | hd | hd
    · obtain ⟨f, hf, h⟩ := mapM_source P.definitions_eq hd
      simp only [compileDefinitionT, Option.bind_eq_bind, Option.bind_eq_some_iff, Option.some.injEq] at h
      obtain ⟨b, hb, τ, hτ, ps, hps, rfl⟩ := h
      obtain ⟨as, c, h1, h2⟩ := hm f hf
      obtain ⟨as', c', e, h3, h4⟩ := Hir.canon_function_inv h1
      cases e
      rw [compileType_eq hτ h4]
      obtain ⟨hs, hp⟩ := hN.sources f hf
      refine compileT_typed (P.knows hN hc).types ?_ (prelude_name hN (p := (K.stringEqual, [.string, .string], .boolean)) (by simp [preludeFunctions])).1 n hb h2 ?_ hs
        (parameters_typed hps hp (P.agrees hN hc)) ?_
      · intro r fs h
        exact hN.fields _ (Hir.lastLookup_some h)
      · intro x hx t ht u hu hb
        exact P.generic_eq hN hc ((variantTypes_mem P.variants_eq).1 f hf x hx t ht u hu hb) hb
      · intro r hr
        cases hr
        rfl
    · obtain ⟨ds, hds, hd⟩ := List.mem_flatten.1 hd
      obtain ⟨u, hu, h⟩ := mapM_source P.information_eq hds
      have hu : u ∈ P.types := List.mem_dedup.1 (List.mem_filter.1 hu).1
      obtain ⟨h1, h2⟩ := hfun (hirTypeId K.toConfig u) (List.mem_append_left _ (List.mem_map.2 ⟨u, hu, rfl⟩))
      exact informationDefinitions_typed hK (P.knows hN hc) (P.ready hN hc) h (informationTypes_concrete P.types_eq hu)
        (fun hb => P.generic_eq hN hc (informationTypes_boxed P.variants_eq P.types_eq hu hb) hb) h1 h2 d hd
    · obtain ⟨h1, h2⟩ := hfun "default" (by simp)
      exact defaultDefinitions_typed (P.knows hN hc) h1 h2 d hd
  exposed := by
    intro x hx
    have := hN.exposed x hx
    have h := P.names_perm.mem_iff (a := x)
    obtain ⟨p, hp, rfl⟩ := List.mem_map.1 (h.2 (List.mem_append_left _ (List.mem_append_left _ this)))
    exact ⟨p.2, hp⟩
  information := by
    refine ⟨.function [] (.record informationRecord), P.information_scope (i := "default") (by simp) _
      (by simp [informationFunctions, Parts.module]), ?_⟩
    intro x hx
    obtain ⟨u, hu, rfl⟩ := List.mem_map.1 hx
    exact P.information_scope (i := hirTypeId K.toConfig u) (List.mem_append_left _ (List.mem_map.2 ⟨u, List.mem_dedup.1 hu, rfl⟩)) _
      (by simp [informationFunctions])

end

end

end Verif.Lower
