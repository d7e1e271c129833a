import Verif.Names.Whole

/-! # The whole module after all passes -/

namespace Verif.Names

open Verif.Hir

theorem mem_uniqueTypes {α : Type} {name : α → String} {isPublic : α → Bool} {xs : List α} {x : α}
    (h : x ∈ uniqueTypes name isPublic xs) : x ∈ xs := by
  simp only [uniqueTypes, List.mem_filterMap, Option.or_eq_some_iff] at h
  obtain ⟨n, -, h | ⟨-, h⟩⟩ := h
  · exact List.mem_of_find?_eq_some h
  · exact List.mem_of_find?_eq_some h

/-- The table of `function_definition_qualifier`. -/
def ownNames (pre : String) (m : Module) (x : String) : Option String :=
  if x ∈ m.definitions.map (·.name) ++ m.foreigns.map (·.name) then some (pre ++ x) else none

/-- The table of `type_qualifier`. -/
def ownTypes (pre : String) (m : Module) (x : String) : Option String :=
  if x ∈ m.types.map (·.name) ++ m.aliases.map (·.name) then some (pre ++ x) else none

theorem lastLookup_prefix2 {α β : Type} (pre : String) (f : α → String) (g : β → String) (xs : List α)
    (ys : List β) (x : String) :
    lastLookup (xs.map (fun a => (f a, pre ++ f a)) ++ ys.map (fun b => (g b, pre ++ g b))) x
      = if x ∈ xs.map f ++ ys.map g then some (pre ++ x) else none := by
  rw [← lastLookup_prefix]
  simp [Function.comp_def]

/-- The imported type definitions. -/
def importedTypes (interfaces : List Interface) : List TypeDefinition :=
  uniqueTypes (·.name) (·.isPublic) (interfaces.flatMap fun i => i.types.map fun t =>
    ({ name := t.name, original := t.original, fields := t.fields, isOpen := t.isOpen
       isPublic := t.isPublic, external := true } : TypeDefinition))

/-- The imported type aliases. -/
def importedAliases (interfaces : List Interface) : List TypeAlias :=
  uniqueTypes (·.name) (·.isPublic) (interfaces.flatMap fun i => i.aliases.map fun a =>
    ({ name := a.name, original := a.original, type := a.type
       isPublic := a.isPublic, external := true } : TypeAlias))

theorem importedTypes_external {is : List Interface} {t : TypeDefinition} (h : t ∈ importedTypes is) :
    t.external = true ∧ ∃ i ∈ is, ∃ u ∈ i.types, t.name = u.name := by
  have := mem_uniqueTypes h
  simp only [List.mem_flatMap, List.mem_map] at this
  obtain ⟨i, hi, u, hu, rfl⟩ := this
  exact ⟨rfl, i, hi, u, hu, rfl⟩

theorem importedAliases_external {is : List Interface} {t : TypeAlias} (h : t ∈ importedAliases is) :
    t.external = true ∧ ∃ i ∈ is, ∃ u ∈ i.aliases, t.name = u.name := by
  have := mem_uniqueTypes h
  simp only [List.mem_flatMap, List.mem_map] at this
  obtain ⟨i, hi, u, hu, rfl⟩ := this
  exact ⟨rfl, i, hi, u, hu, rfl⟩

/-- The names of all types of the module in the end. -/
def allTypes (pre : String) (m : Module) (is : List Interface) : List String :=
  ((importedTypes is).map (·.name) ++ m.types.map (fun t => pre ++ t.name))
    ++ ((importedAliases is).map (·.name) ++ m.aliases.map (fun a => pre ++ a.name))

/-- The three transformations of types. -/
def type1 (m : Module) (imports : List Import) : Ty → Ty := mapType (renameType (typeNames imports m))
/-- The second one. -/
def type2 (pre : String) (m : Module) : Ty → Ty := mapType (renameType (ownTypes pre m))
/-- The third one. -/
def type3 (pre : String) (m : Module) (is : List Interface) : Ty → Ty := mapType (builtInType (allTypes pre m is))

/-- A body after all passes. -/
def bodyOf (D : Nat) (pre : String) (m : Module) (imports : List Import) (is : List Interface)
    (ps : List String) (e : Expr) : Expr :=
  mapVariables D (hide ps builtInVariable)
    (mapTypes (type3 pre m is) D
      (mapTypes (type2 pre m) D
        (mapVariables D (hide ps (renamed (ownNames pre m)))
          (mapVariables D (hide ps (renamed (variableNames imports m)))
            (mapTypes (type1 m imports) D e)))))

/-- The module after all passes. -/
def target (D : Nat) (pre : String) (m : Module) (imports : List Import) (is : List Interface) : Module :=
  let T := fun t => type3 pre m is (type2 pre m (type1 m imports t))
  { types := importedTypes is
      ++ m.types.map fun t => { t with name := pre ++ t.name, fields := t.fields.map fun x => { x with type := T x.type } }
    aliases := importedAliases is ++ m.aliases.map fun a => { a with name := pre ++ a.name, type := T a.type }
    foreigns := m.foreigns.map fun f => { f with name := pre ++ f.name, type := T f.type }
    declarations := uniqueNames (·.name) (is.flatMap fun i => i.functions.map fun f =>
        ({ name := f.name, type := f.type } : FunctionDeclaration)) ++ m.declarations
    definitions := m.definitions.map fun f =>
      { f with
        name := pre ++ f.name
        params := f.params.map fun p => (p.1, T p.2)
        result := T f.result
        body := bodyOf D pre m imports is (f.params.map (·.1)) f.body } }

/-- The module after the imports. -/
def imported (D : Nat) (m : Module) (imports : List Import) (is : List Interface) : Module :=
  { types := importedTypes is ++ m.types.map fun t =>
      { t with fields := t.fields.map fun x => { x with type := type1 m imports x.type } }
    aliases := importedAliases is ++ m.aliases.map fun a => { a with type := type1 m imports a.type }
    foreigns := m.foreigns.map fun f => { f with type := type1 m imports f.type }
    declarations := uniqueNames (·.name) (is.flatMap fun i => i.functions.map fun f =>
        ({ name := f.name, type := f.type } : FunctionDeclaration)) ++ m.declarations
    definitions := m.definitions.map fun f =>
      { f with
        params := f.params.map fun p => (p.1, type1 m imports p.2)
        result := type1 m imports f.result
        body := mapVariables D (hide (f.params.map (·.1)) (renamed (variableNames imports m)))
          (mapTypes (type1 m imports) D f.body) } }

theorem compileImported_eq (D : Nat) (m : Module) (imports : List Import) (preludes : List Interface)
    (hw : Written m) :
    compileImported D m imports preludes = imported D m imports (imports.map (·.interface) ++ preludes) := by
  simp only [compileImported, compileImports, imported, Module.mapVariables, Module.mapTypes, Module.mk.injEq]
  refine ⟨?_, ?_, ?_, ?_, ?_⟩
  · refine congrArg _ (List.map_congr_left fun t ht => ?_)
    simp [(hw.types t ht).2.2, type1]
  · refine congrArg _ (List.map_congr_left fun t ht => ?_)
    simp [(hw.aliases t ht).2.2, type1]
  · rfl
  · trivial
  · rw [List.map_map]
    refine List.map_congr_left fun f _ => ?_
    have : variableNames imports { m.mapTypes D (renameType (typeNames imports m)) with }
        = variableNames imports m := by
      funext x
      rw [variableNames_eq, variableNames_eq]
      simp [Module.mapTypes, Function.comp_def]
    simp only [Function.comp_def, FunctionDefinition.mk.injEq, true_and, List.map_map, and_true]
    refine ⟨rfl, rfl, ?_⟩
    rw [← this]
    rfl

theorem full_not_plain {x : String} (h : Full x) : ¬ Plain x := fun h' => h' h

theorem transformModule_eq (D : Nat) (pre : String) (m : Module) (imports : List Import) (is : List Interface)
    (hw : Written m) (hi : ∀ i ∈ is, i.Compiled) :
    transformModule D pre (imported D m imports is) = target D pre m imports is := by
  -- the first table
  have h4 : lastLookup ((imported D m imports is).foreigns.map (fun f => (f.name, pre ++ f.name))
      ++ (imported D m imports is).definitions.map (fun f => (f.name, pre ++ f.name))) = ownNames pre m := by
    funext x
    rw [lastLookup_prefix2 pre (fun f : ForeignDeclaration => f.name) (fun f : FunctionDefinition => f.name)]
    simp only [imported, ownNames, List.map_map, Function.comp_def, List.mem_append, or_comm]
  have e4 : ∀ n ∈ m.definitions.map (·.name) ++ m.foreigns.map (·.name), (ownNames pre m n).getD n = pre ++ n := by
    intro n hn; simp only [ownNames, hn, if_true, Option.getD_some]
  have q4 : qualifyFunctions D pre (imported D m imports is)
      = { imported D m imports is with
          foreigns := m.foreigns.map fun f => { f with name := pre ++ f.name, type := type1 m imports f.type }
          definitions := m.definitions.map fun f =>
            { f with
              name := pre ++ f.name
              params := f.params.map fun p => (p.1, type1 m imports p.2)
              result := type1 m imports f.result
              body := mapVariables D (hide (f.params.map (·.1)) (renamed (ownNames pre m)))
                (mapVariables D (hide (f.params.map (·.1)) (renamed (variableNames imports m)))
                  (mapTypes (type1 m imports) D f.body)) } } := by
    simp only [qualifyFunctions, h4, Module.mapVariables, Module.mk.injEq, true_and]
    constructor
    · simp only [imported, List.map_map]
      refine List.map_congr_left fun f hf => ?_
      simp only [Function.comp_def, ForeignDeclaration.mk.injEq, and_self, and_true]
      exact e4 f.name (by simp only [List.mem_append, List.mem_map]; exact Or.inr ⟨f, hf, rfl⟩)
    · simp only [imported, List.map_map]
      refine List.map_congr_left fun f hf => ?_
      simp only [Function.comp_def, FunctionDefinition.mk.injEq, List.map_map, and_self, and_true]
      exact e4 f.name (by simp only [List.mem_append, List.mem_map]; exact Or.inl ⟨f, hf, rfl⟩)
  -- the second table
  have h5 : lastLookup
      ((((imported D m imports is).types.filter fun t => !t.external).map fun t => (t.name, pre ++ t.name))
        ++ (((imported D m imports is).aliases.filter fun a => !a.external).map fun a => (a.name, pre ++ a.name)))
      = ownTypes pre m := by
    funext x
    rw [lastLookup_prefix2 pre (fun t : TypeDefinition => t.name) (fun a : TypeAlias => a.name)]
    have e1 : ((imported D m imports is).types.filter fun t => !t.external).map (·.name) = m.types.map (·.name) := by
      simp only [imported, List.filter_append]
      rw [show (importedTypes is).filter (fun t => !t.external) = [] by
        simp only [List.filter_eq_nil_iff]; intro t ht; simp [(importedTypes_external ht).1]]
      rw [List.nil_append, List.filter_eq_self.2, List.map_map]
      · rfl
      · simp only [List.mem_map]; rintro t ⟨u, hu, rfl⟩; simp [(hw.types u hu).2.2]
    have e2 : ((imported D m imports is).aliases.filter fun t => !t.external).map (·.name) = m.aliases.map (·.name) := by
      simp only [imported, List.filter_append]
      rw [show (importedAliases is).filter (fun t => !t.external) = [] by
        simp only [List.filter_eq_nil_iff]; intro t ht; simp [(importedAliases_external ht).1]]
      rw [List.nil_append, List.filter_eq_self.2, List.map_map]
      · rfl
      · simp only [List.mem_map]; rintro t ⟨u, hu, rfl⟩; simp [(hw.aliases u hu).2.2]
    rw [e1, e2]; rfl
  have e5 : ∀ n ∈ m.types.map (·.name) ++ m.aliases.map (·.name), (ownTypes pre m n).getD n = pre ++ n := by
    intro n hn; simp only [ownTypes, hn, if_true, Option.getD_some]
  have f5 : ∀ n, Full n → (ownTypes pre m n).getD n = n := by
    intro n hn
    have : n ∉ m.types.map (·.name) ++ m.aliases.map (·.name) := by
      simp only [List.mem_append, List.mem_map, not_or, not_exists, not_and]
      exact ⟨fun t ht e => full_not_plain hn (e ▸ (hw.types t ht).2.1),
        fun t ht e => full_not_plain hn (e ▸ (hw.aliases t ht).2.1)⟩
    simp only [ownTypes, this, if_false, Option.getD_none]
  have q5 : qualifyTypes D pre (qualifyFunctions D pre (imported D m imports is))
      = { types := importedTypes is ++ m.types.map fun t =>
            { t with name := pre ++ t.name, fields := t.fields.map fun x =>
                { x with type := type2 pre m (type1 m imports x.type) } }
          aliases := importedAliases is ++ m.aliases.map fun a =>
            { a with name := pre ++ a.name, type := type2 pre m (type1 m imports a.type) }
          foreigns := m.foreigns.map fun f =>
            { f with name := pre ++ f.name, type := type2 pre m (type1 m imports f.type) }
          declarations := (imported D m imports is).declarations
          definitions := m.definitions.map fun f =>
            { f with
              name := pre ++ f.name
              params := f.params.map fun p => (p.1, type2 pre m (type1 m imports p.2))
              result := type2 pre m (type1 m imports f.result)
              body := mapTypes (type2 pre m) D (mapVariables D (hide (f.params.map (·.1)) (renamed (ownNames pre m)))
                (mapVariables D (hide (f.params.map (·.1)) (renamed (variableNames imports m)))
                  (mapTypes (type1 m imports) D f.body))) } } := by
    simp only [qualifyTypes, q4, h5, Module.mapTypes, Module.mk.injEq, true_and]
    refine ⟨?_, ?_, ?_, ?_⟩
    · simp only [imported, List.map_append, List.map_map]
      congr 1
      · conv => rhs; rw [← List.map_id (importedTypes is)]
        refine List.map_congr_left fun t ht => ?_
        obtain ⟨h1, i, hi', u, hu, h2⟩ := importedTypes_external ht
        simp only [Function.comp_def, h1, if_true, f5 t.name (h2 ▸ (hi i hi').types u hu), id]
        rw [← h1]
      · refine List.map_congr_left fun t ht => ?_
        simp only [Function.comp_def, (hw.types t ht).2.2, List.map_map, Bool.false_eq_true, if_false,
          TypeDefinition.mk.injEq, true_and, and_true]
        exact ⟨e5 t.name (by simp only [List.mem_append, List.mem_map]; exact Or.inl ⟨t, ht, rfl⟩), rfl⟩
    · simp only [imported, List.map_append, List.map_map]
      congr 1
      · conv => rhs; rw [← List.map_id (importedAliases is)]
        refine List.map_congr_left fun t ht => ?_
        obtain ⟨h1, i, hi', u, hu, h2⟩ := importedAliases_external ht
        simp only [Function.comp_def, h1, if_true, f5 t.name (h2 ▸ (hi i hi').aliases u hu), id]
        rw [← h1]
      · refine List.map_congr_left fun t ht => ?_
        simp only [Function.comp_def, (hw.aliases t ht).2.2, Bool.false_eq_true, if_false,
          TypeAlias.mk.injEq, true_and, and_true]
        exact ⟨e5 t.name (by simp only [List.mem_append, List.mem_map]; exact Or.inr ⟨t, ht, rfl⟩), rfl⟩
    · simp only [List.map_map]; rfl
    · simp only [List.map_map, Function.comp_def]; rfl
  simp only [transformModule, q5, builtInTypes, Module.mapTypes, Module.mapVariables, target, Module.mk.injEq]
  have h6 : ((importedTypes is ++ m.types.map fun t : TypeDefinition => ({ t with
                name := pre ++ t.name
                fields := t.fields.map fun x => { x with type := type2 pre m (type1 m imports x.type) }
              } : TypeDefinition)).map TypeDefinition.name)
        ++ ((importedAliases is ++ m.aliases.map fun a : TypeAlias => ({ a with
                name := pre ++ a.name
                type := type2 pre m (type1 m imports a.type) } : TypeAlias)).map TypeAlias.name)
        = allTypes pre m is := by
    simp [allTypes, Function.comp_def]
  simp only [h6]
  refine ⟨?_, ?_, ?_, ?_, ?_⟩
  · simp only [List.map_append, List.map_map]
    congr 1
    · conv => rhs; rw [← List.map_id (importedTypes is)]
      refine List.map_congr_left fun t ht => ?_
      simp only [(importedTypes_external ht).1, if_true, id]
    · refine List.map_congr_left fun t ht => ?_
      simp only [Function.comp_def, (hw.types t ht).2.2, List.map_map, Bool.false_eq_true, if_false]
      rfl
  · simp only [List.map_append, List.map_map]
    congr 1
    · conv => rhs; rw [← List.map_id (importedAliases is)]
      refine List.map_congr_left fun t ht => ?_
      simp only [(importedAliases_external ht).1, if_true, id]
    · refine List.map_congr_left fun t ht => ?_
      simp only [Function.comp_def, (hw.aliases t ht).2.2, Bool.false_eq_true, if_false]
      rfl
  · simp only [List.map_map]; rfl
  · rfl
  · simp only [List.map_map, Function.comp_def, bodyOf, type3]

end Verif.Names
