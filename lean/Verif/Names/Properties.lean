import Verif.Names.Meaning

/-!
# C53: what the names of a module mean

The specification is in `Specification.lean`: `outline` (an expression up to the spelling of local variables),
`Outline.resolve`, `meaning` and `typeMeaning`.
-/

namespace Verif.Names

open Verif.Hir

/-- A module that passes name resolution is the one `target` describes. -/
theorem compile_target {D : Nat} {pre : String} {m : Module} {imports : List Import} {preludes : List Interface}
    {m' : Module} (hw : Written m) (hi : ∀ i ∈ imports.map (·.interface) ++ preludes, i.Compiled)
    (h : compile D pre m imports preludes = some m') :
    m' = target D pre m imports (imports.map (·.interface) ++ preludes) := by
  unfold compile at h
  split at h
  · cases h
    rw [compileImported_eq D m imports preludes hw]
    exact transformModule_eq D pre m imports _ hw hi
  · cases h

theorem imports_compiled {imports : List Import} {preludes : List Interface}
    (hi : ∀ i ∈ imports.map (·.interface) ++ preludes, i.Compiled) : ∀ i ∈ imports, i.interface.Compiled :=
  fun i h => hi _ (List.mem_append_left _ (List.mem_map_of_mem h))

/-- **C53, functions.** Every function keeps its meaning: under its full name it has the same body up to the
spelling of local variables, where a local variable still refers to the same binder, and every other name
and every type has been replaced by what it means in the module. -/
theorem c53_functions (D : Nat) (pre : String) (m m' : Module) (imports : List Import)
    (preludes : List Interface) (hw : Written m) (hp : Full pre)
    (hi : ∀ i ∈ imports.map (·.interface) ++ preludes, i.Compiled)
    (h : compile D pre m imports preludes = some m') :
    List.Forall₂ (fun f f' : FunctionDefinition =>
      f'.name = pre ++ f.name ∧ f'.original = f.name ∧ f'.isPublic = f.isPublic
        ∧ f'.params = f.params.map (fun p => (p.1, typeMeaning pre m imports p.2))
        ∧ f'.result = typeMeaning pre m imports f.result
        ∧ ∀ d, d ≤ D → outline d (f.params.map (·.1)).reverse f'.body
            = (outline d (f.params.map (·.1)).reverse f.body).resolve (meaning pre m imports)
                (typeMeaning pre m imports))
      m.definitions m'.definitions := by
  cases compile_target hw hi h
  simp only [target]
  rw [List.forall₂_map_right_iff, List.forall₂_same]
  intro f hf
  have ht := type_eq pre m imports _ hw hp (imports_compiled hi) hi
  refine ⟨rfl, (hw.definitions f hf).1, rfl, ?_, ht _, ?_⟩
  · exact List.map_congr_left fun p _ => by rw [ht]
  · intro d hd
    exact outline_bodyOf D pre m imports _ hw hp (imports_compiled hi) hi f hf d hd

/-- **C53, types.** The module's own types, aliases and foreign functions keep their meaning under their full
names; all other types are external. -/
theorem c53_types (D : Nat) (pre : String) (m m' : Module) (imports : List Import)
    (preludes : List Interface) (hw : Written m) (hp : Full pre)
    (hi : ∀ i ∈ imports.map (·.interface) ++ preludes, i.Compiled)
    (h : compile D pre m imports preludes = some m') :
    List.Forall₂ (fun t t' : TypeDefinition =>
        t'.name = pre ++ t.name ∧ t'.original = t.name ∧ t'.isPublic = t.isPublic ∧ t'.isOpen = t.isOpen
          ∧ t'.fields = t.fields.map fun x => ⟨x.name, typeMeaning pre m imports x.type⟩)
        m.types (m'.types.filter fun t => !t.external)
      ∧ List.Forall₂ (fun a a' : TypeAlias =>
        a'.name = pre ++ a.name ∧ a'.original = a.name ∧ a'.isPublic = a.isPublic
          ∧ a'.type = typeMeaning pre m imports a.type)
        m.aliases (m'.aliases.filter fun a => !a.external)
      ∧ List.Forall₂ (fun f f' : ForeignDeclaration =>
        f'.name = pre ++ f.name ∧ f'.foreign = f.foreign ∧ f'.type = typeMeaning pre m imports f.type)
        m.foreigns m'.foreigns := by
  cases compile_target hw hi h
  have ht := type_eq pre m imports _ hw hp (imports_compiled hi) hi
  simp only [target]
  refine ⟨?_, ?_, ?_⟩
  · rw [List.filter_append, show (importedTypes _).filter (fun t => !t.external) = [] by
      simp only [List.filter_eq_nil_iff]; intro t ht; simp [(importedTypes_external ht).1],
      List.nil_append, List.filter_eq_self.2, List.forall₂_map_right_iff, List.forall₂_same]
    · intro t ht'
      refine ⟨rfl, (hw.types t ht').1, rfl, rfl, ?_⟩
      exact List.map_congr_left fun x _ => by rw [ht]
    · simp only [List.mem_map]; rintro t ⟨u, hu, rfl⟩; simp [(hw.types u hu).2.2]
  · rw [List.filter_append, show (importedAliases _).filter (fun t => !t.external) = [] by
      simp only [List.filter_eq_nil_iff]; intro t ht; simp [(importedAliases_external ht).1],
      List.nil_append, List.filter_eq_self.2, List.forall₂_map_right_iff, List.forall₂_same]
    · intro t ht'
      exact ⟨rfl, (hw.aliases t ht').1, rfl, ht _⟩
    · simp only [List.mem_map]; rintro t ⟨u, hu, rfl⟩; simp [(hw.aliases u hu).2.2]
  · rw [List.forall₂_map_right_iff, List.forall₂_same]
    intro f _
    exact ⟨rfl, rfl, ht _⟩

/-- **C53, validation.** Name resolution fails exactly when some import lists a name without a prefix that the
imported module does not have. -/
theorem c53_unknown_names (D : Nat) (pre : String) (m : Module) (imports : List Import)
    (preludes : List Interface) :
    compile D pre m imports preludes = none
      ↔ ∃ i ∈ imports, ∃ x ∈ i.unqualified, (∀ t ∈ i.interface.types, t.original ≠ x)
          ∧ (∀ a ∈ i.interface.aliases, a.original ≠ x) ∧ ∀ f ∈ i.interface.functions, f.original ≠ x := by
  unfold compile
  by_cases h : imports.all (·.valid)
  · simp only [h, if_true, reduceCtorEq, false_iff]
    rintro ⟨i, hi, x, hx, h1, h2, h3⟩
    have := List.all_eq_true.1 h i hi
    simp only [Import.valid, List.all_eq_true, decide_eq_true_eq, List.mem_append, List.mem_map] at this
    rcases this x hx with (⟨t, ht, e⟩ | ⟨t, ht, e⟩) | ⟨t, ht, e⟩
    · exact h1 t ht e
    · exact h2 t ht e
    · exact h3 t ht e
  · simp only [h, Bool.false_eq_true, if_false, true_iff]
    simp only [List.all_eq_true, not_forall] at h
    obtain ⟨i, hi, h⟩ := h
    simp only [Import.valid, List.all_eq_true, not_forall, decide_eq_true_eq, List.mem_append, List.mem_map] at h
    obtain ⟨x, hx, h⟩ := h
    refine ⟨i, hi, x, hx, ?_, ?_, ?_⟩
    · intro t ht e; exact h (Or.inl (Or.inl ⟨t, ht, e⟩))
    · intro t ht e; exact h (Or.inl (Or.inr ⟨t, ht, e⟩))
    · intro t ht e; exact h (Or.inr ⟨t, ht, e⟩)

/-- **C53, full names.** Different definitions have different full names, across all source files: the prefix
of a file is its path and a colon (`lib/app/src/module_compiler.rs:149`). -/
theorem c53_full_names_distinct (file file' x y : String) (hx : Plain x) (hy : Plain y)
    (h : (file ++ ":") ++ x = (file' ++ ":") ++ y) : file = file' ∧ x = y := by
  have h' : file.toList ++ ':' :: x.toList = file'.toList ++ ':' :: y.toList := by
    have := congrArg String.toList h
    simpa using this
  have key : ∀ a b : List Char, ':' ∉ x.toList → ':' ∉ y.toList → a ++ ':' :: x.toList = b ++ ':' :: y.toList →
      a = b ∧ x.toList = y.toList := by
    intro a
    induction a with
    | nil =>
      intro b hx hy e
      cases b with
      | nil => simpa using e
      | cons c b =>
        simp only [List.nil_append, List.cons_append, List.cons.injEq] at e
        exact absurd (e.2 ▸ by simp) hx
    | cons c a ih =>
      intro b hx hy e
      cases b with
      | nil =>
        simp only [List.nil_append, List.cons_append, List.cons.injEq] at e
        exact absurd (e.2 ▸ by simp) hy
      | cons c' b =>
        simp only [List.cons_append, List.cons.injEq] at e
        obtain ⟨h1, h2⟩ := ih b hx hy e.2
        exact ⟨by rw [e.1, h1], h2⟩
  obtain ⟨h1, h2⟩ := key _ _ hx hy h'
  exact ⟨String.toList_inj.1 h1, String.toList_inj.1 h2⟩

/-- The interface of a compiled module is one the compiler makes. So is every interface, one module after
another in the order of their dependencies. -/
theorem c53_interfaces_compiled (D : Nat) (pre : String) (m m' : Module) (imports : List Import)
    (preludes : List Interface) (hw : Written m) (hp : Full pre)
    (hi : ∀ i ∈ imports.map (·.interface) ++ preludes, i.Compiled)
    (h : compile D pre m imports preludes = some m') : (interface m').Compiled := by
  cases compile_target hw hi h
  refine ⟨?_, ?_, ?_⟩
  · simp only [interface, target, List.mem_filterMap, List.mem_map]
    rintro f ⟨g, ⟨f0, _, rfl⟩, h⟩
    split at h
    · cases h; exact full_prefix _ _ hp
    · cases h
  · simp only [interface, target, List.map_append, List.mem_append, List.mem_map]
    rintro t (⟨u, hu, rfl⟩ | ⟨u, ⟨u0, _, rfl⟩, rfl⟩)
    · obtain ⟨-, i, hi', v, hv, e⟩ := importedTypes_external hu
      exact e ▸ (hi i hi').types v hv
    · exact full_prefix _ _ hp
  · simp only [interface, target, List.map_append, List.mem_append, List.mem_map]
    rintro t (⟨u, hu, rfl⟩ | ⟨u, ⟨u0, _, rfl⟩, rfl⟩)
    · obtain ⟨-, i, hi', v, hv, e⟩ := importedAliases_external hu
      exact e ▸ (hi i hi').aliases v hv
    · exact full_prefix _ _ hp

/-- The functions of the interface of a compiled module: its public definitions. -/
theorem interface_functions {D : Nat} {pre : String} {m m' : Module} {imports : List Import}
    {preludes : List Interface} (hw : Written m)
    (hi : ∀ i ∈ imports.map (·.interface) ++ preludes, i.Compiled)
    (h : compile D pre m imports preludes = some m') (g : InterfaceFunction) :
    g ∈ (interface m').functions → ∃ f ∈ m.definitions, f.isPublic = true ∧ g.name = pre ++ f.name ∧ g.original = f.name := by
  cases compile_target hw hi h
  simp only [interface, target, List.mem_filterMap, List.mem_map]
  rintro ⟨g, ⟨f0, hf, rfl⟩, h⟩
  split at h
  · rename_i hp
    cases h; exact ⟨f0, hf, hp, rfl, (hw.definitions f0 hf).1⟩
  · cases h

/-- **C53, one module importing another.** If the module `a`, compiled with the prefix `preA`, defines a public
function, and another module imports it under the name `x`, then `x` means that function of `a` there - unless
the importing module defines `x` itself or another import offers `x` too. -/
theorem c53_import (D : Nat) (preA : String) (a a' : Module) (importsA : List Import)
    (preludes : List Interface) (hw : Written a)
    (hi : ∀ i ∈ importsA.map (·.interface) ++ preludes, i.Compiled)
    (h : compile D preA a importsA preludes = some a')
    (f : FunctionDefinition) (hf : f ∈ a.definitions) (hf' : f.isPublic = true)
    (hn : ∀ g ∈ a.definitions, '\'' ∉ g.name.toList)
    (pre : String) (b : Module) (imports : List Import) (i : Import) (hmem : i ∈ imports)
    (hint : i.interface = interface a')
    (x : String) (hx : x = if f.name ∈ i.unqualified then f.name else i.pre ++ "'" ++ f.name)
    (hown : x ∉ b.definitions.map (·.name))
    (hother : ∀ j ∈ imports, j ≠ i → ∀ g ∈ j.interface.functions, j.sees g.original ≠ x) :
    meaning pre b imports x = .variable (preA ++ f.name) ∧ ∃ g ∈ a'.definitions, g.name = preA ++ f.name := by
  have hiface : (⟨preA ++ f.name, f.name, lambdaType
      (f.params.map fun p => (p.1, type3 preA a (importsA.map (·.interface) ++ preludes)
        (type2 preA a (type1 a importsA p.2))))
      (type3 preA a (importsA.map (·.interface) ++ preludes) (type2 preA a (type1 a importsA f.result)))⟩
        : InterfaceFunction) ∈ (interface a').functions := by
    cases compile_target hw hi h
    simp only [interface, target, List.mem_filterMap, List.mem_map]
    refine ⟨_, ⟨f, hf, rfl⟩, ?_⟩
    simp [hf', (hw.definitions f hf).1]
  have hall : ∀ n ∈ imports.flatMap (fun i => (i.interface.functions.filter fun f => i.sees f.original = x).map (·.name)),
      n = preA ++ f.name := by
    intro n hn'
    simp only [List.mem_flatMap, List.mem_map, List.mem_filter, decide_eq_true_eq] at hn'
    obtain ⟨j, hj, g, ⟨hg, hs⟩, rfl⟩ := hn'
    by_cases hji : j = i
    · subst hji
      rw [hint] at hg
      obtain ⟨g0, hg0, -, e1, e2⟩ := interface_functions hw hi h g hg
      have key : g0.name = f.name := by
        rw [e2, hx] at hs
        unfold Import.sees at hs
        split at hs <;> split at hs
        · exact hs
        · exact absurd (by rw [hs]; simp) (hn g0 hg0)
        · exact absurd (by rw [← hs]; simp) (hn f hf)
        · exact String.append_right_inj _ |>.1 hs
      rw [e1, key]
    · exact absurd hs (hother j hj hji g hg)
  have himp : importedFunction imports x = some (preA ++ f.name) := by
    unfold importedFunction
    have hne : imports.flatMap (fun i => (i.interface.functions.filter fun f => i.sees f.original = x).map (·.name)) ≠ [] := by
      intro e
      have : preA ++ f.name ∈ imports.flatMap (fun i => (i.interface.functions.filter fun f => i.sees f.original = x).map (·.name)) := by
        simp only [List.mem_flatMap, List.mem_map, List.mem_filter, decide_eq_true_eq]
        refine ⟨i, hmem, _, ⟨by rw [hint]; exact hiface, ?_⟩, rfl⟩
        exact hx.symm
      rw [e] at this; cases this
    rw [List.getLast?_eq_some_getLast hne]
    exact congrArg some (hall _ (List.getLast_mem hne))
  constructor
  · simp only [meaning, resolveVariable, hown, if_false, himp]
  · cases compile_target hw hi h
    simp only [target, List.mem_map]
    exact ⟨_, ⟨f, hf, rfl⟩, rfl⟩

/-- **C53, private functions.** A name of a module means a function of another one only if that one is public:
what the imports offer under any name is a public definition of the imported module. -/
theorem c53_private_functions (D : Nat) (preA : String) (a a' : Module) (importsA : List Import)
    (preludes : List Interface) (hw : Written a)
    (hi : ∀ i ∈ importsA.map (·.interface) ++ preludes, i.Compiled)
    (h : compile D preA a importsA preludes = some a') (p : String) (us : List String) (x n : String)
    (hn : importedFunction [⟨interface a', p, us⟩] x = some n) :
    ∃ f ∈ a.definitions, f.isPublic = true ∧ n = preA ++ f.name
      ∧ x = if f.name ∈ us then f.name else p ++ "'" ++ f.name := by
  have := List.mem_of_getLast? hn
  simp only [List.flatMap_cons, List.flatMap_nil, List.append_nil, List.mem_map, List.mem_filter,
    decide_eq_true_eq] at this
  obtain ⟨g, ⟨hg, hs⟩, rfl⟩ := this
  obtain ⟨f, hf, hp, e1, e2⟩ := interface_functions hw hi h g hg
  refine ⟨f, hf, hp, e1, ?_⟩
  rw [← hs, e2]; rfl

/-- **C53, private types.** The same for types; in particular the types a module has itself imported are not
passed on. -/
theorem c53_private_types (D : Nat) (preA : String) (a a' : Module) (importsA : List Import)
    (preludes : List Interface) (hw : Written a)
    (hi : ∀ i ∈ importsA.map (·.interface) ++ preludes, i.Compiled)
    (h : compile D preA a importsA preludes = some a') (p : String) (us : List String) (x n : String)
    (hn : importedType [⟨interface a', p, us⟩] x = some n) :
    ∃ y, n = preA ++ y ∧ (x = if y ∈ us then y else p ++ "'" ++ y)
      ∧ ((∃ t ∈ a.types, t.isPublic = true ∧ t.name = y) ∨ ∃ t ∈ a.aliases, t.isPublic = true ∧ t.name = y) := by
  cases compile_target hw hi h
  have := List.mem_of_getLast? hn
  simp only [List.flatMap_cons, List.flatMap_nil, List.append_nil, List.mem_append, List.mem_map,
    List.mem_filter, Bool.and_eq_true, decide_eq_true_eq] at this
  rcases this with ⟨t, ⟨ht, hp, hs⟩, rfl⟩ | ⟨t, ⟨ht, hp, hs⟩, rfl⟩
  · simp only [interface, target, List.map_append, List.mem_append, List.mem_map] at ht
    rcases ht with ⟨u, hu, rfl⟩ | ⟨u, ⟨u0, hu, rfl⟩, rfl⟩
    · simp [(importedTypes_external hu).1] at hp
    · simp only [Bool.and_eq_true] at hp
      refine ⟨u0.name, rfl, ?_, Or.inl ⟨u0, hu, hp.1, rfl⟩⟩
      rw [← hs]
      simp only [(hw.types u0 hu).1]; rfl
  · simp only [interface, target, List.map_append, List.mem_append, List.mem_map] at ht
    rcases ht with ⟨u, hu, rfl⟩ | ⟨u, ⟨u0, hu, rfl⟩, rfl⟩
    · simp [(importedAliases_external hu).1] at hp
    · simp only [Bool.and_eq_true] at hp
      refine ⟨u0.name, rfl, ?_, Or.inr ⟨u0, hu, hp.1, rfl⟩⟩
      rw [← hs]
      simp only [(hw.aliases u0 hu).1]; rfl

theorem mem_uniqueNames {α : Type} {name : α → String} {xs : List α} {n : String} :
    (∃ x ∈ uniqueNames name xs, name x = n) ↔ ∃ x ∈ xs, name x = n := by
  simp only [uniqueNames, List.mem_filterMap, List.mem_dedup, List.mem_map]
  constructor
  · rintro ⟨x, ⟨k, -, h⟩, rfl⟩
    exact ⟨x, List.mem_of_find?_eq_some h, rfl⟩
  · rintro ⟨x, hx, rfl⟩
    cases h : xs.find? (fun y => decide (name y = name x)) with
    | none =>
      rw [List.find?_eq_none] at h
      simpa using h x hx
    | some y =>
      exact ⟨y, ⟨name x, ⟨x, hx, rfl⟩, h⟩, by simpa using List.find?_some h⟩

theorem uniqueNames_nodup {α : Type} (name : α → String) (xs : List α) : ((uniqueNames name xs).map name).Nodup := by
  have : (uniqueNames name xs).map name = (xs.map name).dedup := by
    unfold uniqueNames
    have : ∀ ns : List String, (∀ n ∈ ns, n ∈ xs.map name) →
        (ns.filterMap fun n => xs.find? fun x => decide (name x = n)).map name = ns := by
      intro ns
      induction ns with
      | nil => intros; rfl
      | cons n ns ih =>
        intro h
        have hn := h n (by simp)
        simp only [List.mem_map] at hn
        obtain ⟨x, hx, rfl⟩ := hn
        cases hf : xs.find? (fun y => decide (name y = name x)) with
        | none =>
          rw [List.find?_eq_none] at hf
          exact absurd (by simp) (hf x hx)
        | some y =>
          rw [List.filterMap_cons_some (f := fun n => xs.find? fun x => decide (name x = n)) hf, List.map_cons, ih fun k hk => h k (List.mem_cons_of_mem _ hk)]
          have := List.find?_some hf
          simp only [decide_eq_true_eq] at this
          rw [this]
    exact this _ fun n hn => List.mem_dedup.1 hn
  rw [this]
  exact List.nodup_dedup _

/-- **C53, declarations.** Every function of every imported interface is declared exactly once. -/
theorem c53_declarations (D : Nat) (pre : String) (m m' : Module) (imports : List Import)
    (preludes : List Interface) (hw : Written m)
    (hi : ∀ i ∈ imports.map (·.interface) ++ preludes, i.Compiled)
    (h : compile D pre m imports preludes = some m') :
    (m'.declarations.map (·.name)).Nodup
      ∧ ∀ n, (∃ d ∈ m'.declarations, d.name = n)
          ↔ ∃ i ∈ imports.map (·.interface) ++ preludes, ∃ f ∈ i.functions, f.name = n := by
  cases compile_target hw hi h
  simp only [target, hw.declarations, List.append_nil]
  refine ⟨uniqueNames_nodup _ _, fun n => ?_⟩
  rw [mem_uniqueNames]
  simp only [List.mem_flatMap, List.mem_map]
  constructor
  · rintro ⟨d, ⟨i, hi', f, hf, rfl⟩, rfl⟩; exact ⟨i, hi', f, hf, rfl⟩
  · rintro ⟨i, hi', f, hf, rfl⟩; exact ⟨_, ⟨i, hi', f, hf, rfl⟩, rfl⟩

/-- **C53, imported types.** A type imported through several modules counts as public - so that the module may
mention it - exactly when one of them offers it as public. -/
theorem c53_imported_types_public (D : Nat) (pre : String) (m m' : Module) (imports : List Import)
    (preludes : List Interface) (hw : Written m)
    (hi : ∀ i ∈ imports.map (·.interface) ++ preludes, i.Compiled)
    (h : compile D pre m imports preludes = some m') (n : String) :
    (∃ t ∈ m'.types, t.external = true ∧ t.isPublic = true ∧ t.name = n)
      ↔ ∃ i ∈ imports.map (·.interface) ++ preludes, ∃ t ∈ i.types, t.isPublic = true ∧ t.name = n := by
  cases compile_target hw hi h
  simp only [target, List.mem_append, List.mem_map]
  constructor
  · rintro ⟨t, ht | ⟨u, hu, rfl⟩, he, hp, rfl⟩
    · have := mem_uniqueTypes ht
      simp only [List.mem_flatMap, List.mem_map, List.mem_append] at this
      obtain ⟨i, hi', u, hu, rfl⟩ := this
      exact ⟨i, hi', u, hu, hp, rfl⟩
    · rw [(hw.types u hu).2.2] at he; cases he
  · rintro ⟨i, hi', u, hu, hp, rfl⟩
    let e : TypeDefinition := ⟨u.name, u.original, u.fields, u.isOpen, u.isPublic, true⟩
    let xs := (imports.map (·.interface) ++ preludes).flatMap fun i => i.types.map fun t =>
      (⟨t.name, t.original, t.fields, t.isOpen, t.isPublic, true⟩ : TypeDefinition)
    have hmem : e ∈ xs := by
      simp only [xs, List.mem_flatMap, List.mem_map, List.mem_append]
      exact ⟨i, hi', u, hu, rfl⟩
    cases hf : xs.find? (fun x => decide (x.name = u.name) && x.isPublic) with
    | none =>
      rw [List.find?_eq_none] at hf
      exact absurd (by simp [e, hp]) (hf e hmem)
    | some y =>
      have hy := List.find?_some hf
      simp only [Bool.and_eq_true, decide_eq_true_eq] at hy
      have hyx := List.mem_of_find?_eq_some hf
      have hyi : y ∈ importedTypes (imports.map (·.interface) ++ preludes) := by
        simp only [importedTypes, uniqueTypes, List.mem_filterMap, List.mem_dedup, List.mem_map]
        refine ⟨u.name, ⟨e, hmem, rfl⟩, ?_⟩
        rw [show List.find? _ _ = some y from hf]; rfl
      exact ⟨y, Or.inl hyi, (importedTypes_external hyi).1, hy.2, hy.1⟩

/-! ## A concrete case -/

/-- `type Item {value number}`, `type hidden = number`, `Make = \(value number) Item {Item{value: value}}`,
`helper = \() none {none}` in the file `Shop.pen`. -/
def sampleA : Module :=
  { types := [⟨"Item", "Item", [⟨"value", .reference "number"⟩], false, true, false⟩]
    aliases := [⟨"hidden", "hidden", .reference "number", false, false⟩]
    foreigns := []
    declarations := []
    definitions :=
      [⟨"Make", "Make", [("value", .reference "number")], .reference "Item",
          .record (.reference "Item") [("value", .variable "value")], true⟩,
       ⟨"helper", "helper", [], .reference "none", .variable "none", false⟩] }

/-- `import Shop`, `import foreign debug \(number) none`,
`size = \(Make number, error Shop'Item) Shop'Item { none = Shop'Make(Make); size(none, error); debug(error);
if Make = none as Shop'Item { Make } else { true } }` in the file `Main.pen`. It uses names of the language and
of the imported module for its own things. -/
def sampleB : Module :=
  { types := []
    aliases := []
    foreigns := [⟨"debug", "debug", .function [.reference "number"] (.reference "none")⟩]
    declarations := []
    definitions :=
      [⟨"size", "size", [("Make", .reference "number"), ("error", .reference "Shop'Item")],
          .reference "Shop'Item",
          .let_ (some "none") none (.call none (.variable "Shop'Make") [.variable "Make"])
            (.let_ none none (.call none (.variable "size") [.variable "none", .variable "error"])
              (.let_ none none (.call none (.variable "debug") [.variable "error"])
                (.ifType "Make" (.variable "none") [(.reference "Shop'Item", .variable "Make")]
                  (some (none, .variable "true"))))), false⟩] }

theorem localsAll_node {P : String → Prop} {Γ : List String} {e : Expr} {k ts ps}
    (h : parts Γ e = some (k, ts, ps)) (h' : ∀ p ∈ ps, (∀ x ∈ p.1, P x) ∧ ∀ d, localsAll P d p.1 p.2) :
    ∀ d, localsAll P d Γ e := by
  intro d
  cases d with
  | zero => trivial
  | succ d =>
    intro k' ts' ps' e'
    rw [h] at e'
    cases e'
    exact fun p hp => ⟨(h' p hp).1, (h' p hp).2 d⟩

theorem localsAll_leaf (P : String → Prop) (Γ : List String) (x : String) (d : Nat) :
    localsAll P d Γ (.variable x) := by
  cases d with
  | zero => trivial
  | succ d => intro k ts ps e; simp [parts] at e

/-- The compiled first module. -/
def compiledA : Module := (compile 9 "Shop.pen:" sampleA [] []).getD sampleA

/-- The import of the first module in the second. -/
def sampleImport : Import := ⟨interface compiledA, "Shop", []⟩

theorem sampleA_compiled : compile 9 "Shop.pen:" sampleA [] [] = some compiledA := rfl

theorem sampleA_written : Written sampleA := by
  refine ⟨?_, ?_, ?_, ?_, rfl⟩
  · simp only [sampleA, List.mem_cons, List.not_mem_nil, or_false, forall_eq_or_imp, forall_eq]
    refine ⟨⟨trivial, by simp [Plain], by simp [Plain], fun d => ?_⟩,
      ⟨trivial, by simp [Plain], by simp, fun d => ?_⟩⟩
    · rcases d with _ | _ | d <;> simp [localsAll, parts, Plain]
    · rcases d with _ | d <;> simp [localsAll, parts]
  · simp [sampleA]
  · simp [sampleA, Plain]
  · simp [sampleA, Plain]

theorem sampleB_written : Written sampleB := by
  refine ⟨?_, ?_, ?_, ?_, rfl⟩
  · simp only [sampleB, List.mem_cons, List.not_mem_nil, or_false, forall_eq]
    refine ⟨trivial, by simp [Plain], by simp [Plain], fun d => ?_⟩
    revert d
    refine localsAll_node rfl ?_
    simp only [List.map_cons, List.map_nil, List.reverse_cons, List.reverse_nil, List.nil_append,
      List.cons_append, List.mem_cons, List.not_mem_nil, or_false, forall_eq_or_imp, forall_eq,
      Option.toList_some]
    refine ⟨⟨by simp [Plain], localsAll_node rfl ?_⟩, by simp [Plain], localsAll_node rfl ?_⟩
    · simp [Plain, localsAll_leaf]
    · simp only [List.mem_cons, List.not_mem_nil, or_false, forall_eq_or_imp, forall_eq, Option.toList_none,
        List.nil_append]
      refine ⟨⟨by simp [Plain], localsAll_node rfl ?_⟩, by simp [Plain], localsAll_node rfl ?_⟩
      · simp [Plain, localsAll_leaf]
      · simp only [List.mem_cons, List.not_mem_nil, or_false, forall_eq_or_imp, forall_eq, Option.toList_none,
          List.nil_append]
        refine ⟨⟨by simp [Plain], localsAll_node rfl ?_⟩, by simp [Plain], localsAll_node rfl ?_⟩
        · simp [Plain, localsAll_leaf]
        · simp [Plain, localsAll_leaf]
  · simp [sampleB, Plain]
  · simp [sampleB]
  · simp [sampleB]

theorem full_shop : Full "Shop.pen:" := by simp [Full]

theorem full_main : Full "Main.pen:" := by simp [Full]

theorem sampleImport_compiled : ∀ i ∈ [sampleImport].map (·.interface) ++ [], i.Compiled := by
  intro i hi
  simp only [List.map_cons, List.map_nil, List.append_nil, List.mem_singleton] at hi
  subst hi
  exact c53_interfaces_compiled 9 "Shop.pen:" sampleA compiledA [] [] sampleA_written full_shop (by simp)
    sampleA_compiled

example : ∃ m', compile 9 "Main.pen:" sampleB [sampleImport] [] = some m' := ⟨_, rfl⟩

/-- The body the second module has in the end: `size` is its own function, `debug` its own foreign function,
`Shop'Make` the imported function, `error`, `none` and `Make` are local variables and `true` is the literal. -/
example : ((compile 9 "Main.pen:" sampleB [sampleImport] []).map fun m => m.definitions.map (·.body)) = some
    [.let_ (some "none") none (.call none (.variable "Shop.pen:Make") [.variable "Make"])
      (.let_ none none (.call none (.variable "Main.pen:size") [.variable "none", .variable "error"])
        (.let_ none none (.call none (.variable "Main.pen:debug") [.variable "error"])
          (.ifType "Make" (.variable "none") [(.reference "Shop.pen:Item", .variable "Make")]
            (some (none, .boolean true)))))] := by
  rfl

example : meaning "Main.pen:" sampleB [sampleImport] "Shop'Make" = .variable "Shop.pen:Make" :=
  (c53_import 9 "Shop.pen:" sampleA compiledA [] [] sampleA_written (by simp) sampleA_compiled
    (sampleA.definitions.head (by simp [sampleA])) (List.head_mem _) rfl (by simp [sampleA])
    "Main.pen:" sampleB [sampleImport] sampleImport (by simp) rfl "Shop'Make" rfl
    (by simp [sampleB]) (by intro j hj hne; simp only [List.mem_singleton] at hj; exact absurd hj hne)).1

/-- A foreign function does not hide an imported function of the same name, although a defined function does:
the module `import Shop { Make }`, `import foreign Make \(number) number` calls the function of `Shop`. -/
theorem c53_import_hides_foreign :
    ∃ (m : Module) (imports : List Import), Written m ∧ (∀ i ∈ imports, i.interface.Compiled)
      ∧ (∃ f ∈ m.foreigns, f.name = "Make") ∧ meaning "Main.pen:" m imports "Make" = .variable "Shop.pen:Make" := by
  refine ⟨⟨[], [], [⟨"Make", "Make", .function [.reference "number"] (.reference "number")⟩], [], []⟩,
    [⟨interface compiledA, "Shop", ["Make"]⟩], ⟨?_, ?_, ?_, ?_, rfl⟩, ?_, ?_, ?_⟩
  · simp
  · simp [Plain]
  · simp
  · simp
  · intro i hi
    simp only [List.mem_singleton] at hi
    subst hi
    exact sampleImport_compiled _ (by simp [sampleImport])
  · exact ⟨_, List.mem_singleton_self _, rfl⟩
  · rfl

end Verif.Names
