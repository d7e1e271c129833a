import Verif.Names.Visibility

/-!
# The analysis with visibility and the one without

`analyze` of `Analyze.lean`, which is the whole of `lib/hir/src/analysis.rs`, does not look into the types of other
modules. Here: it need not, as interfaces of accepted modules mention only types they have; hence modules it accepts
are accepted by `Hir.analyze`, and C47 and C51 hold of them.
-/

namespace Verif.Names

open Verif.Hir Verif.Res

/-- The names of the types of a module. -/
def Knows (names : List String) (t : Ty) : Prop := ∀ x ∈ collectReferences t, x ∈ names

/-- The names of the types in an interface. -/
def Interface.names (i : Interface) : List String := i.types.map (·.name) ++ i.aliases.map (·.name)

/-- An interface that mentions only types it has. -/
structure Interface.Closed (i : Interface) : Prop where
  types : ∀ t ∈ i.types, ∀ f ∈ t.fields, Knows i.names f.type
  aliases : ∀ a ∈ i.aliases, Knows i.names a.type
  functions : ∀ f ∈ i.functions, Knows i.names f.type
  isFunction : ∀ f ∈ i.functions, ∃ as r, f.type = .function as r

/-- `M'` has all types of `M`. -/
def Extends (M M' : TypeModule) : Prop := ∀ x, referenceExists M x = true → referenceExists M' x = true

theorem typeExists_eq_ok {M : TypeModule} {t : Ty} :
    typeExists M t = .ok () ↔ ∀ x ∈ collectReferences t, referenceExists M x = true := by
  constructor
  · exact typeExists_ok
  · intro h
    unfold typeExists
    rw [List.find?_eq_none.2]
    intro x hx
    simp [h x hx]

theorem typeExists_mono {M M' : TypeModule} (h : Extends M M') {t : Ty} (ht : typeExists M t = .ok ()) :
    typeExists M' t = .ok () :=
  typeExists_eq_ok.2 fun x hx => h x (typeExists_eq_ok.1 ht x hx)

theorem forList_eq_ok {α : Type} {f : α → Res Err Unit} {as : List α} :
    forList f as = .ok () ↔ ∀ a ∈ as, f a = .ok () := by
  refine ⟨forList_ok, fun h => ?_⟩
  unfold forList
  have : mapList f as = .ok (as.map fun _ => ()) := by
    rw [mapList_eq_ok, List.forall₂_map_right_iff, List.forall₂_same]
    exact h
  rw [this]
  rfl

theorem typesExist_mono {M M' : TypeModule} (h : Extends M M') :
    ∀ (n : Nat) (e : Expr), typesExist n M e = .ok () → typesExist n M' e = .ok ()
  | 0, _, he => by simp [typesExist] at he
  | n + 1, e, he => by
    have ih := typesExist_mono h n
    have ihl : ∀ {es}, forList (typesExist n M) es = .ok () → forList (typesExist n M') es = .ok () :=
      fun hl => forList_eq_ok.2 fun a ha => ih a (forList_ok hl a ha)
    have ht : ∀ {t}, typeExists M t = .ok () → typeExists M' t = .ok () := typeExists_mono h
    cases e <;> simp only [typesExist, bind_eq_ok] at he ⊢
    case ifType x a bs els =>
      obtain ⟨_, h1, _, h2, h3⟩ := he
      refine ⟨_, ih _ h1, _, forList_eq_ok.2 fun b hb => ?_, ?_⟩
      · have := forList_ok h2 b hb
        simp only [bind_eq_ok] at this ⊢
        obtain ⟨_, h4, h5⟩ := this
        exact ⟨_, ht h4, ih _ h5⟩
      · cases els with
        | none => rfl
        | some b => exact ih _ h3
    case lambda ps r b =>
      obtain ⟨_, h1, _, h2, h3⟩ := he
      exact ⟨_, forList_eq_ok.2 fun p hp => ht (forList_ok h1 p hp), _, ht h2, ih _ h3⟩
    case list t es =>
      obtain ⟨_, h1, h2⟩ := he
      refine ⟨_, ht h1, forList_eq_ok.2 fun e he => ?_⟩
      have := forList_ok h2 e he
      cases e <;> exact ih _ this
    case comprehension t a b bs =>
      obtain ⟨_, h1, _, h2, h3⟩ := he
      refine ⟨_, ht h1, _, ih _ h2, forList_eq_ok.2 fun c hc => ?_⟩
      have := forList_ok h3 c hc
      simp only [bind_eq_ok] at this ⊢
      obtain ⟨_, h4, h5⟩ := this
      refine ⟨_, forList_eq_ok.2 fun i hi => ih _ (forList_ok h4 i hi), ?_⟩
      cases hcond : c.condition with
      | none => rfl
      | some d => rw [hcond] at h5; exact ih _ h5
    case map k v es =>
      obtain ⟨_, h1, _, h2, h3⟩ := he
      refine ⟨_, ht h1, _, ht h2, forList_eq_ok.2 fun e he => ?_⟩
      have := forList_ok h3 e he
      cases e with
      | single a b =>
        simp only [bind_eq_ok] at this ⊢
        obtain ⟨_, h4, h5⟩ := this
        exact ⟨_, ih _ h4, ih _ h5⟩
      | multiple a => exact ih _ this
    case record t fs =>
      obtain ⟨_, h1, h2⟩ := he
      exact ⟨_, ht h1, forList_eq_ok.2 fun p hp => ih _ (forList_ok h2 p hp)⟩
    case update t r fs =>
      obtain ⟨_, h1, _, h2, h3⟩ := he
      exact ⟨_, ht h1, _, ih _ h2, forList_eq_ok.2 fun p hp => ih _ (forList_ok h3 p hp)⟩
    case coercion =>
      obtain ⟨_, h1, _, h2, h3⟩ := he
      exact ⟨_, ht h1, _, ht h2, ih _ h3⟩
    case call => obtain ⟨_, h1, h2⟩ := he; exact ⟨_, ih _ h1, ihl h2⟩
    case builtInCall => exact ihl he
    case if_ => obtain ⟨_, h1, _, h2, h3⟩ := he; exact ⟨_, ih _ h1, _, ih _ h2, ih _ h3⟩
    case ifList => obtain ⟨_, h1, _, h2, h3⟩ := he; exact ⟨_, ih _ h1, _, ih _ h2, ih _ h3⟩
    case ifMap => obtain ⟨_, h1, _, h2, _, h3, h4⟩ := he; exact ⟨_, ih _ h1, _, ih _ h2, _, ih _ h3, ih _ h4⟩
    case not => exact ih _ he
    case try_ => exact ih _ he
    case deconstruct => exact ih _ he
    all_goals first | (obtain ⟨_, h1, h2⟩ := he; exact ⟨_, ih _ h1, ih _ h2⟩)

theorem referenceExists_eq {M : TypeModule} {x : String} :
    referenceExists M x = true ↔ x ∈ M.records.map (·.1) ++ M.aliases.map (·.1) := by
  simp [referenceExists]

theorem visible_extends (m : Module) : Extends (visibleTypes m) m.toHir.types := by
  intro x hx
  rw [referenceExists_eq] at hx ⊢
  simp only [visibleTypes, Module.toHir, List.map_map, List.mem_append, List.mem_map, List.mem_filter,
    Function.comp_apply] at hx ⊢
  rcases hx with ⟨t, ⟨ht, _⟩, rfl⟩ | ⟨t, ⟨ht, _⟩, rfl⟩
  · exact Or.inl ⟨t, ht, rfl⟩
  · exact Or.inr ⟨t, ht, rfl⟩

theorem exists_mem_uniqueTypes {α : Type} {name : α → String} {isPublic : α → Bool} {xs : List α} {x : α}
    (h : x ∈ xs) : ∃ y ∈ uniqueTypes name isPublic xs, name y = name x := by
  simp only [uniqueTypes, List.mem_filterMap, List.mem_dedup, List.mem_map]
  cases hf : (xs.find? fun y => decide (name y = name x) && isPublic y).or
      (xs.find? fun y => decide (name y = name x)) with
  | none =>
    simp only [Option.or_eq_none_iff, List.find?_eq_none] at hf
    exact absurd (decide_eq_true rfl) (hf.2 x h)
  | some y =>
    refine ⟨y, ⟨name x, ⟨x, h, rfl⟩, hf⟩, ?_⟩
    rcases Option.or_eq_some_iff.1 hf with h1 | ⟨-, h1⟩
    · have := List.find?_some h1
      simp only [Bool.and_eq_true, decide_eq_true_eq] at this
      exact this.1
    · simpa using List.find?_some h1

/-- The names of a compiled module's types include those of all interfaces it imports. -/
theorem names_target (D : Nat) (pre : String) (m : Module) (imports : List Import) (is : List Interface)
    (i : Interface) (hi : i ∈ is) (x : String) (hx : x ∈ i.names) :
    referenceExists (target D pre m imports is).toHir.types x = true := by
  rw [referenceExists_eq]
  simp only [Interface.names, List.mem_append, List.mem_map] at hx
  simp only [Module.toHir, target, List.map_append, List.map_map, List.mem_append, List.mem_map, Function.comp_apply]
  rcases hx with ⟨t, ht, rfl⟩ | ⟨t, ht, rfl⟩
  · left; left
    obtain ⟨y, hy, e⟩ := exists_mem_uniqueTypes (name := (·.name)) (isPublic := (·.isPublic))
      (xs := is.flatMap fun i => i.types.map fun t =>
        ({ name := t.name, original := t.original, fields := t.fields, isOpen := t.isOpen
           isPublic := t.isPublic, external := true } : TypeDefinition))
      (x := ⟨t.name, t.original, t.fields, t.isOpen, t.isPublic, true⟩)
      (by simp only [List.mem_flatMap, List.mem_map]; exact ⟨i, hi, t, ht, rfl⟩)
    exact ⟨y, hy, e⟩
  · right; left
    obtain ⟨y, hy, e⟩ := exists_mem_uniqueTypes (name := (·.name)) (isPublic := (·.isPublic))
      (xs := is.flatMap fun i => i.aliases.map fun a =>
        ({ name := a.name, original := a.original, type := a.type
           isPublic := a.isPublic, external := true } : TypeAlias))
      (x := ⟨t.name, t.original, t.type, t.isPublic, true⟩)
      (by simp only [List.mem_flatMap, List.mem_map]; exact ⟨i, hi, t, ht, rfl⟩)
    exact ⟨y, hy, e⟩

/-- What `analyze` has checked. -/
theorem analyze_parts {n : Nat} {m : Module} {r : Hir.Module} (h : analyze n m = .ok r) :
    (m.definitions.map (·.name)).dedup.length = m.definitions.length ∧ validateTypes n m = .ok ()
      ∧ validateAliases m.toHir.types = true
      ∧ ∃ ds, mapList (analyzeDefinition n m.toHir.ctx m.toHir.vars) m.toHir.definitions = .ok ds
        ∧ r = ⟨m.toHir.types, m.toHir.declarations, ds⟩ := by
  unfold analyze at h
  split at h
  · cases h
  rename_i h0
  split at h
  · cases h
  obtain ⟨_, h1, h⟩ := bind_eq_ok.1 h
  split at h
  swap
  · cases h
  rename_i h2
  obtain ⟨_, _, h⟩ := bind_eq_ok.1 h
  obtain ⟨_, _, h⟩ := bind_eq_ok.1 h
  obtain ⟨ds, h3, h⟩ := bind_eq_ok.1 h
  cases h
  exact ⟨by simpa using h0, h1, h2, ds, h3, rfl⟩

/-- All types in an accepted module exist, if it is a compiled module with other definitions. -/
theorem types_exist_like {D : Nat} {pre : String} {b b' : Module} {imports : List Import} {preludes : List Interface}
    (hw : Written b) (hi : ∀ i ∈ imports.map (·.interface) ++ preludes, i.Compiled)
    (hc : ∀ i ∈ imports.map (·.interface) ++ preludes, i.Closed)
    (h : compile D pre b imports preludes = some b') {c : Module} (c1 : c.types = b'.types) (c2 : c.aliases = b'.aliases)
    (c3 : c.declarations = b'.declarations) {n : Nat} {r : Hir.Module} (ha : analyze n c = .ok r) :
    (∀ t ∈ c.types, ∀ f ∈ t.fields, typeExists c.toHir.types f.type = .ok ())
      ∧ (∀ a ∈ c.aliases, typeExists c.toHir.types a.type = .ok ())
      ∧ (∀ d ∈ c.declarations, typeExists c.toHir.types d.type = .ok () ∧ ∃ as r, d.type = .function as r)
      ∧ (∀ f ∈ c.foreigns, typeExists c.toHir.types f.type = .ok ())
      ∧ ∀ f ∈ c.definitions, typesExist n c.toHir.types (.lambda f.params f.result f.body) = .ok () := by
  obtain ⟨_, h1, _, _⟩ := analyze_parts ha
  simp only [validateTypes, bind_eq_ok] at h1
  obtain ⟨_, t1, _, t2, _, t3, t4⟩ := h1
  have hx := visible_extends c
  have ct : c.toHir.types = b'.toHir.types := by simp [Module.toHir, c1, c2]
  have hext : ∀ i ∈ imports.map (·.interface) ++ preludes, ∀ t, Knows i.names t →
      typeExists c.toHir.types t = .ok () := by
    intro i hi' t ht
    rw [typeExists_eq_ok]
    intro x hx'
    rw [ct, compile_target hw hi h]
    exact names_target D pre b imports _ i hi' x (ht x hx')
  refine ⟨?_, ?_, ?_, ?_, ?_⟩
  · intro t ht f hf
    cases he : t.external with
    | false =>
      exact typeExists_mono hx (forList_ok (forList_ok t1 t (by simp [ht, he])) f hf)
    | true =>
      rw [c1, compile_target hw hi h] at ht
      simp only [target, List.mem_append, List.mem_map] at ht
      rcases ht with ht | ⟨u, hu, rfl⟩
      · have := mem_uniqueTypes ht
        simp only [List.mem_flatMap, List.mem_map] at this
        obtain ⟨i, hi', u, hu, rfl⟩ := this
        exact hext i hi' _ ((hc i hi').types u hu f hf)
      · rw [(hw.types u hu).2.2] at he; cases he
  · intro t ht
    cases he : t.external with
    | false => exact typeExists_mono hx (forList_ok t2 t (by simp [ht, he]))
    | true =>
      rw [c2, compile_target hw hi h] at ht
      simp only [target, List.mem_append, List.mem_map] at ht
      rcases ht with ht | ⟨u, hu, rfl⟩
      · have := mem_uniqueTypes ht
        simp only [List.mem_flatMap, List.mem_map] at this
        obtain ⟨i, hi', u, hu, rfl⟩ := this
        exact hext i hi' _ ((hc i hi').aliases u hu)
      · rw [(hw.aliases u hu).2.2] at he; cases he
  · intro d hd
    rw [c3, compile_target hw hi h] at hd
    simp only [target, hw.declarations, List.append_nil, uniqueNames, List.mem_filterMap] at hd
    obtain ⟨_, _, hd⟩ := hd
    have := List.mem_of_find?_eq_some hd
    simp only [List.mem_flatMap, List.mem_map] at this
    obtain ⟨i, hi', f, hf, rfl⟩ := this
    exact ⟨hext i hi' _ ((hc i hi').functions f hf), (hc i hi').isFunction f hf⟩
  · intro f hf
    exact typeExists_mono hx (forList_ok t3 f hf)
  · intro f hf
    exact typesExist_mono hx _ _ (forList_ok t4 f hf)

/-- All types in an accepted module exist. -/
theorem types_exist {D : Nat} {pre : String} {b b' : Module} {imports : List Import} {preludes : List Interface}
    (hw : Written b) (hi : ∀ i ∈ imports.map (·.interface) ++ preludes, i.Compiled)
    (hc : ∀ i ∈ imports.map (·.interface) ++ preludes, i.Closed)
    (h : compile D pre b imports preludes = some b') {n : Nat} {r : Hir.Module} (ha : analyze n b' = .ok r) :
    (∀ t ∈ b'.types, ∀ f ∈ t.fields, typeExists b'.toHir.types f.type = .ok ())
      ∧ (∀ a ∈ b'.aliases, typeExists b'.toHir.types a.type = .ok ())
      ∧ (∀ d ∈ b'.declarations, typeExists b'.toHir.types d.type = .ok () ∧ ∃ as r, d.type = .function as r)
      ∧ (∀ f ∈ b'.foreigns, typeExists b'.toHir.types f.type = .ok ())
      ∧ ∀ f ∈ b'.definitions, typesExist n b'.toHir.types (.lambda f.params f.result f.body) = .ok () :=
  types_exist_like hw hi hc h rfl rfl rfl ha

/-- **Modules the whole analysis accepts** are accepted by the one of `Verif.Hir`, with the same
result; so are compiled modules with other definitions. -/
theorem analyze_hir_like {D : Nat} {pre : String} {b b' : Module} {imports : List Import} {preludes : List Interface}
    (hw : Written b) (hi : ∀ i ∈ imports.map (·.interface) ++ preludes, i.Compiled)
    (hc : ∀ i ∈ imports.map (·.interface) ++ preludes, i.Closed)
    (h : compile D pre b imports preludes = some b') {c : Module} (c1 : c.types = b'.types) (c2 : c.aliases = b'.aliases)
    (c3 : c.declarations = b'.declarations) {n : Nat} {r : Hir.Module} (ha : analyze n c = .ok r) :
    Hir.analyze n c.toHir = .ok r := by
  obtain ⟨e1, e2, e3, e4, e5⟩ := types_exist_like hw hi hc h c1 c2 c3 ha
  obtain ⟨h0, _, h2, ds, h3, rfl⟩ := analyze_parts ha
  unfold Hir.analyze
  rw [if_neg]
  swap
  · simp only [Module.toHir, List.map_map, List.length_map, Function.comp_def, ne_eq, not_not]
    exact h0
  rw [forList_eq_ok.2, forList_eq_ok.2, forList_eq_ok.2, forList_eq_ok.2]
  · show (if _ then _ else _) = _
    rw [if_pos h2, h3]
    rfl
  · intro d hd
    simp only [Module.toHir, List.mem_map] at hd
    obtain ⟨f, hf, rfl⟩ := hd
    exact e5 f hf
  · intro d hd
    simp only [Module.toHir, List.mem_append, List.mem_filterMap] at hd
    rcases hd with ⟨f, hf, hd⟩ | ⟨f, hf, hd⟩
    · have := (e3 f hf).1
      unfold functionType at hd
      split at hd
      · rename_i as r e
        cases hd
        rwa [e] at this
      · cases hd
    · have := e4 f hf
      unfold functionType at hd
      split at hd
      · rename_i as r e
        cases hd
        rwa [e] at this
      · cases hd
  · intro d hd
    simp only [Module.toHir, List.mem_map] at hd
    obtain ⟨t, ht, rfl⟩ := hd
    exact forList_eq_ok.2 fun f hf => e1 t ht f hf
  · intro d hd
    simp only [Module.toHir, List.mem_map] at hd
    obtain ⟨t, ht, rfl⟩ := hd
    exact e2 t ht

/-- Modules the whole analysis accepts are accepted by the one of `Verif.Hir`, with the same result. -/
theorem analyze_hir {D : Nat} {pre : String} {b b' : Module} {imports : List Import} {preludes : List Interface}
    (hw : Written b) (hi : ∀ i ∈ imports.map (·.interface) ++ preludes, i.Compiled)
    (hc : ∀ i ∈ imports.map (·.interface) ++ preludes, i.Closed)
    (h : compile D pre b imports preludes = some b') {n : Nat} {r : Hir.Module} (ha : analyze n b' = .ok r) :
    Hir.analyze n b'.toHir = .ok r :=
  analyze_hir_like hw hi hc h rfl rfl rfl ha

/-- The interface of an accepted module mentions only types it has. -/
theorem interface_closed {D : Nat} {pre : String} {b b' : Module} {imports : List Import}
    {preludes : List Interface} (hw : Written b) (hi : ∀ i ∈ imports.map (·.interface) ++ preludes, i.Compiled)
    (hc : ∀ i ∈ imports.map (·.interface) ++ preludes, i.Closed)
    (h : compile D pre b imports preludes = some b') {n : Nat} {r : Hir.Module} (ha : analyze n b' = .ok r) :
    (interface b').Closed := by
  obtain ⟨e1, e2, _, _, e5⟩ := types_exist hw hi hc h ha
  have key : ∀ t, typeExists b'.toHir.types t = .ok () → Knows (interface b').names t := by
    intro t ht x hx
    have := referenceExists_eq.1 (typeExists_eq_ok.1 ht x hx)
    simpa [Module.toHir, interface, Interface.names, Function.comp_def] using this
  refine ⟨?_, ?_, ?_, ?_⟩
  · intro t ht f hf
    simp only [interface, List.mem_map] at ht
    obtain ⟨u, hu, rfl⟩ := ht
    exact key _ (e1 u hu f hf)
  · intro t ht
    simp only [interface, List.mem_map] at ht
    obtain ⟨u, hu, rfl⟩ := ht
    exact key _ (e2 u hu)
  · intro f hf
    simp only [interface, List.mem_filterMap] at hf
    obtain ⟨g, hg, hf⟩ := hf
    split at hf
    swap
    · cases hf
    cases hf
    have := e5 g hg
    cases n with
    | zero => simp [typesExist] at this
    | succ n =>
      simp only [typesExist, bind_eq_ok] at this
      obtain ⟨_, h1, _, h2, _⟩ := this
      intro x hx
      have hl : ∀ ts : List Ty, collectReferencesList ts = ts.flatMap collectReferences := by
        intro ts
        induction ts with
        | nil => rfl
        | cons t ts ih => simp [collectReferencesList, ih]
      simp only [lambdaType, collectReferences, hl, List.mem_append, List.mem_flatMap, List.mem_map] at hx
      rcases hx with ⟨t, ⟨p, hp, rfl⟩, hx⟩ | hx
      · exact key _ (forList_ok h1 p hp) x hx
      · exact key _ h2 x hx
  · intro f hf
    simp only [interface, List.mem_filterMap] at hf
    obtain ⟨g, hg, hf⟩ := hf
    split at hf
    · cases hf; exact ⟨_, _, rfl⟩
    · cases hf

/-- A type with this name may be mentioned in a module: it is its own, or a public one of another module. -/
def Mentionable (pre : String) (b : Module) (is : List Interface) (x : String) : Prop :=
  (∃ t ∈ b.types, x = pre ++ t.name) ∨ (∃ a ∈ b.aliases, x = pre ++ a.name)
    ∨ (∃ i ∈ is, ∃ t ∈ i.types, t.isPublic = true ∧ x = t.name)
    ∨ ∃ i ∈ is, ∃ a ∈ i.aliases, a.isPublic = true ∧ x = a.name

/-- **C53, private types are not mentioned.** All names of types in the types, the foreign functions and the
signatures of the functions of an accepted module are its own or those of public types of other modules. -/
theorem c53_mentioned_types {D : Nat} {pre : String} {b b' : Module} {imports : List Import}
    {preludes : List Interface} (hw : Written b) (hi : ∀ i ∈ imports.map (·.interface) ++ preludes, i.Compiled)
    (h : compile D pre b imports preludes = some b') {n : Nat} {r : Hir.Module} (ha : analyze n b' = .ok r)
    (t : Ty)
    (ht : (∃ u ∈ b'.types, u.external = false ∧ ∃ f ∈ u.fields, f.type = t)
      ∨ (∃ u ∈ b'.aliases, u.external = false ∧ u.type = t) ∨ (∃ f ∈ b'.foreigns, f.type = t)
      ∨ ∃ f ∈ b'.definitions, f.result = t ∨ ∃ p ∈ f.params, p.2 = t) :
    ∀ x ∈ collectReferences t, Mentionable pre b (imports.map (·.interface) ++ preludes) x := by
  obtain ⟨_, h1, _, _⟩ := analyze_parts ha
  simp only [validateTypes, bind_eq_ok] at h1
  obtain ⟨_, t1, _, t2, _, t3, t4⟩ := h1
  have hv : typeExists (visibleTypes b') t = .ok () := by
    rcases ht with ⟨u, hu, he, f, hf, rfl⟩ | ⟨u, hu, he, rfl⟩ | ⟨f, hf, rfl⟩ | ⟨f, hf, hp⟩
    · exact forList_ok (forList_ok t1 u (by simp [hu, he])) f hf
    · exact forList_ok t2 u (by simp [hu, he])
    · exact forList_ok t3 f hf
    · have := forList_ok t4 f hf
      cases n with
      | zero => simp [typesExist] at this
      | succ n =>
        simp only [typesExist, bind_eq_ok] at this
        obtain ⟨_, h1, _, h2, _⟩ := this
        rcases hp with rfl | ⟨p, hp, rfl⟩
        · exact h2
        · exact forList_ok h1 p hp
  intro x hx
  have := referenceExists_eq.1 (typeExists_eq_ok.1 hv x hx)
  rw [compile_target hw hi h] at this
  simp only [visibleTypes, target, List.filter_append, List.map_append, List.map_map, List.mem_append,
    List.mem_map, List.mem_filter, Bool.or_eq_true, Bool.not_eq_true', Function.comp_apply] at this
  rcases this with (⟨u, ⟨hu, ho⟩, rfl⟩ | ⟨u, ⟨⟨v, hv', rfl⟩, _⟩, rfl⟩)
    | (⟨u, ⟨hu, ho⟩, rfl⟩ | ⟨u, ⟨⟨v, hv', rfl⟩, _⟩, rfl⟩)
  · have := mem_uniqueTypes hu
    simp only [List.mem_flatMap, List.mem_map] at this
    obtain ⟨i, hi', v, hv', rfl⟩ := this
    exact Or.inr (Or.inr (Or.inl ⟨i, hi', v, hv', by simpa using ho, rfl⟩))
  · exact Or.inl ⟨v, hv', rfl⟩
  · have := mem_uniqueTypes hu
    simp only [List.mem_flatMap, List.mem_map] at this
    obtain ⟨i, hi', v, hv', rfl⟩ := this
    exact Or.inr (Or.inr (Or.inr ⟨i, hi', v, hv', by simpa using ho, rfl⟩))
  · exact Or.inr (Or.inl ⟨v, hv', rfl⟩)

/-- **C47 for source modules.** What `c47_accepted_programs_do_not_go_wrong_partial` says, of a module that went
through name resolution and the whole analysis; `interface_closed` and `c53_interfaces_compiled` give the hypotheses
about the interfaces it imports, one module after another. -/
theorem c47_source_modules_partial {D : Nat} {pre : String} {b b' : Module} {imports : List Import}
    {preludes : List Interface} (hw : Written b) (hi : ∀ i ∈ imports.map (·.interface) ++ preludes, i.Compiled)
    (hc : ∀ i ∈ imports.map (·.interface) ++ preludes, i.Closed)
    (h : compile D pre b imports preludes = some b') {n : Nat} {m' : Hir.Module} (ha : analyze n b' = .ok m')
    (ht : TameModule b'.toHir) {W : World} (hW : WorldOk m' W) {d : Definition} (hd : d ∈ b'.toHir.definitions)
    {as : List Ty} {c : Ty} (hcn : Canon b'.toHir.ctx.types (lambdaType d.params d.result) (.function as c))
    {args : List Val} (hargs : List.Forall₂ (HasType m') args as) (a k : Nat) (log : Log) :
    callFunction W m' a k d.name args log = .more ∨
      ∃ v log', callFunction W m' a k d.name args log = .val v log' ∧ HasType m' v c
        ∧ Represents b'.toHir.ctx v c :=
  c47_accepted_programs_do_not_go_wrong_partial (analyze_hir hw hi hc h ha) ht hW hd hcn hargs a k log

/-- The interface of the sample module meets the hypotheses. -/
example : (interface compiledA).Closed := by
  have hacc : ∃ r, analyze 20 compiledA = .ok r := by
    have : Res.isOk (analyze 20 compiledA) = true := by decide +kernel
    cases h : analyze 20 compiledA with
    | ok r => exact ⟨r, rfl⟩
    | err e => rw [h] at this; cases this
    | more => rw [h] at this; cases this
  obtain ⟨r, hr⟩ := hacc
  exact interface_closed sampleA_written (by simp) (by simp) sampleA_compiled hr

end Verif.Names
