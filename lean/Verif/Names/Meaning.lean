import Verif.Names.Compiled

/-! # The tables of all passes together -/

namespace Verif.Names

open Verif.Hir

theorem builtInVariable_eq (x : String) :
    builtInVariable x = (languageVariables.lookup x).getD (.variable x) := by
  unfold builtInVariable
  split <;> try rfl
  rename_i h1 h2 h3 h4 h5 h6 h7 h8 h9 h10 h11 h12 h13 h14
  rw [List.lookup_eq_none_iff.2]
  · rfl
  · simp only [languageVariables, List.mem_cons, List.not_mem_nil, or_false, forall_eq_or_imp, forall_eq, bne_iff_ne]
    exact ⟨h7, h11, h4, h1, h2, h3, h5, h6, h8, h9, h10, h12, h13, h14⟩

theorem builtInType_eq (types : List String) (x : String) :
    builtInType types (.reference x)
      = if x ∈ types then .reference x else (languageTypes.lookup x).getD (.reference x) := by
  unfold builtInType
  by_cases h : x ∈ types
  · simp [h]
  · simp only [h, if_false]
    split <;> try rfl
    rename_i h1 h2 h3 h4 h5 h6
    rw [List.lookup_eq_none_iff.2]
    · rfl
    · simp only [languageTypes, List.mem_cons, List.not_mem_nil, or_false, forall_eq_or_imp, forall_eq, bne_iff_ne]
      exact ⟨h1, h2, h3, h4, h5, h6⟩

theorem full_prefix (pre x : String) (h : Full pre) : Full (pre ++ x) := by
  simp only [Full, String.toList_append, List.mem_append] at *; exact Or.inl h

theorem language_plain {x : String} (h : Full x) : languageVariables.lookup x = none := by
  have : ∀ p ∈ languageVariables, Plain p.1 := by
    intro p hp
    simp only [languageVariables, List.mem_cons, List.not_mem_nil, or_false] at hp
    rcases hp with rfl | rfl | rfl | rfl | rfl | rfl | rfl | rfl | rfl | rfl | rfl | rfl | rfl | rfl <;>
      simp [Plain]
  rw [List.lookup_eq_none_iff]
  intro p hp
  have := this p hp
  simp only [bne_iff_ne, ne_eq]
  rintro rfl
  exact this h

theorem languageTypes_plain {x : String} (h : Full x) : languageTypes.lookup x = none := by
  have : ∀ p ∈ languageTypes, Plain p.1 := by
    intro p hp
    simp only [languageTypes, List.mem_cons, List.not_mem_nil, or_false] at hp
    rcases hp with rfl | rfl | rfl | rfl | rfl | rfl <;> simp [Plain]
  rw [List.lookup_eq_none_iff]
  intro p hp
  have := this p hp
  simp only [bne_iff_ne, ne_eq]
  rintro rfl
  exact this h

theorem importedFunction_full {imports : List Import} (hi : ∀ i ∈ imports, i.interface.Compiled) {x n : String}
    (h : importedFunction imports x = some n) : Full n := by
  have := List.mem_of_getLast? h
  simp only [List.mem_flatMap, List.mem_map, List.mem_filter] at this
  obtain ⟨i, hi', f, ⟨hf, -⟩, rfl⟩ := this
  exact (hi i hi').functions f hf

theorem importedType_full {imports : List Import} (hi : ∀ i ∈ imports, i.interface.Compiled) {x n : String}
    (h : importedType imports x = some n) : Full n := by
  have := List.mem_of_getLast? h
  simp only [List.mem_flatMap, List.mem_append, List.mem_map, List.mem_filter] at this
  obtain ⟨i, hi', ⟨f, ⟨hf, -⟩, rfl⟩ | ⟨f, ⟨hf, -⟩, rfl⟩⟩ := this
  · exact (hi i hi').types f hf
  · exact (hi i hi').aliases f hf

theorem own_plain {m : Module} (hw : Written m) {x : String}
    (h : x ∈ m.definitions.map (·.name) ++ m.foreigns.map (·.name)) : Plain x := by
  simp only [List.mem_append, List.mem_map] at h
  rcases h with ⟨f, hf, rfl⟩ | ⟨f, hf, rfl⟩
  · exact (hw.definitions f hf).2.1
  · exact hw.foreigns f hf

theorem ownType_plain {m : Module} (hw : Written m) {x : String}
    (h : x ∈ m.types.map (·.name) ++ m.aliases.map (·.name)) : Plain x := by
  simp only [List.mem_append, List.mem_map] at h
  rcases h with ⟨f, hf, rfl⟩ | ⟨f, hf, rfl⟩
  · exact (hw.types f hf).2.1
  · exact (hw.aliases f hf).2.1

theorem original_name {m : Module} (hw : Written m) :
    m.definitions.map (·.original) = m.definitions.map (·.name) :=
  List.map_congr_left fun f hf => (hw.definitions f hf).1

theorem original_type {m : Module} (hw : Written m) :
    m.types.map (·.original) ++ m.aliases.map (·.original) = m.types.map (·.name) ++ m.aliases.map (·.name) := by
  rw [List.map_congr_left fun f hf => (hw.types f hf).1, List.map_congr_left fun f hf => (hw.aliases f hf).1]

theorem follow_eq (pre : String) (m : Module) (imports : List Import) (hw : Written m) (hp : Full pre)
    (hi : ∀ i ∈ imports, i.interface.Compiled) (x : String) :
    follow (follow (renamed (variableNames imports m)) (renamed (ownNames pre m))) builtInVariable x
      = meaning pre m imports x := by
  simp only [follow, renamed, meaning, resolveVariable, variableNames_eq, original_name hw]
  by_cases h1 : x ∈ m.definitions.map (·.name)
  · have h1' : x ∈ m.definitions.map (·.name) ++ m.foreigns.map (·.name) := List.mem_append_left _ h1
    simp only [h1, if_true, Option.getD_none, ownNames, h1', Option.getD_some]
    rw [builtInVariable_eq, language_plain (full_prefix _ _ hp)]; rfl
  · simp only [h1, if_false]
    cases h2 : importedFunction imports x with
    | some n =>
      have hf := importedFunction_full hi h2
      have h3 : n ∉ m.definitions.map (·.name) ++ m.foreigns.map (·.name) := fun h => own_plain hw h hf
      simp only [Option.getD_some, ownNames, h3, if_false, Option.getD_none]
      rw [builtInVariable_eq, language_plain hf]; rfl
    | none =>
      simp only [Option.getD_none, ownNames]
      by_cases h3 : x ∈ m.foreigns.map (·.name)
      · have h3' : x ∈ m.definitions.map (·.name) ++ m.foreigns.map (·.name) := List.mem_append_right _ h3
        simp only [h3', if_true, Option.getD_some, h3]
        rw [builtInVariable_eq, language_plain (full_prefix _ _ hp)]; rfl
      · have h3' : x ∉ m.definitions.map (·.name) ++ m.foreigns.map (·.name) := by
          rw [List.mem_append]; exact not_or.2 ⟨h1, h3⟩
        simp only [h3', if_false, Option.getD_none, h3]
        exact builtInVariable_eq x

theorem allTypes_full {pre : String} {m : Module} {is : List Interface} (hp : Full pre)
    (hi : ∀ i ∈ is, i.Compiled) {x : String} (h : x ∈ allTypes pre m is) : Full x := by
  simp only [allTypes, List.mem_append, List.mem_map] at h
  rcases h with (⟨t, ht, rfl⟩ | ⟨t, ht, rfl⟩) | ⟨t, ht, rfl⟩ | ⟨t, ht, rfl⟩
  · obtain ⟨-, i, hi', u, hu, e⟩ := importedTypes_external ht
    exact e ▸ (hi i hi').types u hu
  · exact full_prefix _ _ hp
  · obtain ⟨-, i, hi', u, hu, e⟩ := importedAliases_external ht
    exact e ▸ (hi i hi').aliases u hu
  · exact full_prefix _ _ hp

theorem type_eq (pre : String) (m : Module) (imports : List Import) (is : List Interface) (hw : Written m)
    (hp : Full pre) (hm : ∀ i ∈ imports, i.interface.Compiled) (hi : ∀ i ∈ is, i.Compiled) (t : Ty) :
    type3 pre m is (type2 pre m (type1 m imports t)) = typeMeaning pre m imports t := by
  simp only [type3, type2, type1, resolveType_mapType_rename, resolveType_mapType_builtIn,
    resolveType_resolveType, typeMeaning, typeNames_eq, original_type hw, resolveType]
  refine resolveType_congr (fun n => ?_) (fun n => ?_) t
  · simp only [id, resolveRecord]
    by_cases h1 : n ∈ m.types.map (·.name) ++ m.aliases.map (·.name)
    · simp only [h1, if_true, Option.getD_none, ownTypes, Option.getD_some]
    · simp only [h1, if_false]
      cases h2 : importedType imports n with
      | some k =>
        have h3 : k ∉ m.types.map (·.name) ++ m.aliases.map (·.name) :=
          fun h => ownType_plain hw h (importedType_full hm h2)
        simp only [Option.getD_some, ownTypes, h3, if_false, Option.getD_none]
      | none => simp only [Option.getD_none, ownTypes, h1, if_false]
  · simp only [resolveReference, builtInType_eq]
    by_cases h1 : n ∈ m.types.map (·.name) ++ m.aliases.map (·.name)
    · simp only [h1, if_true, Option.getD_none, ownTypes, Option.getD_some]
      rw [languageTypes_plain (full_prefix _ _ hp)]; simp
    · simp only [h1, if_false]
      cases h2 : importedType imports n with
      | some k =>
        have hf := importedType_full hm h2
        have h3 : k ∉ m.types.map (·.name) ++ m.aliases.map (·.name) := fun h => ownType_plain hw h hf
        simp only [Option.getD_some, ownTypes, h3, if_false, Option.getD_none]
        rw [languageTypes_plain hf]; simp
      | none =>
        simp only [Option.getD_none, ownTypes, h1, if_false]
        by_cases h4 : n ∈ allTypes pre m is
        · simp only [h4, if_true]
          rw [languageTypes_plain (allTypes_full hp hi h4)]; rfl
        · simp only [h4, if_false]

theorem neat_renamed {names : String → Option String} (h : ∀ x n, names x = some n → Full n) :
    Neat Plain (renamed names) := by
  intro x
  simp only [renamed]
  cases hn : names x with
  | none => exact Or.inl rfl
  | some n => exact Or.inr fun hp => hp (h x n hn)

theorem neat_builtIn : Neat Plain builtInVariable := by
  intro x
  have : (∃ y, builtInVariable x = .variable y ∧ y = x) ∨ (∀ y, builtInVariable x ≠ .variable y) ∧
      ∀ Γ, parts Γ (builtInVariable x) = none := by
    unfold builtInVariable
    split <;> simp [parts]
  rcases this with ⟨y, h, e⟩ | ⟨h, h'⟩
  · rw [h]; exact Or.inl e
  · revert h h'
    cases builtInVariable x <;> intro h h' <;> first | exact h' | exact absurd rfl (h _)

theorem outline_bodyOf (D : Nat) (pre : String) (m : Module) (imports : List Import) (is : List Interface)
    (hw : Written m) (hp : Full pre) (hm : ∀ i ∈ imports, i.interface.Compiled) (hi : ∀ i ∈ is, i.Compiled)
    (f : FunctionDefinition) (hf : f ∈ m.definitions) (d : Nat) (hd : d ≤ D) :
    outline d (f.params.map (·.1)).reverse (bodyOf D pre m imports is (f.params.map (·.1)) f.body)
      = (outline d (f.params.map (·.1)).reverse f.body).resolve (meaning pre m imports)
          (typeMeaning pre m imports) := by
  obtain ⟨-, -, hps, hl⟩ := hw.definitions f hf
  have hps' : ∀ x ∈ (f.params.map (·.1)).reverse, Plain x := by
    intro x hx
    simp only [List.mem_reverse, List.mem_map] at hx
    obtain ⟨p, hp', rfl⟩ := hx
    exact hps p hp'
  have rev : ∀ σ, hide (f.params.map (·.1)) σ = hide (f.params.map (·.1)).reverse σ := by
    intro σ; funext x; simp only [hide, List.mem_reverse]
  have n2 : Neat Plain (renamed (variableNames imports m)) := neat_renamed (by
    intro x n h
    rw [variableNames_eq] at h
    split at h
    · cases h
    · exact importedFunction_full hm h)
  have n4 : Neat Plain (renamed (ownNames pre m)) := neat_renamed (by
    intro x n h
    unfold ownNames at h
    split at h
    · cases h; exact full_prefix _ _ hp
    · cases h)
  have l1 := localsAll_mapTypes Plain (type1 m imports) d D hd _ _ (hl d)
  have l2 := localsAll_mapVariables Plain _ n2 d D hd _ _ l1
  have l3 := localsAll_mapVariables Plain _ n4 d D hd _ _ l2
  have l4 := localsAll_mapTypes Plain (type2 pre m) d D hd _ _ l3
  have l5 := localsAll_mapTypes Plain (type3 pre m is) d D hd _ _ l4
  simp only [bodyOf, rev]
  rw [outline_mapVariables Plain _ neat_builtIn d D hd _ _ hps' l5,
    outline_mapTypes _ d D hd, outline_mapTypes _ d D hd,
    outline_mapVariables Plain _ n4 d D hd _ _ hps' l2,
    outline_mapVariables Plain _ n2 d D hd _ _ hps' l1,
    outline_mapTypes _ d D hd]
  simp only [resolve_resolve, id]
  refine resolve_congr (fun x => ?_) (fun t => type_eq pre m imports is hw hp hm hi t) _
  rw [← follow_eq pre m imports hw hp hm]
  simp only [follow, renamed]

end Verif.Names
