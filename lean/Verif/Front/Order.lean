import Verif.Front.Program

/-
The order of imports: what modules mean does not depend on it if no name is offered by imports with two
meanings.
-/

namespace Verif.Front

open Verif
open Verif.Names (Plain)

/-- No name is offered by imports with two meanings. -/
structure OffersOne (is : List Names.Import) : Prop where
  functions : ∀ i ∈ is, ∀ j ∈ is, ∀ f ∈ i.interface.functions, ∀ g ∈ j.interface.functions,
    i.sees f.original = j.sees g.original → f.name = g.name
  types : ∀ i ∈ is, ∀ j ∈ is,
    ∀ x ∈ (i.interface.types.filter (·.isPublic)).map (fun t => (t.original, t.name)) ++
      (i.interface.aliases.filter (·.isPublic)).map (fun a => (a.original, a.name)),
    ∀ y ∈ (j.interface.types.filter (·.isPublic)).map (fun t => (t.original, t.name)) ++
      (j.interface.aliases.filter (·.isPublic)).map (fun a => (a.original, a.name)),
    i.sees x.1 = j.sees y.1 → x.2 = y.2

/-- Two imports that differ in the order of names only. -/
def SameImport (i j : Names.Import) : Prop :=
  i.interface = j.interface ∧ i.pre = j.pre ∧ ∀ x, x ∈ i.unqualified ↔ x ∈ j.unqualified

/-- Two lists of imports that differ in order only. -/
def SameImported (is js : List Names.Import) : Prop :=
  (∀ i ∈ is, ∃ j ∈ js, SameImport i j) ∧ ∀ j ∈ js, ∃ i ∈ is, SameImport i j

theorem SameImport.key {i j : Names.Import} (h : SameImport i j) (x : String) : i.key x = j.key x := by
  unfold Names.Import.key
  rw [h.2.1]
  by_cases hx : x ∈ i.unqualified
  · rw [if_pos hx, if_pos ((h.2.2 x).mp hx)]
  · rw [if_neg hx, if_neg (fun h' => hx ((h.2.2 x).mpr h'))]

theorem lastLookup_mem {β : Type} {xs : List (String × β)} {x : String} {b : β}
    (h : Hir.lastLookup xs x = some b) : (x, b) ∈ xs := by
  unfold Hir.lastLookup at h
  rw [Option.map_eq_some_iff] at h
  obtain ⟨p, hp, rfl⟩ := h
  have h1 := List.mem_of_find?_eq_some hp
  have h2 := List.find?_some hp
  simp only [beq_iff_eq] at h2
  rw [← h2]
  exact List.mem_reverse.mp h1

theorem lastLookup_none {β : Type} {xs : List (String × β)} {x : String}
    (h : Hir.lastLookup xs x = none) : ∀ b, (x, b) ∉ xs := by
  unfold Hir.lastLookup at h
  rw [Option.map_eq_none_iff, List.find?_eq_none] at h
  intro b hb
  exact h (x, b) (List.mem_reverse.mpr hb) (by simp)

/-- A table in which every name has one meaning does not depend on the order of its entries. -/
theorem lastLookup_same {β : Type} {xs ys : List (String × β)} (h : ∀ p, p ∈ xs ↔ p ∈ ys)
    (hf : ∀ x a b, (x, a) ∈ xs → (x, b) ∈ xs → a = b) (x : String) :
    Hir.lastLookup xs x = Hir.lastLookup ys x := by
  cases h1 : Hir.lastLookup xs x with
  | none =>
    cases h2 : Hir.lastLookup ys x with
    | none => rfl
    | some b => exact absurd ((h _).mpr (lastLookup_mem h2)) (lastLookup_none h1 b)
  | some a =>
    cases h2 : Hir.lastLookup ys x with
    | none => exact absurd ((h _).mp (lastLookup_mem h1)) (lastLookup_none h2 a)
    | some b => rw [hf x a b (lastLookup_mem h1) ((h _).mpr (lastLookup_mem h2))]

theorem sees_key (i : Names.Import) (x : String) : i.sees x = i.key x := rfl

theorem SameImported.functions {is js : List Names.Import} (h : SameImported is js) (p : String × String) :
    (p ∈ is.flatMap fun i => i.interface.functions.map fun f => (i.key f.original, f.name)) ↔
      p ∈ js.flatMap fun i => i.interface.functions.map fun f => (i.key f.original, f.name) := by
  simp only [List.mem_flatMap, List.mem_map]
  constructor
  · rintro ⟨i, hi, f, hf, rfl⟩
    obtain ⟨j, hj, e⟩ := h.1 i hi
    exact ⟨j, hj, f, e.1 ▸ hf, by rw [e.key]⟩
  · rintro ⟨j, hj, f, hf, rfl⟩
    obtain ⟨i, hi, e⟩ := h.2 j hj
    exact ⟨i, hi, f, e.1 ▸ hf, by rw [e.key]⟩

theorem variableNames_same {is js : List Names.Import} (h : SameImported is js) (ho : OffersOne is)
    (m : Names.Module) : Names.variableNames is m = Names.variableNames js m := by
  funext x
  unfold Names.variableNames
  rw [lastLookup_same h.functions]
  rintro x a b ha hb
  simp only [List.mem_flatMap, List.mem_map, Prod.mk.injEq] at ha hb
  obtain ⟨i, hi, f, hf, e, rfl⟩ := ha
  obtain ⟨j, hj, g, hg, e', rfl⟩ := hb
  exact ho.functions i hi j hj f hf g hg (by rw [sees_key, sees_key, e, e'])

theorem typeNames_same {is js : List Names.Import} (h : SameImported is js) (ho : OffersOne is)
    (m : Names.Module) : Names.typeNames is m = Names.typeNames js m := by
  funext x
  unfold Names.typeNames
  rw [lastLookup_same]
  · intro p
    simp only [List.mem_flatMap]
    constructor
    · rintro ⟨i, hi, hp⟩
      obtain ⟨j, hj, e⟩ := h.1 i hi
      obtain ⟨q, hq, rfl⟩ := List.mem_map.mp hp
      exact ⟨j, hj, List.mem_map.mpr ⟨q, e.1 ▸ hq, by rw [e.key]⟩⟩
    · rintro ⟨j, hj, hp⟩
      obtain ⟨i, hi, e⟩ := h.2 j hj
      obtain ⟨q, hq, rfl⟩ := List.mem_map.mp hp
      exact ⟨i, hi, List.mem_map.mpr ⟨q, e.1 ▸ hq, by rw [e.key]⟩⟩
  · rintro x a b ha hb
    simp only [List.mem_flatMap] at ha hb
    obtain ⟨i, hi, ha⟩ := ha
    obtain ⟨j, hj, hb⟩ := hb
    obtain ⟨p, hp, ha⟩ := List.mem_map.mp ha
    obtain ⟨q, hq, hb⟩ := List.mem_map.mp hb
    simp only [Prod.mk.injEq] at ha hb
    rw [← ha.2, ← hb.2]
    exact ho.types i hi j hj p hp q hq (by rw [sees_key, sees_key, ha.1, hb.1])

theorem mem_uniqueTypes_names {α : Type} (name : α → String) (pub : α → Bool) (xs : List α) (n : String) :
    n ∈ (Names.uniqueTypes name pub xs).map name ↔ n ∈ xs.map name := by
  unfold Names.uniqueTypes
  simp only [List.mem_map, List.mem_filterMap, List.mem_dedup]
  constructor
  · rintro ⟨a, ⟨k, _, h⟩, rfl⟩
    rw [Option.or_eq_some_iff] at h
    rcases h with h | ⟨_, h⟩
    · exact ⟨a, List.mem_of_find?_eq_some h, rfl⟩
    · exact ⟨a, List.mem_of_find?_eq_some h, rfl⟩
  · rintro ⟨a, ha, rfl⟩
    cases h1 : xs.find? (fun x => name x = name a && pub x) with
    | some b =>
      have := List.find?_some h1
      simp only [Bool.and_eq_true, decide_eq_true_eq] at this
      exact ⟨b, ⟨name a, ⟨a, ha, rfl⟩, by rw [h1]; rfl⟩, this.1⟩
    | none =>
      cases h2 : xs.find? (fun x => decide (name x = name a)) with
      | some b =>
        have := List.find?_some h2
        simp only [decide_eq_true_eq] at this
        exact ⟨b, ⟨name a, ⟨a, ha, rfl⟩, by rw [h1, h2]; rfl⟩, this⟩
      | none =>
        have := List.find?_eq_none.mp h2 a ha
        simp at this

theorem mem_allTypes {pre : String} {m : Names.Module} {is js : List Names.Interface}
    (h : ∀ i, i ∈ is ↔ i ∈ js) (x : String) :
    x ∈ Names.allTypes pre m is ↔ x ∈ Names.allTypes pre m js := by
  simp only [Names.allTypes, List.mem_append, Names.importedTypes, Names.importedAliases,
    mem_uniqueTypes_names]
  simp only [List.mem_map, List.mem_flatMap, h]

theorem builtInType_same {xs ys : List String} (h : ∀ x, x ∈ xs ↔ x ∈ ys) :
    Names.builtInType xs = Names.builtInType ys := by
  funext t
  cases t <;> simp only [Names.builtInType, h]

theorem SameImported.interfaces {is js : List Names.Import} (h : SameImported is js)
    (preludes : List Names.Interface) (i : Names.Interface) :
    i ∈ is.map (·.interface) ++ preludes ↔ i ∈ js.map (·.interface) ++ preludes := by
  simp only [List.mem_append, List.mem_map]
  constructor
  · rintro (⟨a, ha, rfl⟩ | hi)
    · obtain ⟨b, hb, e⟩ := h.1 a ha
      exact .inl ⟨b, hb, e.1.symm⟩
    · exact .inr hi
  · rintro (⟨b, hb, rfl⟩ | hi)
    · obtain ⟨a, ha, e⟩ := h.2 b hb
      exact .inl ⟨a, ha, e.1⟩
    · exact .inr hi

theorem SameImported.valid {is js : List Names.Import} (h : SameImported is js) :
    is.all (·.valid) = true → js.all (·.valid) = true := by
  simp only [List.all_eq_true]
  intro hv j hj
  obtain ⟨i, hi, e⟩ := h.2 j hj
  have := hv i hi
  simp only [Names.Import.valid, List.all_eq_true, decide_eq_true_eq] at this ⊢
  rw [← e.1]
  exact fun x hx => this x ((e.2.2 x).mpr hx)

/-- Two compiled modules with the same definitions, which know the same names of others. -/
structure SameMeaning (b b' : Names.Module) : Prop where
  definitions : b'.definitions = b.definitions
  foreigns : b'.foreigns = b.foreigns
  types : (b'.types.filter fun t => !t.external) = b.types.filter fun t => !t.external
  aliases : (b'.aliases.filter fun t => !t.external) = b.aliases.filter fun t => !t.external
  declarations : ∀ x, x ∈ b'.declarations.map (·.name) ↔ x ∈ b.declarations.map (·.name)
  typeNames : ∀ x, x ∈ b'.types.map (·.name) ++ b'.aliases.map (·.name) ↔
    x ∈ b.types.map (·.name) ++ b.aliases.map (·.name)

theorem filter_importedTypes (is : List Names.Interface) :
    ((Names.importedTypes is).filter fun t => !t.external) = [] := by
  rw [List.filter_eq_nil_iff]
  intro t ht
  simp [(Names.importedTypes_external ht).1]

theorem filter_importedAliases (is : List Names.Interface) :
    ((Names.importedAliases is).filter fun t => !t.external) = [] := by
  rw [List.filter_eq_nil_iff]
  intro t ht
  have := Names.mem_uniqueTypes ht
  simp only [List.mem_flatMap, List.mem_map] at this
  obtain ⟨_, _, _, _, rfl⟩ := this
  simp

theorem compile_same {d : Nat} {pre : String} {h b : Names.Module} {is js : List Names.Import}
    {preludes : List Names.Interface} (hw : Names.Written h) (hs : SameImported is js) (ho : OffersOne is)
    (hi : ∀ i ∈ is.map (·.interface) ++ preludes, i.Compiled)
    (hc : Names.compile d pre h is preludes = some b) :
    ∃ b', Names.compile d pre h js preludes = some b' ∧ SameMeaning b b' := by
  have hv : is.all (·.valid) = true := by
    unfold Names.compile at hc
    split at hc
    · assumption
    · cases hc
  have hj : ∀ i ∈ js.map (·.interface) ++ preludes, i.Compiled := fun i h =>
    hi i ((hs.interfaces preludes i).mpr h)
  obtain ⟨b', hb⟩ : ∃ b', Names.compile d pre h js preludes = some b' :=
    ⟨_, if_pos (hs.valid hv)⟩
  have ht1 : Names.type1 h is = Names.type1 h js := by
    unfold Names.type1; rw [typeNames_same hs ho]
  have ht3 : Names.type3 pre h (is.map (·.interface) ++ preludes) =
      Names.type3 pre h (js.map (·.interface) ++ preludes) := by
    unfold Names.type3
    rw [builtInType_same (mem_allTypes (hs.interfaces preludes))]
  have hd1 := Names.c53_declarations d pre h b is preludes hw hi hc
  have hd2 := Names.c53_declarations d pre h b' js preludes hw hj hb
  refine ⟨b', hb, ?_⟩
  have e1 := Names.compile_target hw hi hc
  have e2 := Names.compile_target hw hj hb
  have hT : ∀ x, x ∈ b'.types.map (·.name) ++ b'.aliases.map (·.name) ↔
      x ∈ b.types.map (·.name) ++ b.aliases.map (·.name) := by
    intro x
    have := mem_allTypes (m := h) (pre := pre) (hs.interfaces preludes) x
    rw [e1, e2]
    simpa [Names.target, Names.allTypes, Function.comp_def] using this.symm
  have hD : ∀ x, x ∈ b'.declarations.map (·.name) ↔ x ∈ b.declarations.map (·.name) := by
    intro x
    have h1 := hd1.2 x
    have h2 := hd2.2 x
    simp only [List.mem_map] at h1 h2 ⊢
    rw [h1, h2]
    constructor
    · rintro ⟨i, hi', r⟩
      exact ⟨i, by simpa using (hs.interfaces preludes i).mpr (by simpa using hi'), r⟩
    · rintro ⟨i, hi', r⟩
      exact ⟨i, by simpa using (hs.interfaces preludes i).mp (by simpa using hi'), r⟩
  subst e1 e2
  refine ⟨?_, ?_, ?_, ?_, hD, hT⟩
  · simp only [Names.target, Names.bodyOf, ht1, ht3, variableNames_same hs ho]
  · simp only [Names.target, ht1, ht3]
  · simp only [Names.target, List.filter_append, filter_importedTypes, ht1, ht3]
  · simp only [Names.target, List.filter_append, filter_importedAliases, ht1, ht3]

/-! ## From the imports of syntax trees -/

theorem importedModules_map {f : Grammar.ModulePath → Option Names.Interface} :
    ∀ {is : List Grammar.Import} {js}, importedModules f is = some js →
      List.Forall₂ (fun i j => f i.path = some j.interface ∧ j.pre = prefixOf i ∧
        j.unqualified = i.names.map text) is js
  | [], _, h => by cases h; exact .nil
  | i :: is, _, h => by
    simp only [importedModules, Option.bind_eq_bind, Option.bind_eq_some_iff, Option.some.injEq] at h
    obtain ⟨g, h1, js, h2, rfl⟩ := h
    exact .cons ⟨h1, rfl, rfl⟩ (importedModules_map h2)

theorem importedModules_ok {f : Grammar.ModulePath → Option Names.Interface} :
    ∀ {is : List Grammar.Import}, (∀ i ∈ is, ∃ g, f i.path = some g) → ∃ js, importedModules f is = some js
  | [], _ => ⟨[], rfl⟩
  | i :: is, h => by
    rw [List.forall_mem_cons] at h
    obtain ⟨⟨g, hg⟩, h⟩ := h
    obtain ⟨js, hj⟩ := importedModules_ok h
    exact ⟨_, by simp only [importedModules, hg, hj]; rfl⟩

theorem forall₂_left {α β : Type} {P : α → β → Prop} : ∀ {as : List α} {bs : List β}, List.Forall₂ P as bs →
    ∀ a ∈ as, ∃ b ∈ bs, P a b
  | _, _, .nil => by simp
  | _, _, .cons h hs => by
    rw [List.forall_mem_cons]
    exact ⟨⟨_, List.mem_cons_self, h⟩, fun a ha =>
      let ⟨b, hb, h⟩ := forall₂_left hs a ha; ⟨b, List.mem_cons_of_mem _ hb, h⟩⟩

theorem forall₂_right {α β : Type} {P : α → β → Prop} {as : List α} {bs : List β} (h : List.Forall₂ P as bs) :
    ∀ b ∈ bs, ∃ a ∈ as, P a b := forall₂_left h.flip

/-- Imports that are the same up to order are so after the conversion. -/
theorem importedModules_same {f : Grammar.ModulePath → Option Names.Interface}
    {is js : List Grammar.Import} (h : Grammar.SameImports is js) {ks : List Names.Import}
    (hk : importedModules f is = some ks) :
    ∃ ls, importedModules f js = some ls ∧ SameImported ks ls := by
  obtain ⟨ps, hp, hj⟩ := h
  have hm := importedModules_map hk
  have key : ∀ j ∈ js, ∃ i ∈ is, j.path = i.path ∧ j.alias? = i.alias? ∧ j.names.Perm i.names := fun j hj' =>
    let ⟨p, hp', e⟩ := forall₂_left hj j hj'
    ⟨p, hp.mem_iff.mp hp', e⟩
  have key' : ∀ i ∈ is, ∃ j ∈ js, j.path = i.path ∧ j.alias? = i.alias? ∧ j.names.Perm i.names := fun i hi =>
    forall₂_right hj i (hp.mem_iff.mpr hi)
  obtain ⟨ls, hl⟩ := importedModules_ok (f := f) (is := js) (fun j hj' => by
    obtain ⟨i, hi, e, _⟩ := key j hj'
    obtain ⟨k, _, hk, _⟩ := forall₂_left hm i hi
    exact ⟨_, e ▸ hk⟩)
  have hn := importedModules_map hl
  have same : ∀ (i j : Grammar.Import) (k l : Names.Import), j.path = i.path → j.alias? = i.alias? →
      j.names.Perm i.names →
      (f i.path = some k.interface ∧ k.pre = prefixOf i ∧ k.unqualified = i.names.map text) →
      (f j.path = some l.interface ∧ l.pre = prefixOf j ∧ l.unqualified = j.names.map text) →
      SameImport k l := by
    intro i j k l e1 e2 e3 h1 h2
    refine ⟨?_, ?_, fun x => ?_⟩
    · have := h1.1
      rw [← e1, h2.1] at this
      exact (Option.some.inj this).symm
    · rw [h1.2.1, h2.2.1]
      unfold prefixOf
      rw [e1, e2]
    · rw [h1.2.2, h2.2.2]
      exact (e3.map text).symm.mem_iff
  refine ⟨ls, hl, fun k hk' => ?_, fun l hl' => ?_⟩
  · obtain ⟨i, hi, h1⟩ := forall₂_right hm k hk'
    obtain ⟨j, hj', e1, e2, e3⟩ := key' i hi
    obtain ⟨l, hl', h2⟩ := forall₂_left hn j hj'
    exact ⟨l, hl', same i j k l e1 e2 e3 h1 h2⟩
  · obtain ⟨j, hj', h2⟩ := forall₂_right hn l hl'
    obtain ⟨i, hi, e1, e2, e3⟩ := key j hj'
    obtain ⟨k, hk', h1⟩ := forall₂_left hm i hi
    exact ⟨k, hk', same i j k l e1 e2 e3 h1 h2⟩

end Verif.Front
