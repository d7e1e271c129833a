import Verif.Names.Lemmas

/-! # The composition of the passes -/

namespace Verif.Names

open Verif.Hir

/-! ## Types -/

theorem mapType_eq (f : Ty → Ty) (r : String → String) (g : String → Ty) (hr : ∀ n, f (.record n) = .record (r n))
    (hg : ∀ n, f (.reference n) = g n)
    (h : ∀ t, (∀ n, t ≠ .record n) → (∀ n, t ≠ .reference n) → f t = t) (t : Ty) :
    mapType f t = resolveType r g t := by
  induction t using Ty.ind with
  | function as t ih iht =>
    have : mapTypeList f as = resolveTypes r g as := by
      induction as with
      | nil => rfl
      | cons a as iha =>
        simp only [mapTypeList, resolveTypes, ih a (by simp), List.cons.injEq, true_and]
        exact iha fun b hb => ih b (by simp [hb])
    rw [mapType, resolveType, iht, this]
    exact h _ (by simp) (by simp)
  | list e ih => rw [mapType, resolveType, ih]; exact h _ (by simp) (by simp)
  | map k v ihk ihv => rw [mapType, resolveType, ihk, ihv]; exact h _ (by simp) (by simp)
  | union l r ihl ihr => rw [mapType, resolveType, ihl, ihr]; exact h _ (by simp) (by simp)
  | record n => rw [mapType, resolveType, hr] <;> simp
  | reference n => rw [mapType, resolveType, hg] <;> simp
  | any => rw [mapType, resolveType] <;> first | exact h _ (by simp) (by simp) | simp
  | boolean => rw [mapType, resolveType] <;> first | exact h _ (by simp) (by simp) | simp
  | error => rw [mapType, resolveType] <;> first | exact h _ (by simp) (by simp) | simp
  | none => rw [mapType, resolveType] <;> first | exact h _ (by simp) (by simp) | simp
  | number => rw [mapType, resolveType] <;> first | exact h _ (by simp) (by simp) | simp
  | string => rw [mapType, resolveType] <;> first | exact h _ (by simp) (by simp) | simp

theorem resolveType_mapType_rename (names : String → Option String) (t : Ty) :
    mapType (renameType names) t
      = resolveType (fun n => (names n).getD n) (fun n => .reference ((names n).getD n)) t :=
  mapType_eq _ _ _ (fun _ => rfl) (fun _ => rfl) (by
    intro t h1 h2
    cases t <;> first | rfl | exact absurd rfl (h1 _) | exact absurd rfl (h2 _)) t

theorem resolveType_mapType_builtIn (types : List String) (t : Ty) :
    mapType (builtInType types) t = resolveType id (fun n => builtInType types (.reference n)) t :=
  mapType_eq _ _ _ (fun _ => rfl) (fun _ => rfl) (by
    intro t h1 h2
    cases t <;> first | rfl | exact absurd rfl (h1 _) | exact absurd rfl (h2 _)) t

theorem resolveType_resolveType (r r' : String → String) (f g : String → Ty) (t : Ty) :
    resolveType r' g (resolveType r f t) = resolveType (fun n => r' (r n)) (fun n => resolveType r' g (f n)) t := by
  induction t using Ty.ind with
  | function as t ih ihr =>
    simp only [resolveType, ihr, Ty.function.injEq, and_true]
    induction as with
    | nil => rfl
    | cons a as iha =>
      simp only [resolveTypes, ih a (by simp), List.cons.injEq, true_and]
      exact iha fun b hb => ih b (by simp [hb])
  | list e ih => simp [resolveType, ih]
  | map k v ihk ihv => simp [resolveType, ihk, ihv]
  | union l r ihl ihr => simp [resolveType, ihl, ihr]
  | _ => simp [resolveType]

theorem resolveType_congr {r r' : String → String} {f g : String → Ty} (h : ∀ n, r n = r' n)
    (h' : ∀ n, f n = g n) (t : Ty) : resolveType r f t = resolveType r' g t := by
  rw [show r = r' from funext h, show f = g from funext h']

/-! ## Tables -/

theorem lastLookup_map {α : Type} (key : α → String) (value : α → String) (xs : List α) (x : String) :
    lastLookup (xs.map fun a => (key a, value a)) x
      = ((xs.filter fun a => key a = x).map value).getLast? := by
  unfold lastLookup
  rw [← List.head?_reverse, ← List.map_reverse, ← List.map_reverse, ← List.filter_reverse]
  induction xs.reverse with
  | nil => rfl
  | cons a as ih =>
    by_cases h : key a = x
    · simp [h]
    · have : (key a == x) = false := by simpa using h
      rw [List.map_cons, List.find?_cons]
      simp only [this]
      rw [ih]
      simp [List.filter_cons, h]

theorem lastLookup_prefix (pre : String) (xs : List String) (x : String) :
    lastLookup (xs.map fun a => (a, pre ++ a)) x = if x ∈ xs then some (pre ++ x) else none := by
  rw [lastLookup_map (fun a => a) (fun a => pre ++ a)]
  by_cases h : x ∈ xs
  · simp only [h, if_true]
    have hne : xs.filter (fun a => decide (a = x)) ≠ [] := by
      simp only [ne_eq, List.filter_eq_nil_iff, decide_eq_true_eq, not_forall, not_not]
      exact ⟨x, h, rfl⟩
    rw [List.getLast?_map, List.getLast?_eq_some_getLast hne]
    have := List.getLast_mem hne
    simp only [List.mem_filter, decide_eq_true_eq] at this
    simp [this.2]
  · simp only [h, if_false]
    have : xs.filter (fun a => decide (a = x)) = [] := by
      simp only [List.filter_eq_nil_iff, decide_eq_true_eq]
      rintro a ha rfl; exact h ha
    simp [this]

theorem variableNames_eq (imports : List Import) (m : Module) (x : String) :
    variableNames imports m x
      = if x ∈ m.definitions.map (·.original) then none else importedFunction imports x := by
  unfold variableNames importedFunction
  by_cases h : x ∈ m.definitions.map (·.original)
  · simp only [h, if_true]
  · simp only [h, if_false]
    have e : (imports.flatMap fun i => i.interface.functions.map fun f => (i.key f.original, f.name))
        = (imports.flatMap fun i => i.interface.functions.map fun f => (i, f)).map
            fun p => (p.1.key p.2.original, p.2.name) := by
      simp [List.map_flatMap, Function.comp_def]
    rw [e, lastLookup_map (fun p : Import × InterfaceFunction => p.1.key p.2.original) (fun p => p.2.name)]
    congr 1
    rw [List.filter_flatMap, List.map_flatMap]
    congr 1
    funext i
    rw [List.filter_map, List.map_map]
    rfl

theorem typeNames_eq (imports : List Import) (m : Module) (x : String) :
    typeNames imports m x
      = if x ∈ m.types.map (·.original) ++ m.aliases.map (·.original) then none
        else importedType imports x := by
  unfold typeNames importedType
  by_cases h : x ∈ m.types.map (·.original) ++ m.aliases.map (·.original)
  · simp only [h, if_true]
  · simp only [h, if_false]
    rw [show (imports.flatMap fun i =>
        (((i.interface.types.filter (·.isPublic)).map fun t => (t.original, t.name))
          ++ ((i.interface.aliases.filter (·.isPublic)).map fun a => (a.original, a.name))).map
          fun p => (i.key p.1, p.2))
        = (imports.flatMap fun i =>
        (((i.interface.types.filter (·.isPublic)).map fun t => (i, t.original, t.name))
          ++ ((i.interface.aliases.filter (·.isPublic)).map fun a => (i, a.original, a.name)))).map
            fun p => (p.1.key p.2.1, p.2.2) by
      rw [List.map_flatMap]; congr 1; funext i; simp [Function.comp_def]]
    rw [lastLookup_map (fun p : Import × String × String => p.1.key p.2.1) (fun p => p.2.2)]
    congr 1
    rw [List.filter_flatMap, List.map_flatMap]
    congr 1
    funext i
    rw [List.filter_append, List.map_append, List.filter_map, List.filter_map, List.map_map, List.map_map,
      List.filter_filter, List.filter_filter]
    congr 1
    · refine congrArg _ (List.filter_congr fun t _ => ?_)
      rw [Bool.and_comm]; rfl
    · refine congrArg _ (List.filter_congr fun t _ => ?_)
      rw [Bool.and_comm]; rfl

end Verif.Names
