import Verif.Grammar.Modules

/-! The order of imports: formatting a formatted module changes nothing. -/

namespace Verif.Grammar

theorem nameLe_trans {x y z : Name} (h : nameLe x y = true) (h' : nameLe y z = true) :
    nameLe x z = true := by
  simp only [nameLe, decide_eq_true_eq] at *
  exact List.le_trans h h'

theorem nameLe_total (x y : Name) : nameLe x y = true ∨ nameLe y x = true := by
  simp only [nameLe, decide_eq_true_eq]
  exact List.le_total _ _

theorem nameLe_refl (x : Name) : nameLe x x = true := (nameLe_total x x).elim id id

theorem nameLe_antisymm {x y : Name} (h : nameLe x y = true) (h' : nameLe y x = true) : x = y := by
  simp only [nameLe, decide_eq_true_eq] at *
  have e : x.map Char.toNat = y.map Char.toNat := List.le_antisymm h h'
  have inj : ∀ {x y : List Char}, x.map Char.toNat = y.map Char.toNat → x = y := by
    intro x
    induction x with
    | nil => intro y e; cases y with
      | nil => rfl
      | cons => cases e
    | cons c x ih => intro y e; cases y with
      | nil => cases e
      | cons d y =>
        simp only [List.map_cons, List.cons.injEq] at e
        rw [ih e.2, Char.toNat_inj.mp e.1]
  exact inj e

theorem componentsLe_total : ∀ xs ys : List Name,
    componentsLe xs ys = true ∨ componentsLe ys xs = true
  | [], _ => .inl rfl
  | _ :: _, [] => .inr rfl
  | x :: xs, y :: ys => by
    by_cases e : x = y
    · subst e
      simpa [componentsLe] using componentsLe_total xs ys
    · simpa [componentsLe, e, Ne.symm e] using nameLe_total x y

theorem componentsLe_trans : ∀ {xs ys zs : List Name}, componentsLe xs ys = true →
    componentsLe ys zs = true → componentsLe xs zs = true
  | [], _, _, _, _ => rfl
  | _ :: _, [], _, h, _ => by cases h
  | _ :: _, _ :: _, [], _, h => by cases h
  | x :: xs, y :: ys, z :: zs, h, h' => by
    by_cases e : x = y
    · subst e
      by_cases e' : x = z
      · subst e'
        simp only [componentsLe, if_pos] at *
        exact componentsLe_trans h h'
      · simpa only [componentsLe, e', if_false] using h'
    · by_cases e' : y = z
      · subst e'
        simpa only [componentsLe, e, if_false] using h
      · simp only [componentsLe, e, e', if_false] at h h' ⊢
        split
        · rename_i e''
          subst e''
          exact absurd (nameLe_antisymm h h') e
        · exact nameLe_trans h h'

theorem pathLe_total : ∀ p q : ModulePath, pathLe p q = true ∨ pathLe q p = true
  | .external _ _, .external _ _ => componentsLe_total _ _
  | .external _ _, .internal _ => .inl rfl
  | .internal _, .external _ _ => .inr rfl
  | .internal _, .internal _ => componentsLe_total _ _

theorem pathLe_trans : ∀ {p q r : ModulePath}, pathLe p q = true → pathLe q r = true →
    pathLe p r = true
  | .external _ _, .external _ _, .external _ _, h, h' => componentsLe_trans h h'
  | .external _ _, _, .internal _, _, _ => rfl
  | .external _ _, .internal _, .external _ _, _, h => by cases h
  | .internal _, .external _ _, _, h, _ => by cases h
  | .internal _, .internal _, .external _ _, _, h => by cases h
  | .internal _, .internal _, .internal _, h, h' => componentsLe_trans h h'

/-- The imports are sorted by their paths. -/
def Ordered (is : List Import) : Prop := is.Pairwise fun i j => pathLe i.path j.path = true

theorem sortImports_ordered (is : List Import) : Ordered (sortImports is) :=
  List.pairwise_mergeSort (le := fun i j : Import => pathLe i.path j.path)
    (fun _ _ _ h h' => pathLe_trans h h')
    (fun i j => by simpa using pathLe_total i.path j.path) is

theorem sortImports_eq {is : List Import} (h : Ordered is) : sortImports is = is :=
  List.mergeSort_of_pairwise h

theorem sortNames_ordered (xs : List Name) :
    (xs.mergeSort nameLe).Pairwise fun x y => nameLe x y = true :=
  List.pairwise_mergeSort (le := nameLe) (fun _ _ _ h h' => nameLe_trans h h')
    (fun x y => by simpa using nameLe_total x y) xs

theorem orderedImports_ordered (is : List Import) : Ordered (orderedImports is) := by
  refine List.pairwise_append.mpr ⟨sortImports_ordered _, sortImports_ordered _, ?_⟩
  intro i hi j hj
  have hi := (List.mem_filter.mp ((List.mergeSort_perm _ _).mem_iff.mp hi)).2
  have hj := (List.mem_filter.mp ((List.mergeSort_perm _ _).mem_iff.mp hj)).2
  simp only [Import.isExternal] at hi hj
  split at hi <;> split at hj <;> simp_all [pathLe]

theorem orderedImports_perm (is : List Import) : (orderedImports is).Perm is :=
  ((List.mergeSort_perm _ _).append (List.mergeSort_perm _ _)).trans (List.filter_append_perm _ _)

theorem filter_external {is : List Import} (h : Ordered is) :
    is.filter Import.isExternal ++ is.filter (fun i => !i.isExternal) = is := by
  induction is with
  | nil => rfl
  | cons i is ih =>
    rw [Ordered, List.pairwise_cons] at h
    cases hi : i.isExternal with
    | true => simp [hi, ih h.2]
    | false =>
      have hn : ∀ j ∈ is, j.isExternal = false := by
        intro j hj
        have := h.1 j hj
        simp only [Import.isExternal] at hi ⊢
        split at hi
        · cases hi
        · split
          · simp_all [pathLe]
          · rfl
      have e1 : is.filter Import.isExternal = [] := by
        rw [List.filter_eq_nil_iff]
        intro j hj
        simp [hn j hj]
      have e2 : is.filter (fun i => !i.isExternal) = is := by
        rw [List.filter_eq_self]
        intro j hj
        simp [hn j hj]
      simp [hi, e1, e2]

theorem orderedImports_eq {is : List Import} (h : Ordered is) : orderedImports is = is := by
  unfold orderedImports
  rw [sortImports_eq (h.filter _), sortImports_eq (h.filter _), filter_external h]

theorem Import.sorted_sorted (i : Import) : i.sorted.sorted = i.sorted := by
  simp only [Import.sorted]
  rw [List.mergeSort_of_pairwise (sortNames_ordered _)]

theorem sorted_imports (m : Module) :
    m.sorted.imports = (orderedImports m.imports).map Import.sorted := rfl

theorem sorted_ordered (m : Module) : Ordered m.sorted.imports := by
  rw [sorted_imports, Ordered, List.pairwise_map]
  exact orderedImports_ordered _

theorem Module.sorted_sorted (m : Module) : m.sorted.sorted = m.sorted := by
  show ({ m.sorted with imports := (orderedImports m.sorted.imports).map Import.sorted } : Module) = _
  rw [orderedImports_eq (sorted_ordered m), sorted_imports, List.map_map]
  have : (Import.sorted ∘ Import.sorted) = Import.sorted := funext Import.sorted_sorted
  rw [this]
  rfl

theorem printModule_sorted (m : Module) : printModule m.sorted = printModule m := by
  have e : (orderedImports m.sorted.imports).map printImport =
      (orderedImports m.imports).map printImport := by
    rw [orderedImports_eq (sorted_ordered m), sorted_imports, List.map_map]
    refine List.map_congr_left fun i _ => ?_
    rw [Function.comp_apply, printImport_eq, Import.sorted_sorted, ← printImport_eq]
  unfold printModule
  rw [e]
  rfl

end Verif.Grammar
