import Verif.Mir.AliasLemmas
import Verif.Mir.SplitBinders

/-
Normalization removes aliases in the body of every function, innermost functions first. That is the same as removing
all aliases after the whole program is normalized.
-/
namespace Verif.Mir

mutual
/-- Environments of local functions are not inferred yet: they are empty. -/
def noEnvironments : Expr → Prop
  | .literal _ => True
  | .variable _ => True
  | .op _ es => noEnvironmentsExprs es
  | .case e as => noEnvironments e ∧ noEnvironmentsAlts as
  | .if_ c t e => noEnvironments c ∧ noEnvironments t ∧ noEnvironments e
  | .let_ _ e b => noEnvironments e ∧ noEnvironments b
  | .letRec _ env _ _ body b => env = [] ∧ noEnvironments body ∧ noEnvironments b
  | .try_ e _ _ b => noEnvironments e ∧ noEnvironments b
  | .clone _ e => noEnvironments e
  | .drop _ e => noEnvironments e
def noEnvironmentsExprs : Exprs → Prop
  | .nil => True
  | .cons e es => noEnvironments e ∧ noEnvironmentsExprs es
def noEnvironmentsAlts : Alts → Prop
  | .nil => True
  | .cons _ _ e as => noEnvironments e ∧ noEnvironmentsAlts as
end

/-! ### Alias removal depends on free variables only -/

mutual
theorem alias_congr : ∀ (e : Expr) (v v' : Aliases), noEnvironments e → (∀ y ∈ free e, v y = v' y) →
    removeAliases v e = removeAliases v' e
  | .literal _, v, v', _, _ => rfl
  | .variable x, v, v', _, h => by simp only [removeAliases]; rw [h x (by simp [free])]
  | .op o es, v, v', hn, h => by
    simp only [removeAliases]
    rw [aliasExprs_congr es v v' hn h]
  | .case e as, v, v', hn, h => by
    simp only [removeAliases]
    rw [alias_congr e v v' hn.1 fun y hy => h y (by simp [free, hy]),
      aliasAlts_congr as v v' hn.2 fun y hy => h y (by simp [free, hy])]
  | .if_ c t e, v, v', hn, h => by
    simp only [removeAliases]
    rw [alias_congr c v v' hn.1 fun y hy => h y (by simp [free, hy]),
      alias_congr t v v' hn.2.1 fun y hy => h y (by simp [free, hy]),
      alias_congr e v v' hn.2.2 fun y hy => h y (by simp [free, hy])]
  | .let_ x e b, v, v', hn, h => by
    simp only [removeAliases]
    rw [alias_congr e v v' hn.1 fun y hy => h y (by simp [free, hy])]
    have hb : ∀ y ∈ free b, y ≠ x → v y = v' y := fun y hy hyx =>
      h y (by simp only [free, List.mem_append]; exact Or.inr (mem_filter_ne hy hyx))
    split
    · refine alias_congr b _ _ hn.2 fun y hy => ?_
      simp only [Aliases.insert]
      split
      · rfl
      · exact hb y hy (by assumption)
    · rw [alias_congr b (v.remove x) (v'.remove x) hn.2 fun y hy => ?_]
      simp only [Aliases.remove]
      split
      · rfl
      · exact hb y hy (by assumption)
  | .letRec f env args th body b, v, v', hn, h => by
    obtain ⟨rfl, hn1, hn2⟩ := hn
    simp only [removeAliases, List.map_nil]
    rw [alias_congr body ((v.remove f).removeMany args) ((v'.remove f).removeMany args) hn1 fun y hy => ?_,
      alias_congr b (v.remove f) (v'.remove f) hn2 fun y hy => ?_]
    · simp only [Aliases.remove]
      split
      · rfl
      · rename_i hyf
        exact h y (by simp only [free, List.mem_filter, List.mem_append, bne_iff_ne, ne_eq]; exact ⟨Or.inr hy, hyf⟩)
    · simp only [removeMany_eq, Aliases.remove]
      split
      · rfl
      · split
        · rfl
        · rename_i hya hyf
          refine h y ?_
          simp only [free, List.mem_filter, List.mem_append, bne_iff_ne, ne_eq, Bool.and_eq_true, List.all_eq_true]
          exact ⟨Or.inl ⟨hy, hyf, fun z hz h => hya (h ▸ hz)⟩, hyf⟩
  | .try_ e x t b, v, v', hn, h => by
    simp only [removeAliases]
    rw [alias_congr e v v' hn.1 fun y hy => h y (by simp [free, hy]),
      alias_congr b (v.remove x) (v'.remove x) hn.2 fun y hy => ?_]
    simp only [Aliases.remove]
    split
    · rfl
    · rename_i hyx
      exact h y (by simp only [free, List.mem_append]; exact Or.inr (mem_filter_ne hy hyx))
  | .clone xs e, v, v', hn, h => by simp only [removeAliases]; rw [alias_congr e v v' hn h]
  | .drop xs e, v, v', hn, h => by simp only [removeAliases]; rw [alias_congr e v v' hn h]
theorem aliasExprs_congr : ∀ (es : Exprs) (v v' : Aliases), noEnvironmentsExprs es → (∀ y ∈ freeExprs es, v y = v' y) →
    removeAliasesExprs v es = removeAliasesExprs v' es
  | .nil, v, v', _, _ => rfl
  | .cons e es, v, v', hn, h => by
    simp only [removeAliasesExprs]
    rw [alias_congr e v v' hn.1 fun y hy => h y (by simp [freeExprs, hy]),
      aliasExprs_congr es v v' hn.2 fun y hy => h y (by simp [freeExprs, hy])]
theorem aliasAlts_congr : ∀ (as : Alts) (v v' : Aliases), noEnvironmentsAlts as → (∀ y ∈ freeAlts as, v y = v' y) →
    removeAliasesAlts v as = removeAliasesAlts v' as
  | .nil, v, v', _, _ => rfl
  | .cons ts x e as, v, v', hn, h => by
    simp only [removeAliasesAlts]
    rw [alias_congr e (v.remove x) (v'.remove x) hn.1 fun y hy => ?_,
      aliasAlts_congr as v v' hn.2 fun y hy => h y (by simp [freeAlts, hy])]
    simp only [Aliases.remove]
    split
    · rfl
    · rename_i hyx
      exact h y (by simp only [freeAlts, List.mem_append]; exact Or.inl (mem_filter_ne hy hyx))
end

/-- Whether an expression becomes a variable does not depend on names. -/
theorem variableName_shape : ∀ (e : Expr) (v v' : Aliases),
    (variableName (removeAliases v e)).isSome = (variableName (removeAliases v' e)).isSome
  | .let_ x e b, v, v' => by
    have ih := variableName_shape e v v'
    simp only [removeAliases]
    split <;> rename_i h1 <;> split <;> rename_i h2
    · exact variableName_shape b _ _
    · rw [h1, h2] at ih; simp at ih
    · rw [h1, h2] at ih; simp at ih
    · rfl
  | .literal _, _, _ | .variable _, _, _ | .op _ _, _, _ | .case _ _, _, _ | .if_ _ _ _, _, _
  | .letRec _ _ _ _ _ _, _, _ | .try_ _ _ _ _, _, _ | .clone _ _, _, _ | .drop _ _, _, _ => by
    simp only [removeAliases, variableName] <;> rfl

/-- Removing aliases twice is removing them once. -/
theorem remove_comp {v1 v2 : Aliases} {x y : Name} (h : y ≠ x → v1 y ≠ x) :
    (v2.remove x) ((v1.remove x) y) = Aliases.remove (fun z => v2 (v1 z)) x y := by
  simp only [Aliases.remove]
  by_cases hyx : y = x
  · simp [hyx]
  · simp [hyx, h hyx]

mutual
theorem alias_alias : ∀ (e : Expr) (v1 v2 : Aliases), noEnvironments e → SafeE v1 e →
    removeAliases v2 (removeAliases v1 e) = removeAliases (fun y => v2 (v1 y)) e
  | .literal _, v1, v2, _, _ => rfl
  | .variable x, v1, v2, _, _ => rfl
  | .op o es, v1, v2, hn, h => by
    simp only [removeAliases]
    rw [aliasExprs_alias es v1 v2 hn h]
  | .case e as, v1, v2, hn, h => by
    simp only [removeAliases]
    rw [alias_alias e v1 v2 hn.1 (h.sub (by simp [binders]) fun y hy => Or.inl ⟨by simp [free, hy], rfl⟩),
      aliasAlts_alias as v1 v2 hn.2 (h.sub (by simp [binders]) fun y hy => Or.inl ⟨by simp [free, hy], rfl⟩)]
  | .if_ c t e, v1, v2, hn, h => by
    simp only [removeAliases]
    rw [alias_alias c v1 v2 hn.1 (h.sub (by simp [binders]) fun y hy => Or.inl ⟨by simp [free, hy], rfl⟩),
      alias_alias t v1 v2 hn.2.1 (h.sub (by simp [binders]) fun y hy => Or.inl ⟨by simp [free, hy], rfl⟩),
      alias_alias e v1 v2 hn.2.2 (h.sub (by simp [binders]) fun y hy => Or.inl ⟨by simp [free, hy], rfl⟩)]
  | .let_ x e b, v1, v2, hn, h => by
    have he := alias_alias e v1 v2 hn.1 (h.sub (by simp [binders]) fun y hy => Or.inl ⟨by simp [free, hy], rfl⟩)
    have hshape := variableName_shape e v1 (fun y => v2 (v1 y))
    simp only [removeAliases]
    cases h1 : variableName (removeAliases v1 e) with
    | some y =>
      have h1' := variableName_some h1
      rw [h1'] at he
      simp only [removeAliases] at he
      rw [← he]
      simp only [variableName]
      rw [alias_alias b _ v2 hn.2 (h.letAlias h1')]
      congr 1
      funext z
      simp only [Aliases.insert]
      split <;> rfl
    | none =>
      rw [h1] at hshape
      have h2 : variableName (removeAliases (fun y => v2 (v1 y)) e) = none := by
        cases h3 : variableName (removeAliases (fun y => v2 (v1 y)) e) with
        | none => rfl
        | some z => rw [h3] at hshape; simp at hshape
      simp only [removeAliases, he, h2]
      rw [alias_alias b _ _ hn.2 h.letBody, alias_congr b _ _ hn.2 fun y hy => ?_]
      refine remove_comp fun hyx hv => ?_
      exact h.fresh y (by simp only [free, List.mem_append]; exact Or.inr (mem_filter_ne hy hyx)) (by simp [binders, hv])
  | .letRec f env args th body b, v1, v2, hn, h => by
    obtain ⟨rfl, hn1, hn2⟩ := hn
    have hs := h.letRecDef
    simp only [removeAliases, List.map_nil]
    rw [alias_alias body _ _ hn1 hs.body, alias_alias b _ _ hn2 h.letRecBody,
      alias_congr b _ _ hn2 fun y hy => ?_, alias_congr body _ _ hn1 fun y hy => ?_]
    · have := hs.fresh y hy
      simp only [removeMany_eq, Aliases.remove]
      by_cases hya : y ∈ args
      · simp [hya]
      · by_cases hyf : y = f
        · subst hyf; simp [hya]
        · have := this hyf hya
          simp [hya, hyf, this.2.1, this.2.2]
    · refine remove_comp fun hyf hv => ?_
      exact h.fresh y (by simp only [free, List.mem_filter, List.mem_append, bne_iff_ne, ne_eq]; exact ⟨Or.inr hy, hyf⟩)
        (by simp [binders, hv])
  | .try_ e x t b, v1, v2, hn, h => by
    simp only [removeAliases]
    rw [alias_alias e v1 v2 hn.1 (h.sub (by simp [binders]) fun y hy => Or.inl ⟨by simp [free, hy], rfl⟩),
      alias_alias b _ _ hn.2 h.tryBody, alias_congr b _ _ hn.2 fun y hy => ?_]
    refine remove_comp fun hyx hv => ?_
    exact h.fresh y (by simp only [free, List.mem_append]; exact Or.inr (mem_filter_ne hy hyx)) (by simp [binders, hv])
  | .clone xs e, v1, v2, hn, h => by simp only [removeAliases]; rw [alias_alias e v1 v2 hn h]
  | .drop xs e, v1, v2, hn, h => by simp only [removeAliases]; rw [alias_alias e v1 v2 hn h]
theorem aliasExprs_alias : ∀ (es : Exprs) (v1 v2 : Aliases), noEnvironmentsExprs es →
    Safe v1 (bindersExprs es) (freeExprs es) →
    removeAliasesExprs v2 (removeAliasesExprs v1 es) = removeAliasesExprs (fun y => v2 (v1 y)) es
  | .nil, v1, v2, _, _ => rfl
  | .cons e es, v1, v2, hn, h => by
    simp only [removeAliasesExprs]
    rw [alias_alias e v1 v2 hn.1 (h.sub (by simp [bindersExprs]) fun y hy => Or.inl ⟨by simp [freeExprs, hy], rfl⟩),
      aliasExprs_alias es v1 v2 hn.2 (h.sub (by simp [bindersExprs]) fun y hy => Or.inl ⟨by simp [freeExprs, hy], rfl⟩)]
theorem aliasAlts_alias : ∀ (as : Alts) (v1 v2 : Aliases), noEnvironmentsAlts as →
    Safe v1 (bindersAlts as) (freeAlts as) →
    removeAliasesAlts v2 (removeAliasesAlts v1 as) = removeAliasesAlts (fun y => v2 (v1 y)) as
  | .nil, v1, v2, _, _ => rfl
  | .cons ts x e as, v1, v2, hn, h => by
    simp only [removeAliasesAlts]
    rw [alias_alias e _ _ hn.1 (SafeE.alternative h), alias_congr e _ _ hn.1 fun y hy => ?_,
      aliasAlts_alias as v1 v2 hn.2 (h.sub (by simp [bindersAlts]) fun y hy => Or.inl ⟨by simp [freeAlts, hy], rfl⟩)]
    refine remove_comp fun hyx hv => ?_
    exact h.fresh y (by simp only [freeAlts, List.mem_append]; exact Or.inl (mem_filter_ne hy hyx))
      (by simp [bindersAlts, hv])
end

end Verif.Mir
