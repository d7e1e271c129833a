import Verif.Mir.ReadyInfer

/- Passes before environment inference keep the shape of expressions. -/
namespace Verif.Mir

/-! ### Flattening -/

theorem shapedExprs_append : ∀ {es fs : Exprs}, shapedExprs es → shapedExprs fs → shapedExprs (es.append fs)
  | .nil, _, _, hf => hf
  | .cons _ _, _, he, hf => ⟨he.1, shapedExprs_append he.2 hf⟩

theorem splice_shaped : ∀ {es : Exprs}, shapedExprs es → shapedExprs (splice es)
  | .nil, _ => trivial
  | .cons e es, h => by
    simp only [splice]
    split
    · rename_i fs hfs
      rw [concatenationOperands_eq hfs] at h
      exact shapedExprs_append h.1.2 (splice_shaped h.2)
    · exact ⟨h.1, splice_shaped h.2⟩

theorem flatten_shaped {e : Expr} (h : shaped e) : shaped (flattenConcatenation e) := by
  unfold flattenConcatenation
  split
  · rename_i es hes
    rw [concatenationOperands_eq hes] at h
    exact ⟨trivial, splice_shaped h.2⟩
  · exact h

theorem convertExprs_length : ∀ (es : Exprs), (convertExprs flattenConcatenation es).toList.length = es.toList.length
  | .nil => rfl
  | .cons _ es => by simp [convertExprs, Exprs.toList, convertExprs_length es]

mutual
theorem convert_shaped : ∀ (e : Expr), shaped e → shaped (convertExpr flattenConcatenation e)
  | .literal _, _ => flatten_shaped trivial
  | .variable _, _ => flatten_shaped trivial
  | .op o es, h => by
    simp only [convertExpr]
    exact flatten_shaped (e := .op o (convertExprs flattenConcatenation es))
      ⟨h.1.of_length (convertExprs_length es), convertExprs_shaped es h.2⟩
  | .case e as, h => by
    simp only [convertExpr]
    refine flatten_shaped (e := .case _ _) ⟨?_, convert_shaped e h.2.1, convertAlts_shaped as h.2.2⟩
    have := h.1
    cases as with
    | nil => exact absurd rfl this
    | cons => simp [convertAlts]
  | .if_ c t e, h => by
    simp only [convertExpr]
    exact flatten_shaped (e := .if_ _ _ _) ⟨convert_shaped c h.1, convert_shaped t h.2.1, convert_shaped e h.2.2⟩
  | .let_ x e b, h => by
    simp only [convertExpr]
    exact flatten_shaped (e := .let_ _ _ _) ⟨convert_shaped e h.1, convert_shaped b h.2⟩
  | .letRec f env args th body b, h => by
    simp only [convertExpr]
    exact flatten_shaped (e := .letRec _ _ _ _ _ _) ⟨convert_shaped body h.1, convert_shaped b h.2⟩
  | .try_ e x t b, h => by
    simp only [convertExpr]
    refine flatten_shaped (e := .try_ _ _ _ _) ⟨convert_shaped e h.1, ?_⟩
    rw [h.2]
    rfl
theorem convertExprs_shaped : ∀ (es : Exprs), shapedExprs es → shapedExprs (convertExprs flattenConcatenation es)
  | .nil, _ => trivial
  | .cons e es, h => ⟨convert_shaped e h.1, convertExprs_shaped es h.2⟩
theorem convertAlts_shaped : ∀ (as : Alts), shapedAlts as → shapedAlts (convertAlts flattenConcatenation as)
  | .nil, _ => trivial
  | .cons _ _ e as, h => ⟨convert_shaped e h.1, convertAlts_shaped as h.2⟩
end

/-! ### Alpha conversion -/

theorem alphaExprs_length : ∀ (es : Exprs) (ren : Renaming) (c : Counts),
    (alphaExprs es ren c).1.toList.length = es.toList.length
  | .nil, _, _ => rfl
  | .cons _ es, ren, c => by simp [alphaExprs, Exprs.toList, alphaExprs_length es]

mutual
theorem alpha_shaped : ∀ (e : Expr) (ren : Renaming) (c : Counts), shaped e → shaped (alpha e ren c).1
  | .literal _, _, _, _ => trivial
  | .variable _, _, _, _ => trivial
  | .op o es, ren, c, h => ⟨h.1.of_length (alphaExprs_length es ren c), alphaExprs_shaped es ren c h.2⟩
  | .case e as, ren, c, h => by
    refine ⟨?_, alpha_shaped e ren c h.2.1, alphaAlts_shaped as ren _ h.2.2⟩
    have := h.1
    cases as with
    | nil => exact absurd rfl this
    | cons => simp [alphaAlts]
  | .if_ i t e, ren, c, h => ⟨alpha_shaped i ren c h.1, alpha_shaped t ren _ h.2.1, alpha_shaped e ren _ h.2.2⟩
  | .let_ x e b, ren, c, h => ⟨alpha_shaped e ren _ h.1, alpha_shaped b _ _ h.2⟩
  | .letRec f env args th body b, ren, c, h => ⟨alpha_shaped body _ _ h.1, alpha_shaped b _ _ h.2⟩
  | .try_ e x t b, ren, c, h => by
    refine ⟨alpha_shaped e ren _ h.1, ?_⟩
    rw [h.2]
    simp [alpha, alphaExprs, Renaming.insert]
theorem alphaExprs_shaped : ∀ (es : Exprs) (ren : Renaming) (c : Counts), shapedExprs es → shapedExprs (alphaExprs es ren c).1
  | .nil, _, _, _ => trivial
  | .cons e es, ren, c, h => ⟨alpha_shaped e ren c h.1, alphaExprs_shaped es ren _ h.2⟩
theorem alphaAlts_shaped : ∀ (as : Alts) (ren : Renaming) (c : Counts), shapedAlts as → shapedAlts (alphaAlts as ren c).1
  | .nil, _, _, _ => trivial
  | .cons _ _ e as, ren, c, h => ⟨alpha_shaped e _ _ h.1, alphaAlts_shaped as ren _ h.2⟩
end

/-! ### Alias removal -/

theorem removeAliasesExprs_length (v : Aliases) : ∀ (es : Exprs),
    (removeAliasesExprs v es).toList.length = es.toList.length
  | .nil => rfl
  | .cons _ es => by simp [removeAliasesExprs, Exprs.toList, removeAliasesExprs_length v es]

mutual
theorem removeAliases_shaped : ∀ (e : Expr) (v : Aliases), shaped e → shaped (removeAliases v e)
  | .literal _, _, _ => trivial
  | .variable _, _, _ => trivial
  | .op o es, v, h => ⟨h.1.of_length (removeAliasesExprs_length v es), removeAliasesExprs_shaped es v h.2⟩
  | .case e as, v, h => by
    refine ⟨?_, removeAliases_shaped e v h.2.1, removeAliasesAlts_shaped as v h.2.2⟩
    have := h.1
    cases as with
    | nil => exact absurd rfl this
    | cons => simp [removeAliasesAlts]
  | .if_ c t e, v, h => ⟨removeAliases_shaped c v h.1, removeAliases_shaped t v h.2.1, removeAliases_shaped e v h.2.2⟩
  | .let_ x e b, v, h => by
    simp only [removeAliases]
    split
    · exact removeAliases_shaped b _ h.2
    · exact ⟨removeAliases_shaped e v h.1, removeAliases_shaped b _ h.2⟩
  | .letRec f env args th body b, v, h => ⟨removeAliases_shaped body _ h.1, removeAliases_shaped b _ h.2⟩
  | .try_ e x t b, v, h => by
    refine ⟨removeAliases_shaped e v h.1, ?_⟩
    rw [h.2]
    simp [removeAliases, removeAliasesExprs, Aliases.remove]
theorem removeAliasesExprs_shaped : ∀ (es : Exprs) (v : Aliases), shapedExprs es → shapedExprs (removeAliasesExprs v es)
  | .nil, _, _ => trivial
  | .cons e es, v, h => ⟨removeAliases_shaped e v h.1, removeAliasesExprs_shaped es v h.2⟩
theorem removeAliasesAlts_shaped : ∀ (as : Alts) (v : Aliases), shapedAlts as → shapedAlts (removeAliasesAlts v as)
  | .nil, _, _ => trivial
  | .cons _ _ e as, v, h => ⟨removeAliases_shaped e _ h.1, removeAliasesAlts_shaped as v h.2⟩
end

mutual
theorem removeAliases_count : ∀ (e : Expr) (v : Aliases) (x : Name),
    (binders (removeAliases v e)).count x ≤ (binders e).count x
  | .literal _, _, _ => Nat.le_refl _
  | .variable _, _, _ => by simp [removeAliases, binders]
  | .op _ es, v, x => removeAliasesExprs_count es v x
  | .case e as, v, x => by
    simp only [removeAliases, binders, List.count_append]
    exact Nat.add_le_add (removeAliases_count e v x) (removeAliasesAlts_count as v x)
  | .if_ c t e, v, x => by
    simp only [removeAliases, binders, List.count_append]
    exact Nat.add_le_add (removeAliases_count c v x) (Nat.add_le_add (removeAliases_count t v x) (removeAliases_count e v x))
  | .let_ y e b, v, x => by
    simp only [removeAliases]
    split
    · rename_i z _
      have := removeAliases_count b (v.insert y z) x
      simp only [binders, List.count_cons, List.count_append]
      omega
    · have h1 := removeAliases_count e v x
      have h2 := removeAliases_count b (v.remove y) x
      simp only [binders, List.count_cons, List.count_append]
      omega
  | .letRec f env args th body b, v, x => by
    have h1 := removeAliases_count body ((v.remove f).removeMany args) x
    have h2 := removeAliases_count b (v.remove f) x
    simp only [removeAliases, binders, List.count_cons, List.count_append]
    omega
  | .try_ e y t b, v, x => by
    have h1 := removeAliases_count e v x
    have h2 := removeAliases_count b (v.remove y) x
    simp only [removeAliases, binders, List.count_cons, List.count_append]
    omega
  | .clone _ e, v, x => removeAliases_count e v x
  | .drop _ e, v, x => removeAliases_count e v x
theorem removeAliasesExprs_count : ∀ (es : Exprs) (v : Aliases) (x : Name),
    (bindersExprs (removeAliasesExprs v es)).count x ≤ (bindersExprs es).count x
  | .nil, _, _ => Nat.le_refl _
  | .cons e es, v, x => by
    simp only [removeAliasesExprs, bindersExprs, List.count_append]
    exact Nat.add_le_add (removeAliases_count e v x) (removeAliasesExprs_count es v x)
theorem removeAliasesAlts_count : ∀ (as : Alts) (v : Aliases) (x : Name),
    (bindersAlts (removeAliasesAlts v as)).count x ≤ (bindersAlts as).count x
  | .nil, _, _ => Nat.le_refl _
  | .cons ts y e as, v, x => by
    have h1 := removeAliases_count e (v.remove y) x
    have h2 := removeAliasesAlts_count as v x
    simp only [removeAliasesAlts, bindersAlts, List.count_cons, List.count_append]
    omega
end

theorem Aliases.remove_ne {v : Aliases} {x y : Name} (h : v.remove x y ≠ x) : y ≠ x ∧ v.remove x y = v y := by
  unfold Aliases.remove at h ⊢
  split at h <;> simp_all

theorem Aliases.removeMany_ne : ∀ (xs : List Name) {v : Aliases} {y : Name}, v.removeMany xs y ∉ xs →
    y ∉ xs ∧ v.removeMany xs y = v y
  | [], v, y, _ => ⟨by simp, rfl⟩
  | x :: xs, v, y, h => by
    simp only [Aliases.removeMany, List.mem_cons, not_or] at h ⊢
    obtain ⟨h1, h2⟩ := Aliases.removeMany_ne xs h.2
    rw [h2] at h
    obtain ⟨h3, h4⟩ := Aliases.remove_ne h.1
    exact ⟨⟨h3, h1⟩, h2.trans h4⟩

mutual
theorem removeAliases_free : ∀ (e : Expr) (v : Aliases) (x : Name), x ∈ free (removeAliases v e) → ∃ y ∈ free e, x = v y
  | .literal _, _, x, h => by simp [removeAliases, free] at h
  | .variable y, v, x, h => by simpa [removeAliases, free] using h
  | .op _ es, v, x, h => removeAliasesExprs_free es v x h
  | .case e as, v, x, h => by
    simp only [removeAliases, free, List.mem_append] at h ⊢
    rcases h with h | h
    · obtain ⟨y, hy, e⟩ := removeAliases_free e v x h; exact ⟨y, Or.inl hy, e⟩
    · obtain ⟨y, hy, e⟩ := removeAliasesAlts_free as v x h; exact ⟨y, Or.inr hy, e⟩
  | .if_ c t e, v, x, h => by
    simp only [removeAliases, free, List.mem_append] at h ⊢
    rcases h with (h | h) | h
    · obtain ⟨y, hy, e⟩ := removeAliases_free c v x h; exact ⟨y, Or.inl (Or.inl hy), e⟩
    · obtain ⟨y, hy, e⟩ := removeAliases_free t v x h; exact ⟨y, Or.inl (Or.inr hy), e⟩
    · obtain ⟨y, hy, e⟩ := removeAliases_free e v x h; exact ⟨y, Or.inr hy, e⟩
  | .let_ z e b, v, x, h => by
    have ih := removeAliases_free e v
    simp only [removeAliases] at h
    split at h
    · rename_i y hy
      obtain ⟨w, hw, rfl⟩ := removeAliases_free b _ x h
      simp only [Aliases.insert]
      split
      · obtain ⟨u, hu, e'⟩ := ih y (by rw [variableName_some hy]; simp [free])
        exact ⟨u, by simp [free, hu], e'⟩
      · rename_i hne
        exact ⟨w, by simp [free, hw, hne], rfl⟩
    · simp only [free, List.mem_append, List.mem_filter, bne_iff_ne, ne_eq] at h
      rcases h with h | ⟨h, hne⟩
      · obtain ⟨y, hy, e'⟩ := ih x h; exact ⟨y, by simp [free, hy], e'⟩
      · obtain ⟨w, hw, rfl⟩ := removeAliases_free b _ x h
        obtain ⟨h1, h2⟩ := Aliases.remove_ne hne
        exact ⟨w, by simp [free, hw, h1], h2⟩
  | .letRec f env args th body b, v, x, h => by
    simp only [removeAliases, free, List.mem_append, List.mem_filter, bne_iff_ne, ne_eq, Bool.and_eq_true,
      List.all_eq_true] at h ⊢
    obtain ⟨h, hne⟩ := h
    rcases h with ⟨h, _, ha⟩ | h
    · obtain ⟨w, hw, rfl⟩ := removeAliases_free body _ x h
      obtain ⟨h1, h2⟩ := Aliases.removeMany_ne args (fun hm => ha _ hm rfl)
      rw [h2] at hne
      obtain ⟨h3, h4⟩ := Aliases.remove_ne hne
      exact ⟨w, ⟨Or.inl ⟨hw, h3, fun z hz e => h1 (e ▸ hz)⟩, h3⟩, h2.trans h4⟩
    · obtain ⟨w, hw, rfl⟩ := removeAliases_free b _ x h
      obtain ⟨h3, h4⟩ := Aliases.remove_ne hne
      exact ⟨w, ⟨Or.inr hw, h3⟩, h4⟩
  | .try_ e z t b, v, x, h => by
    simp only [removeAliases, free, List.mem_append, List.mem_filter, bne_iff_ne, ne_eq] at h ⊢
    rcases h with h | ⟨h, hne⟩
    · obtain ⟨y, hy, e'⟩ := removeAliases_free e v x h; exact ⟨y, Or.inl hy, e'⟩
    · obtain ⟨w, hw, rfl⟩ := removeAliases_free b _ x h
      obtain ⟨h1, h2⟩ := Aliases.remove_ne hne
      exact ⟨w, Or.inr ⟨hw, h1⟩, h2⟩
  | .clone _ e, v, x, h => removeAliases_free e v x h
  | .drop _ e, v, x, h => removeAliases_free e v x h
theorem removeAliasesExprs_free : ∀ (es : Exprs) (v : Aliases) (x : Name), x ∈ freeExprs (removeAliasesExprs v es) →
    ∃ y ∈ freeExprs es, x = v y
  | .nil, _, x, h => by simp [removeAliasesExprs, freeExprs] at h
  | .cons e es, v, x, h => by
    simp only [removeAliasesExprs, freeExprs, List.mem_append] at h ⊢
    rcases h with h | h
    · obtain ⟨y, hy, e⟩ := removeAliases_free e v x h; exact ⟨y, Or.inl hy, e⟩
    · obtain ⟨y, hy, e⟩ := removeAliasesExprs_free es v x h; exact ⟨y, Or.inr hy, e⟩
theorem removeAliasesAlts_free : ∀ (as : Alts) (v : Aliases) (x : Name), x ∈ freeAlts (removeAliasesAlts v as) →
    ∃ y ∈ freeAlts as, x = v y
  | .nil, _, x, h => by simp [removeAliasesAlts, freeAlts] at h
  | .cons ts z e as, v, x, h => by
    simp only [removeAliasesAlts, freeAlts, List.mem_append, List.mem_filter, bne_iff_ne, ne_eq] at h ⊢
    rcases h with ⟨h, hne⟩ | h
    · obtain ⟨w, hw, rfl⟩ := removeAliases_free e _ x h
      obtain ⟨h1, h2⟩ := Aliases.remove_ne hne
      exact ⟨w, Or.inl ⟨hw, h1⟩, h2⟩
    · obtain ⟨y, hy, e'⟩ := removeAliasesAlts_free as v x h; exact ⟨y, Or.inr hy, e'⟩
end

/-! ### Normalization -/

def shapedFrames : List Frame → Prop
  | [] => True
  | .let_ _ e :: fs => shaped e ∧ shapedFrames fs
  | .letRec _ _ _ _ body :: fs => shaped body ∧ shapedFrames fs

theorem shaped_plug : ∀ (fs : List Frame) {t : Expr}, shapedFrames fs → shaped t → shaped (plug fs t)
  | [], _, _, h => h
  | .let_ _ _ :: fs, _, h, ht => ⟨h.1, shaped_plug fs h.2 ht⟩
  | .letRec _ _ _ _ _ :: fs, _, h, ht => ⟨h.1, shaped_plug fs h.2 ht⟩

theorem shapedFrames_append : ∀ (fs : List Frame) {gs : List Frame}, shapedFrames fs → shapedFrames gs → shapedFrames (fs ++ gs)
  | [], _, _, h => h
  | .let_ _ _ :: fs, _, h, hg => ⟨h.1, shapedFrames_append fs h.2 hg⟩
  | .letRec _ _ _ _ _ :: fs, _, h, hg => ⟨h.1, shapedFrames_append fs h.2 hg⟩

theorem boundIf_shaped {s : Split Expr} (b : Bool) (h : shapedFrames s.frames ∧ shaped s.tail) :
    shapedFrames (s.boundIf b).frames ∧ shaped (s.boundIf b).tail := by
  unfold Split.boundIf Split.bound
  split
  · split
    · exact h
    · exact ⟨shapedFrames_append _ h.1 ⟨h.2, trivial⟩, trivial⟩
  · exact h

variable {post : Expr → Expr}

mutual
theorem split_shaped (hpost : ∀ e, shaped e → shaped (post e)) : ∀ (e : Expr) (n : Nat), shaped e →
    shapedFrames (split post e n).frames ∧ shaped (split post e n).tail
  | .literal _, _, _ => ⟨trivial, trivial⟩
  | .variable _, _, _ => ⟨trivial, trivial⟩
  | .op o es, n, h =>
    have h1 := splitExprs_shaped hpost _ es n h.2
    ⟨h1.1, h.1.of_length h1.2.2, h1.2.1⟩
  | .case e as, n, h => by
    have h1 := split_shaped hpost e n h.2.1
    refine ⟨h1.1, ?_, h1.2, splitAlts_shaped hpost as _ h.2.2⟩
    have := h.1
    cases as with
    | nil => exact absurd rfl this
    | cons => simp [splitAlts]
  | .if_ c t e, n, h =>
    have h1 := split_shaped hpost c n h.1
    have h2 := split_shaped hpost t (split post c n).next h.2.1
    have h3 := split_shaped hpost e (split post t (split post c n).next).next h.2.2
    ⟨h1.1, h1.2, shaped_plug _ h2.1 h2.2, shaped_plug _ h3.1 h3.2⟩
  | .let_ x e b, n, h =>
    have h1 := split_shaped hpost e n h.1
    have h2 := split_shaped hpost b (split post e n).next h.2
    ⟨shapedFrames_append _ h1.1 ⟨h1.2, h2.1⟩, h2.2⟩
  | .letRec f env args th body b, n, h =>
    have h1 := split_shaped hpost body n h.1
    have h2 := split_shaped hpost b (split post body n).next h.2
    ⟨⟨hpost _ (shaped_plug _ h1.1 h1.2), h2.1⟩, h2.2⟩
  | .try_ e x t b, n, h => by
    have h1 := split_shaped hpost e n h.1
    refine ⟨h1.1, h1.2, ?_⟩
    rw [h.2]
    rfl
theorem splitExprs_shaped (hpost : ∀ e, shaped e → shaped (post e)) (last : Bool) : ∀ (es : Exprs) (n : Nat), shapedExprs es →
    shapedFrames (splitExprs post last es n).frames ∧ shapedExprs (Exprs.ofList (splitExprs post last es n).tail) ∧
    (Exprs.ofList (splitExprs post last es n).tail).toList.length = es.toList.length
  | .nil, _, _ => ⟨trivial, trivial, rfl⟩
  | .cons e es, n, h =>
    have h1 := boundIf_shaped (last || !es.isNil) (split_shaped hpost e n h.1)
    have h2 := splitExprs_shaped hpost last es _ h.2
    ⟨shapedFrames_append _ h1.1 h2.1, ⟨h1.2, h2.2.1⟩, congrArg (· + 1) h2.2.2⟩
theorem splitAlts_shaped (hpost : ∀ e, shaped e → shaped (post e)) : ∀ (as : Alts) (n : Nat), shapedAlts as →
    shapedAlts (splitAlts post as n).1
  | .nil, _, _ => trivial
  | .cons _ x e as, n, h =>
    have h1 := split_shaped hpost e n h.1
    ⟨shaped_plug _ h1.1 h1.2, splitAlts_shaped hpost as _ h.2⟩
end

end Verif.Mir
