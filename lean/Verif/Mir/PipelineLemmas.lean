import Verif.Mir.CompositeLemmas
import Verif.Mir.ConversionLemmas
import Verif.Mir.NameLemmas

/- What passes guarantee for the passes after them. -/
namespace Verif.Mir

/-! ### Flattening changes neither names nor environments -/

structure SameNames (e e' : Expr) : Prop where
  names : names e' = names e
  binders : binders e' = binders e
  free : free e' = free e
  distinct : distinctArguments e → distinctArguments e'
  environments : noEnvironments e → noEnvironments e'

structure SameNamesExprs (e e' : Exprs) : Prop where
  names : namesExprs e' = namesExprs e
  binders : bindersExprs e' = bindersExprs e
  free : freeExprs e' = freeExprs e
  distinct : distinctArgumentsExprs e → distinctArgumentsExprs e'
  environments : noEnvironmentsExprs e → noEnvironmentsExprs e'

structure SameNamesAlts (e e' : Alts) : Prop where
  names : namesAlts e' = namesAlts e
  binders : bindersAlts e' = bindersAlts e
  free : freeAlts e' = freeAlts e
  distinct : distinctArgumentsAlts e → distinctArgumentsAlts e'
  environments : noEnvironmentsAlts e → noEnvironmentsAlts e'

theorem SameNames.refl (e : Expr) : SameNames e e := ⟨rfl, rfl, rfl, id, id⟩

theorem append_sameNames {es es' fs fs' : Exprs} (h : SameNamesExprs fs fs') :
    SameNamesExprs (es.append fs) (es.append fs') := by
  induction es using Exprs.rec (motive_1 := fun _ => True) (motive_3 := fun _ => True) with
  | nil => exact h
  | cons e es _ ih =>
    exact ⟨by simp [Exprs.append, namesExprs, ih.names], by simp [Exprs.append, bindersExprs, ih.binders],
      by simp [Exprs.append, freeExprs, ih.free], fun h => ⟨h.1, ih.distinct h.2⟩, fun h => ⟨h.1, ih.environments h.2⟩⟩
  | _ => trivial

theorem append_names (es fs : Exprs) : SameNamesExprs (.cons (.op .concatenation es) fs) (es.append fs) := by
  induction es using Exprs.rec (motive_1 := fun _ => True) (motive_3 := fun _ => True) with
  | nil => exact ⟨rfl, rfl, rfl, fun h => h.2, fun h => h.2⟩
  | cons e es _ ih =>
    obtain ⟨h1, h2, h3, h4, h5⟩ := ih
    simp only [namesExprs, names, bindersExprs, binders, freeExprs, free] at h1 h2 h3
    exact ⟨by simp [Exprs.append, namesExprs, names, h1], by simp [Exprs.append, bindersExprs, binders, h2],
      by simp [Exprs.append, freeExprs, free, h3], fun h => ⟨h.1.1, h4 ⟨h.1.2, h.2⟩⟩,
      fun h => ⟨h.1.1, h5 ⟨h.1.2, h.2⟩⟩⟩
  | _ => trivial

theorem concatenationOperands_eq {e : Expr} {es : Exprs} (h : concatenationOperands e = some es) :
    e = .op .concatenation es := by
  cases e with
  | op o fs => cases o <;> simp_all [concatenationOperands]
  | _ => simp [concatenationOperands] at h

theorem splice_names : ∀ (es : Exprs), SameNamesExprs es (splice es)
  | .nil => ⟨rfl, rfl, rfl, id, id⟩
  | .cons e es => by
    have ih := splice_names es
    simp only [splice]
    split
    · rename_i fs h
      rw [concatenationOperands_eq h]
      have h1 := append_names fs (splice es)
      exact ⟨by rw [h1.names]; simp [namesExprs, ih.names], by rw [h1.binders]; simp [bindersExprs, ih.binders],
        by rw [h1.free]; simp [freeExprs, ih.free], fun h => h1.distinct ⟨h.1, ih.distinct h.2⟩,
        fun h => h1.environments ⟨h.1, ih.environments h.2⟩⟩
    · exact ⟨by simp [namesExprs, ih.names], by simp [bindersExprs, ih.binders],
        by simp [freeExprs, ih.free], fun h => ⟨h.1, ih.distinct h.2⟩,
        fun h => ⟨h.1, ih.environments h.2⟩⟩

theorem flatten_names (e : Expr) : SameNames e (flattenConcatenation e) := by
  unfold flattenConcatenation
  split
  · rename_i es h
    rw [concatenationOperands_eq h]
    have h1 := splice_names es
    exact ⟨h1.names, h1.binders, h1.free, h1.distinct, h1.environments⟩
  · exact .refl e

theorem SameNames.trans {a b c : Expr} (h : SameNames a b) (h' : SameNames b c) : SameNames a c :=
  ⟨h'.names.trans h.names, h'.binders.trans h.binders, h'.free.trans h.free, fun x => h'.distinct (h.distinct x),
    fun x => h'.environments (h.environments x)⟩

theorem SameNames.flatten {a b : Expr} (h : SameNames a b) : SameNames a (flattenConcatenation b) :=
  h.trans (flatten_names b)

mutual
theorem convert_names : ∀ (e : Expr), SameNames e (convertExpr flattenConcatenation e)
  | .literal l => flatten_names _
  | .variable x => flatten_names _
  | .op o es => by
    have h := convertExprs_names es
    simp only [convertExpr]
    exact SameNames.flatten ⟨h.names, h.binders, h.free, h.distinct, h.environments⟩
  | .case e as => by
    have h1 := convert_names e
    have h2 := convertAlts_names as
    simp only [convertExpr]
    exact SameNames.flatten ⟨by simp [names, h1.names, h2.names], by simp [binders, h1.binders, h2.binders],
      by simp [free, h1.free, h2.free], fun h => ⟨h1.distinct h.1, h2.distinct h.2⟩,
      fun h => ⟨h1.environments h.1, h2.environments h.2⟩⟩
  | .if_ c t e => by
    have h1 := convert_names c
    have h2 := convert_names t
    have h3 := convert_names e
    simp only [convertExpr]
    exact SameNames.flatten ⟨by simp [names, h1.names, h2.names, h3.names],
      by simp [binders, h1.binders, h2.binders, h3.binders],
      by simp [free, h1.free, h2.free, h3.free], fun h => ⟨h1.distinct h.1, h2.distinct h.2.1, h3.distinct h.2.2⟩,
      fun h => ⟨h1.environments h.1, h2.environments h.2.1, h3.environments h.2.2⟩⟩
  | .let_ x e b => by
    have h1 := convert_names e
    have h2 := convert_names b
    simp only [convertExpr]
    exact SameNames.flatten ⟨by simp [names, h1.names, h2.names], by simp [binders, h1.binders, h2.binders],
      by simp [free, h1.free, h2.free], fun h => ⟨h1.distinct h.1, h2.distinct h.2⟩,
      fun h => ⟨h1.environments h.1, h2.environments h.2⟩⟩
  | .letRec f env args th body b => by
    have h1 := convert_names body
    have h2 := convert_names b
    simp only [convertExpr]
    exact SameNames.flatten ⟨by simp [names, h1.names, h2.names], by simp [binders, h1.binders, h2.binders],
      by simp [free, h1.free, h2.free], fun h => ⟨h.1, h1.distinct h.2.1, h2.distinct h.2.2⟩,
      fun h => ⟨h.1, h1.environments h.2.1, h2.environments h.2.2⟩⟩
  | .try_ e x t b => by
    have h1 := convert_names e
    have h2 := convert_names b
    simp only [convertExpr]
    exact SameNames.flatten ⟨by simp [names, h1.names, h2.names], by simp [binders, h1.binders, h2.binders],
      by simp [free, h1.free, h2.free], fun h => ⟨h1.distinct h.1, h2.distinct h.2⟩,
      fun h => ⟨h1.environments h.1, h2.environments h.2⟩⟩
  | .clone xs e => by
    have h := convert_names e
    simp only [convertExpr]
    exact SameNames.flatten ⟨h.names, h.binders, h.free, h.distinct, h.environments⟩
  | .drop xs e => by
    have h := convert_names e
    simp only [convertExpr]
    exact SameNames.flatten ⟨h.names, h.binders, h.free, h.distinct, h.environments⟩
theorem convertExprs_names : ∀ (es : Exprs), SameNamesExprs es (convertExprs flattenConcatenation es)
  | .nil => ⟨rfl, rfl, rfl, id, id⟩
  | .cons e es => by
    have h1 := convert_names e
    have h2 := convertExprs_names es
    exact ⟨by simp [convertExprs, namesExprs, h1.names, h2.names], by simp [convertExprs, bindersExprs, h1.binders, h2.binders],
      by simp [convertExprs, freeExprs, h1.free, h2.free], fun h => ⟨h1.distinct h.1, h2.distinct h.2⟩,
      fun h => ⟨h1.environments h.1, h2.environments h.2⟩⟩
theorem convertAlts_names : ∀ (as : Alts), SameNamesAlts as (convertAlts flattenConcatenation as)
  | .nil => ⟨rfl, rfl, rfl, id, id⟩
  | .cons ts x e as => by
    have h1 := convert_names e
    have h2 := convertAlts_names as
    exact ⟨by simp [convertAlts, namesAlts, h1.names, h2.names], by simp [convertAlts, bindersAlts, h1.binders, h2.binders],
      by simp [convertAlts, freeAlts, h1.free, h2.free], fun h => ⟨h1.distinct h.1, h2.distinct h.2⟩,
      fun h => ⟨h1.environments h.1, h2.environments h.2⟩⟩
end

/-! ### Alpha conversion renames free variables only as it is told -/

mutual
theorem alpha_free : ∀ (e : Expr) (ren : Renaming) (c : Counts) (x : Name), x ∈ free (alpha e ren c).1 →
    ∃ y ∈ free e, x = ren y
  | .literal _, _, _, x, h => by simp [alpha, free] at h
  | .variable y, ren, _, x, h => by
    simp only [alpha, free, List.mem_singleton] at h
    exact ⟨y, by simp [free], h⟩
  | .op _ es, ren, c, x, h => alphaExprs_free es ren c x h
  | .case e as, ren, c, x, h => by
    simp only [alpha, free, List.mem_append] at h ⊢
    rcases h with h | h
    · obtain ⟨y, h1, h2⟩ := alpha_free e ren c x h; exact ⟨y, Or.inl h1, h2⟩
    · obtain ⟨y, h1, h2⟩ := alphaAlts_free as ren _ x h; exact ⟨y, Or.inr h1, h2⟩
  | .if_ i t e, ren, c, x, h => by
    simp only [alpha, free, List.mem_append] at h ⊢
    rcases h with (h | h) | h
    · obtain ⟨y, h1, h2⟩ := alpha_free i ren c x h; exact ⟨y, Or.inl (Or.inl h1), h2⟩
    · obtain ⟨y, h1, h2⟩ := alpha_free t ren _ x h; exact ⟨y, Or.inl (Or.inr h1), h2⟩
    · obtain ⟨y, h1, h2⟩ := alpha_free e ren _ x h; exact ⟨y, Or.inr h1, h2⟩
  | .let_ z e b, ren, c, x, h => by
    simp only [alpha, free, List.mem_append, List.mem_filter, bne_iff_ne, ne_eq] at h ⊢
    rcases h with h | ⟨h, hne⟩
    · obtain ⟨y, h1, h2⟩ := alpha_free e ren _ x h; exact ⟨y, Or.inl h1, h2⟩
    · obtain ⟨y, h1, h2⟩ := alpha_free b _ _ x h
      simp only [Renaming.insert] at h2
      split at h2
      · exact absurd h2 hne
      · exact ⟨y, Or.inr ⟨h1, by assumption⟩, h2⟩
  | .letRec f env args th body b, ren, c, x, h => by
    simp only [alpha, free, List.mem_append, List.mem_filter, bne_iff_ne, ne_eq, Bool.and_eq_true, List.all_eq_true,
      List.mem_map] at h ⊢
    obtain ⟨h, hne⟩ := h
    rcases h with ⟨h, -, hna⟩ | h
    · obtain ⟨y, h1, h2⟩ := alpha_free body _ _ x h
      have hya : y ∉ args := fun hy => hna x ⟨y, hy, h2.symm⟩ rfl
      rw [renameMany_not_mem args _ _ y hya] at h2
      simp only [Renaming.insert] at h2
      split at h2
      · exact absurd h2 hne
      · rename_i hyf
        exact ⟨y, ⟨Or.inl ⟨h1, hyf, fun z hz h => hya (h ▸ hz)⟩, hyf⟩, h2⟩
    · obtain ⟨y, h1, h2⟩ := alpha_free b _ _ x h
      simp only [Renaming.insert] at h2
      split at h2
      · exact absurd h2 hne
      · exact ⟨y, ⟨Or.inr h1, by assumption⟩, h2⟩
  | .try_ e z t b, ren, c, x, h => by
    simp only [alpha, free, List.mem_append, List.mem_filter, bne_iff_ne, ne_eq] at h ⊢
    rcases h with h | ⟨h, hne⟩
    · obtain ⟨y, h1, h2⟩ := alpha_free e ren _ x h; exact ⟨y, Or.inl h1, h2⟩
    · obtain ⟨y, h1, h2⟩ := alpha_free b _ _ x h
      simp only [Renaming.insert] at h2
      split at h2
      · exact absurd h2 hne
      · exact ⟨y, Or.inr ⟨h1, by assumption⟩, h2⟩
  | .clone _ e, ren, c, x, h => alpha_free e ren c x h
  | .drop _ e, ren, c, x, h => alpha_free e ren c x h
theorem alphaExprs_free : ∀ (es : Exprs) (ren : Renaming) (c : Counts) (x : Name), x ∈ freeExprs (alphaExprs es ren c).1 →
    ∃ y ∈ freeExprs es, x = ren y
  | .nil, _, _, x, h => by simp [alphaExprs, freeExprs] at h
  | .cons e es, ren, c, x, h => by
    simp only [alphaExprs, freeExprs, List.mem_append] at h ⊢
    rcases h with h | h
    · obtain ⟨y, h1, h2⟩ := alpha_free e ren c x h; exact ⟨y, Or.inl h1, h2⟩
    · obtain ⟨y, h1, h2⟩ := alphaExprs_free es ren _ x h; exact ⟨y, Or.inr h1, h2⟩
theorem alphaAlts_free : ∀ (as : Alts) (ren : Renaming) (c : Counts) (x : Name), x ∈ freeAlts (alphaAlts as ren c).1 →
    ∃ y ∈ freeAlts as, x = ren y
  | .nil, _, _, x, h => by simp [alphaAlts, freeAlts] at h
  | .cons ts z e as, ren, c, x, h => by
    simp only [alphaAlts, freeAlts, List.mem_append, List.mem_filter, bne_iff_ne, ne_eq] at h ⊢
    rcases h with ⟨h, hne⟩ | h
    · obtain ⟨y, h1, h2⟩ := alpha_free e _ _ x h
      simp only [Renaming.insert] at h2
      split at h2
      · exact absurd h2 hne
      · exact ⟨y, Or.inl ⟨h1, by assumption⟩, h2⟩
    · obtain ⟨y, h1, h2⟩ := alphaAlts_free as ren _ x h; exact ⟨y, Or.inr h1, h2⟩
end

mutual
theorem alpha_noEnvironments : ∀ (e : Expr) (ren : Renaming) (c : Counts), noEnvironments e → noEnvironments (alpha e ren c).1
  | .literal _, _, _, _ => trivial
  | .variable _, _, _, _ => trivial
  | .op _ es, ren, c, h => alphaExprs_noEnvironments es ren c h
  | .case e as, ren, c, h => ⟨alpha_noEnvironments e ren c h.1, alphaAlts_noEnvironments as ren _ h.2⟩
  | .if_ i t e, ren, c, h => ⟨alpha_noEnvironments i ren c h.1, alpha_noEnvironments t ren _ h.2.1,
      alpha_noEnvironments e ren _ h.2.2⟩
  | .let_ x e b, ren, c, h => ⟨alpha_noEnvironments e ren _ h.1, alpha_noEnvironments b _ _ h.2⟩
  | .letRec f env args th body b, ren, c, h =>
    ⟨by simp [h.1], alpha_noEnvironments body _ _ h.2.1, alpha_noEnvironments b _ _ h.2.2⟩
  | .try_ e x t b, ren, c, h => ⟨alpha_noEnvironments e ren _ h.1, alpha_noEnvironments b _ _ h.2⟩
  | .clone _ e, ren, c, h => alpha_noEnvironments e ren c h
  | .drop _ e, ren, c, h => alpha_noEnvironments e ren c h
theorem alphaExprs_noEnvironments : ∀ (es : Exprs) (ren : Renaming) (c : Counts), noEnvironmentsExprs es →
    noEnvironmentsExprs (alphaExprs es ren c).1
  | .nil, _, _, _ => trivial
  | .cons e es, ren, c, h => ⟨alpha_noEnvironments e ren c h.1, alphaExprs_noEnvironments es ren _ h.2⟩
theorem alphaAlts_noEnvironments : ∀ (as : Alts) (ren : Renaming) (c : Counts), noEnvironmentsAlts as →
    noEnvironmentsAlts (alphaAlts as ren c).1
  | .nil, _, _, _ => trivial
  | .cons ts x e as, ren, c, h => ⟨alpha_noEnvironments e _ _ h.1, alphaAlts_noEnvironments as ren _ h.2⟩
end

/-! New names come from bound names. -/

def FromBinders (bs : List Name) (bs' : List Name) : Prop := ∀ b ∈ bs', ∃ x ∈ bs, ∃ k, b = alphaName x k

theorem renameMany_from (xs : List Name) (ren : Renaming) (c : Counts) :
    FromBinders xs (xs.map (renameMany xs ren c).1) := by
  intro b hb
  obtain ⟨x, hx, rfl⟩ := List.mem_map.mp hb
  obtain ⟨k, _, _, h⟩ := renameMany_mem xs ren c x hx
  exact ⟨x, hx, k, h⟩

theorem FromBinders.append {as bs as' bs' : List Name} (h : FromBinders as as') (h' : FromBinders bs bs') :
    FromBinders (as ++ bs) (as' ++ bs') := by
  intro b hb
  rcases List.mem_append.mp hb with hb | hb
  · obtain ⟨x, hx, k, e⟩ := h b hb; exact ⟨x, by simp [hx], k, e⟩
  · obtain ⟨x, hx, k, e⟩ := h' b hb; exact ⟨x, by simp [hx], k, e⟩

theorem FromBinders.cons {x : Name} {bs bs' : List Name} (c : Counts) (h : FromBinders bs bs') :
    FromBinders (x :: bs) ((c.rename x).1 :: bs') :=
  FromBinders.append (as := [x]) (as' := [(c.rename x).1]) (by
    intro b hb
    simp only [List.mem_singleton] at hb
    exact ⟨x, by simp, c x, hb⟩) h

mutual
theorem alpha_from : ∀ (e : Expr) (ren : Renaming) (c : Counts), FromBinders (binders e) (binders (alpha e ren c).1)
  | .literal _, _, _ => by simp [FromBinders, alpha, binders]
  | .variable _, _, _ => by simp [FromBinders, alpha, binders]
  | .op _ es, ren, c => alphaExprs_from es ren c
  | .case e as, ren, c => (alpha_from e ren c).append (alphaAlts_from as ren _)
  | .if_ i t e, ren, c => (alpha_from i ren c).append ((alpha_from t ren _).append (alpha_from e ren _))
  | .let_ x e b, ren, c => ((alpha_from e ren _).append (alpha_from b _ _)).cons c
  | .letRec f env args th body b, ren, c =>
    ((renameMany_from args _ _).append ((alpha_from body _ _).append (alpha_from b _ _))).cons c
  | .try_ e x t b, ren, c => ((alpha_from e ren _).append (alpha_from b _ _)).cons c
  | .clone _ e, ren, c => alpha_from e ren c
  | .drop _ e, ren, c => alpha_from e ren c
theorem alphaExprs_from : ∀ (es : Exprs) (ren : Renaming) (c : Counts),
    FromBinders (bindersExprs es) (bindersExprs (alphaExprs es ren c).1)
  | .nil, _, _ => by simp [FromBinders, alphaExprs, bindersExprs]
  | .cons e es, ren, c => (alpha_from e ren c).append (alphaExprs_from es ren _)
theorem alphaAlts_from : ∀ (as : Alts) (ren : Renaming) (c : Counts),
    FromBinders (bindersAlts as) (bindersAlts (alphaAlts as ren c).1)
  | .nil, _, _ => by simp [FromBinders, alphaAlts, bindersAlts]
  | .cons ts x e as, ren, c => ((alpha_from e _ _).append (alphaAlts_from as ren _)).cons c
end

/-! ### Alpha conversion makes bodies hygienic -/

/-- What the front end guarantees of the names in a function, apart from arguments that are bound again. -/
structure WellNamed (p : Program) (d : Global) : Prop where
  /-- Names bound in the body have no colons. -/
  bound : ∀ x ∈ binders d.body, ':' ∉ x.toList
  /-- No name is one that a pass generates. -/
  source : ∀ x ∈ d.args ++ names d.body, SourceName x
  /-- The body has no free variables but arguments and global functions. -/
  closed : ∀ x ∈ free d.body, x ∈ d.args ∨ p.isGlobal x = true
  /-- Arguments are not bound again. -/
  arguments : ∀ x ∈ d.args, x ∉ binders d.body
  /-- Arguments of local functions are different. -/
  distinct : distinctArguments d.body
  /-- Environments are not inferred yet. -/
  environments : noEnvironments d.body

theorem anfName_not_source (i : Nat) : ¬ SourceName (anfName i) := by
  intro h
  refine h "anf:v" i ?_
  unfold anfName
  have : ("anf:v:" : String) = "anf:v" ++ ":" := by decide
  rw [this]

theorem alphaName_not_anf {x : Name} (hx : ':' ∉ x.toList) (k : Nat) : ¬ IsAnfName (alphaName x k) := by
  rintro ⟨i, h⟩
  unfold alphaName at h
  split at h
  · rw [h] at hx
    refine hx ?_
    simp [anfName]
  · have h2 : anfName i = "anf:v" ++ ":" ++ toString i := by
      unfold anfName
      have : ("anf:v:" : String) = "anf:v" ++ ":" := by decide
      rw [this]
    rw [h2] at h
    obtain ⟨rfl, -⟩ := numbered_inj h
    exact hx (by decide)

theorem alpha_hygienic {p : Program} {d : Global} (h : WellNamed p d) : HygienicE (alpha d.body id p.nameCounts).1 := by
  have hf := alpha_fresh d.body id p.nameCounts (fun x hx => h.source x (by simp [hx])) h.distinct
  have hfree : ∀ x ∈ free (alpha d.body id p.nameCounts).1, x ∈ free d.body := by
    intro x hx
    obtain ⟨y, hy, rfl⟩ := alpha_free _ _ _ _ hx
    exact hy
  refine ⟨hf.nodup, ?_, ?_⟩
  · intro b hb hbf
    obtain ⟨x, k, hx, hk, _, rfl⟩ := hf.fresh b hb
    obtain ⟨y, hy, k', he⟩ := alpha_from d.body id p.nameCounts _ hb
    have hs : SourceName (alphaName x k) := by
      rcases h.closed _ (hfree _ hbf) with h1 | h1
      · exact h.source _ (by simp [h1])
      · have := hfree _ hbf
        exact h.source _ (by simp only [List.mem_append]; exact Or.inr (free_names _ _ this))
    obtain ⟨h2, h3⟩ := alphaName_source hs rfl
    have hyx : y = x := (alphaName_inj hx (h.source y (by
      simp only [List.mem_append]; exact Or.inr (binders_names _ _ hy))) he).1.symm
    subst hyx
    rcases h.closed _ (hfree _ hbf) with h1 | h1
    · rw [h2] at h1; exact h.arguments _ h1 hy
    · rw [h2] at h1
      unfold Program.nameCounts at hk
      rw [if_pos h1] at hk
      omega
  · rintro x (hx | hx)
    · obtain ⟨y, hy, k, rfl⟩ := alpha_from d.body id p.nameCounts _ hx
      exact alphaName_not_anf (h.bound y hy) k
    · rintro ⟨i, rfl⟩
      have := hfree _ hx
      exact anfName_not_source i (h.source _ (by simp only [List.mem_append]; exact Or.inr (free_names _ _ this)))

end Verif.Mir
