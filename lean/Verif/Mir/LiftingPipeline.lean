import Verif.Mir.LiftingCalls
import Verif.Mir.Environment
import Verif.Mir.EnvironmentLemmas
import Verif.Mir.PipelineLemmas
import Verif.Mir.ClosureProperties

/- Results of the passes before can be lifted. -/
namespace Verif.Mir

mutual
/-- All names satisfy a property, and no local function has the name of its argument. -/
def sane (P : Name → Prop) : Expr → Prop
  | .literal _ => True
  | .variable x => P x
  | .op _ es => saneExprs P es
  | .case e as => sane P e ∧ saneAlts P as
  | .if_ c t e => sane P c ∧ sane P t ∧ sane P e
  | .let_ x e b => P x ∧ sane P e ∧ sane P b
  | .letRec f _ args _ body b => P f ∧ (∀ x ∈ args, P x) ∧ f ∉ args ∧ sane P body ∧ sane P b
  | .try_ e x _ b => P x ∧ sane P e ∧ sane P b
  | .clone _ e => sane P e
  | .drop _ e => sane P e
def saneExprs (P : Name → Prop) : Exprs → Prop
  | .nil => True
  | .cons e es => sane P e ∧ saneExprs P es
def saneAlts (P : Name → Prop) : Alts → Prop
  | .nil => True
  | .cons _ x e as => P x ∧ sane P e ∧ saneAlts P as
end

variable {P : Name → Prop}

mutual
theorem sane_free : ∀ (e : Expr), sane P e → ∀ x ∈ free e, P x
  | .literal _, _, x, hx => by simp [free] at hx
  | .variable y, h, x, hx => by simp only [free, List.mem_singleton] at hx; exact hx ▸ h
  | .op _ es, h, x, hx => saneExprs_free es h x hx
  | .case e as, h, x, hx => by
    simp only [free, List.mem_append] at hx
    exact hx.elim (sane_free e h.1 x) (saneAlts_free as h.2 x)
  | .if_ c t e, h, x, hx => by
    simp only [free, List.mem_append] at hx
    exact hx.elim (fun hx => hx.elim (sane_free c h.1 x) (sane_free t h.2.1 x)) (sane_free e h.2.2 x)
  | .let_ y e b, h, x, hx => by
    simp only [free, List.mem_append, List.mem_filter] at hx
    exact hx.elim (sane_free e h.2.1 x) fun hx => sane_free b h.2.2 x hx.1
  | .letRec f env args th body b, h, x, hx => by
    simp only [free, List.mem_append, List.mem_filter] at hx
    exact hx.1.elim (fun hx => sane_free body h.2.2.2.1 x hx.1) (sane_free b h.2.2.2.2 x)
  | .try_ e y t b, h, x, hx => by
    simp only [free, List.mem_append, List.mem_filter] at hx
    exact hx.elim (sane_free e h.2.1 x) fun hx => sane_free b h.2.2 x hx.1
  | .clone _ e, h, x, hx => sane_free e h x hx
  | .drop _ e, h, x, hx => sane_free e h x hx
theorem saneExprs_free : ∀ (es : Exprs), saneExprs P es → ∀ x ∈ freeExprs es, P x
  | .nil, _, x, hx => by simp [freeExprs] at hx
  | .cons e es, h, x, hx => by
    simp only [freeExprs, List.mem_append] at hx
    exact hx.elim (sane_free e h.1 x) (saneExprs_free es h.2 x)
theorem saneAlts_free : ∀ (as : Alts), saneAlts P as → ∀ x ∈ freeAlts as, P x
  | .nil, _, x, hx => by simp [freeAlts] at hx
  | .cons ts y e as, h, x, hx => by
    simp only [freeAlts, List.mem_append, List.mem_filter] at hx
    exact hx.elim (fun hx => sane_free e h.2.1 x hx.1) (saneAlts_free as h.2.2 x)
end

/-! ### Inference -/

mutual
theorem infer_liftable : ∀ (e : Expr) (known scope : List Name), sane Plain e →
    (∀ x ∈ free e, x ∈ known → x ∈ scope) → liftable scope (infer known e)
  | .literal _, _, _, _, _ => trivial
  | .variable _, _, _, h, _ => h
  | .op _ es, known, scope, h, hs => inferExprs_liftable es known scope h hs
  | .case e as, known, scope, h, hs =>
    ⟨infer_liftable e known scope h.1 fun x hx => hs x (by simp [free, hx]),
      inferAlts_liftable as known scope h.2 fun x hx => hs x (by simp [free, hx])⟩
  | .if_ c t e, known, scope, h, hs =>
    ⟨infer_liftable c known scope h.1 fun x hx => hs x (by simp [free, hx]),
      infer_liftable t known scope h.2.1 fun x hx => hs x (by simp [free, hx]),
      infer_liftable e known scope h.2.2 fun x hx => hs x (by simp [free, hx])⟩
  | .let_ y e b, known, scope, h, hs =>
    ⟨h.1, infer_liftable e known scope h.2.1 fun x hx => hs x (by simp [free, hx]),
      infer_liftable b _ _ h.2.2 fun x hx hk => by
        simp only [List.mem_cons] at hk ⊢
        by_cases hxy : x = y
        · exact Or.inl hxy
        · exact Or.inr (hs x (by simp [free, hx, hxy]) (hk.resolve_left hxy))⟩
  | .letRec f env args th body b, known, scope, h, hs => by
    obtain ⟨h1, h2, h3, h4, h5⟩ := h
    have henv : ∀ x, x ∈ inferredEnvironment known f args body ↔ x ∈ free body ∧ x ≠ f ∧ x ∉ args ∧ x ∈ known :=
      fun x => mem_inferredEnvironment
    refine ⟨?_, h3, nodup_eraseDups _ _ (Nat.le_refl _), ?_, ?_, ?_⟩
    · intro x hx
      simp only [List.cons_append, List.mem_cons, List.mem_append] at hx
      rcases hx with rfl | hx | hx
      · exact h1
      · exact h2 x hx
      · exact sane_free body h4 x ((henv x).mp hx).1
    · intro x hx
      obtain ⟨h6, h7, h8, h9⟩ := (henv x).mp hx
      refine ⟨hs x ?_ h9, h7, h8⟩
      simp only [free, List.mem_filter, List.mem_append, bne_iff_ne, ne_eq, Bool.and_eq_true, List.all_eq_true]
      exact ⟨Or.inl ⟨h6, h7, fun z hz h => h8 (h ▸ hz)⟩, h7⟩
    · refine infer_liftable body _ _ h4 fun x hx hk => ?_
      simp only [List.cons_append, List.mem_cons, List.mem_append, henv] at hk ⊢
      grind
    · refine infer_liftable b _ _ h5 fun x hx hk => ?_
      simp only [List.mem_cons] at hk ⊢
      by_cases hxy : x = f
      · exact Or.inl hxy
      · refine Or.inr (hs x ?_ (hk.resolve_left hxy))
        simp only [free, List.mem_filter, List.mem_append, bne_iff_ne, ne_eq]
        exact ⟨Or.inr hx, hxy⟩
  | .try_ e y t b, known, scope, h, hs =>
    ⟨h.1, infer_liftable e known scope h.2.1 fun x hx => hs x (by simp [free, hx]),
      infer_liftable b _ _ h.2.2 fun x hx hk => by
        simp only [List.mem_cons] at hk ⊢
        by_cases hxy : x = y
        · exact Or.inl hxy
        · exact Or.inr (hs x (by simp [free, hx, hxy]) (hk.resolve_left hxy))⟩
  | .clone _ e, known, scope, h, hs => infer_liftable e known scope h hs
  | .drop _ e, known, scope, h, hs => infer_liftable e known scope h hs
theorem inferExprs_liftable : ∀ (es : Exprs) (known scope : List Name), saneExprs Plain es →
    (∀ x ∈ freeExprs es, x ∈ known → x ∈ scope) → liftableExprs scope (inferExprs known es)
  | .nil, _, _, _, _ => trivial
  | .cons e es, known, scope, h, hs =>
    ⟨infer_liftable e known scope h.1 fun x hx => hs x (by simp [freeExprs, hx]),
      inferExprs_liftable es known scope h.2 fun x hx => hs x (by simp [freeExprs, hx])⟩
theorem inferAlts_liftable : ∀ (as : Alts) (known scope : List Name), saneAlts Plain as →
    (∀ x ∈ freeAlts as, x ∈ known → x ∈ scope) → liftableAlts scope (inferAlts known as)
  | .nil, _, _, _, _ => trivial
  | .cons ts y e as, known, scope, h, hs =>
    ⟨h.1, infer_liftable e _ _ h.2.1 fun x hx hk => by
        simp only [List.mem_cons] at hk ⊢
        by_cases hxy : x = y
        · exact Or.inl hxy
        · exact Or.inr (hs x (by simp [freeAlts, hx, hxy]) (hk.resolve_left hxy)),
      inferAlts_liftable as known scope h.2.2 fun x hx => hs x (by simp [freeAlts, hx])⟩
end

/-- What makes inferred programs liftable. -/
structure SaneProgram (p : Program) : Prop where
  names : ∀ x, p.isGlobal x = true → Plain x
  args : ∀ d ∈ p.globals, ∀ x ∈ d.args, Plain x
  bodies : ∀ d ∈ p.globals, sane Plain d.body

theorem inferProgram_liftable {p : Program} (h : SaneProgram p) : LiftableProgram (inferProgram p) where
  names x hx := h.names x (by rwa [inferProgram_isGlobal] at hx)
  args d hd := by
    simp only [inferProgram, List.mem_map] at hd
    obtain ⟨d, hd, rfl⟩ := hd
    exact h.args d hd
  bodies d hd := by
    simp only [inferProgram, List.mem_map] at hd
    obtain ⟨d, hd, rfl⟩ := hd
    exact infer_liftable d.body d.args d.args (h.bodies d hd) fun x _ hx => hx

/-! ### Alias removal -/

theorem Aliases.remove_plain {v : Aliases} (hv : ∀ x, P x → P (v x)) (y : Name) : ∀ x, P x → P (v.remove y x) := by
  intro x hx
  simp only [Aliases.remove]
  split
  · subst_vars; exact hx
  · exact hv x hx

theorem Aliases.removeMany_plain : ∀ (ys : List Name) {v : Aliases}, (∀ x, P x → P (v x)) → ∀ x, P x → P (v.removeMany ys x)
  | [], _, hv => hv
  | y :: ys, v, hv => Aliases.removeMany_plain ys (Aliases.remove_plain hv y)

mutual
theorem removeAliases_sane : ∀ (e : Expr) (v : Aliases), (∀ x, P x → P (v x)) → sane P e → sane P (removeAliases v e)
  | .literal _, _, _, _ => trivial
  | .variable x, v, hv, h => hv x h
  | .op _ es, v, hv, h => removeAliasesExprs_sane es v hv h
  | .case e as, v, hv, h => ⟨removeAliases_sane e v hv h.1, removeAliasesAlts_sane as v hv h.2⟩
  | .if_ c t e, v, hv, h =>
    ⟨removeAliases_sane c v hv h.1, removeAliases_sane t v hv h.2.1, removeAliases_sane e v hv h.2.2⟩
  | .let_ x e b, v, hv, h => by
    have h1 := removeAliases_sane e v hv h.2.1
    simp only [removeAliases]
    split
    · rename_i y hy
      refine removeAliases_sane b _ ?_ h.2.2
      intro z hz
      simp only [Aliases.insert]
      split
      · rw [variableName_some hy] at h1; exact h1
      · exact hv z hz
    · exact ⟨h.1, h1, removeAliases_sane b _ (Aliases.remove_plain hv x) h.2.2⟩
  | .letRec f env args th body b, v, hv, h =>
    ⟨h.1, h.2.1, h.2.2.1,
      removeAliases_sane body _ (Aliases.removeMany_plain args (Aliases.remove_plain hv f)) h.2.2.2.1,
      removeAliases_sane b _ (Aliases.remove_plain hv f) h.2.2.2.2⟩
  | .try_ e x t b, v, hv, h => ⟨h.1, removeAliases_sane e v hv h.2.1, removeAliases_sane b _ (Aliases.remove_plain hv x) h.2.2⟩
  | .clone _ e, v, hv, h => removeAliases_sane e v hv h
  | .drop _ e, v, hv, h => removeAliases_sane e v hv h
theorem removeAliasesExprs_sane : ∀ (es : Exprs) (v : Aliases), (∀ x, P x → P (v x)) → saneExprs P es →
    saneExprs P (removeAliasesExprs v es)
  | .nil, _, _, _ => trivial
  | .cons e es, v, hv, h => ⟨removeAliases_sane e v hv h.1, removeAliasesExprs_sane es v hv h.2⟩
theorem removeAliasesAlts_sane : ∀ (as : Alts) (v : Aliases), (∀ x, P x → P (v x)) → saneAlts P as →
    saneAlts P (removeAliasesAlts v as)
  | .nil, _, _, _ => trivial
  | .cons ts x e as, v, hv, h =>
    ⟨h.1, removeAliases_sane e _ (Aliases.remove_plain hv x) h.2.1, removeAliasesAlts_sane as v hv h.2.2⟩
end

/-! ### Normalization -/

def saneFrames (P : Name → Prop) : List Frame → Prop
  | [] => True
  | .let_ x e :: fs => P x ∧ sane P e ∧ saneFrames P fs
  | .letRec f _ args _ body :: fs => (P f ∧ (∀ x ∈ args, P x) ∧ f ∉ args ∧ sane P body) ∧ saneFrames P fs

theorem sane_plug : ∀ (fs : List Frame) {t : Expr}, saneFrames P fs → sane P t → sane P (plug fs t)
  | [], _, _, h => h
  | .let_ x e :: fs, _, h, ht => ⟨h.1, h.2.1, sane_plug fs h.2.2 ht⟩
  | .letRec f env args th body :: fs, _, h, ht => ⟨h.1.1, h.1.2.1, h.1.2.2.1, h.1.2.2.2, sane_plug fs h.2 ht⟩

theorem saneFrames_append : ∀ (fs : List Frame) {gs : List Frame}, saneFrames P fs → saneFrames P gs → saneFrames P (fs ++ gs)
  | [], _, _, h => h
  | .let_ x e :: fs, _, h, hg => ⟨h.1, h.2.1, saneFrames_append fs h.2.2 hg⟩
  | .letRec f env args th body :: fs, _, h, hg => ⟨h.1, saneFrames_append fs h.2 hg⟩

def saneList (P : Name → Prop) : List Expr → Prop
  | [] => True
  | e :: es => sane P e ∧ saneList P es

theorem saneExprs_ofList : ∀ (es : List Expr), saneList P es → saneExprs P (Exprs.ofList es)
  | [], _ => trivial
  | _ :: es, h => ⟨h.1, saneExprs_ofList es h.2⟩

theorem boundIf_sane (hP : ∀ i, P (anfName i)) {s : Split Expr} (b : Bool) (h : saneFrames P s.frames ∧ sane P s.tail) :
    saneFrames P (s.boundIf b).frames ∧ sane P (s.boundIf b).tail := by
  unfold Split.boundIf Split.bound
  split
  · split
    · exact h
    · exact ⟨saneFrames_append _ h.1 ⟨hP _, h.2, trivial⟩, hP _⟩
  · exact h

variable {post : Expr → Expr}

mutual
theorem split_sane (hP : ∀ i, P (anfName i)) (hpost : ∀ e, sane P e → sane P (post e)) : ∀ (e : Expr) (n : Nat), sane P e →
    saneFrames P (split post e n).frames ∧ sane P (split post e n).tail
  | .literal _, _, _ => ⟨trivial, trivial⟩
  | .variable _, _, h => ⟨trivial, h⟩
  | .op _ es, n, h =>
    have h1 := splitExprs_sane hP hpost _ es n h
    ⟨h1.1, saneExprs_ofList _ h1.2⟩
  | .case e as, n, h =>
    have h1 := split_sane hP hpost e n h.1
    ⟨h1.1, h1.2, splitAlts_sane hP hpost as _ h.2⟩
  | .if_ c t e, n, h =>
    have h1 := split_sane hP hpost c n h.1
    have h2 := split_sane hP hpost t (split post c n).next h.2.1
    have h3 := split_sane hP hpost e (split post t (split post c n).next).next h.2.2
    ⟨h1.1, h1.2, sane_plug _ h2.1 h2.2, sane_plug _ h3.1 h3.2⟩
  | .let_ x e b, n, h =>
    have h1 := split_sane hP hpost e n h.2.1
    have h2 := split_sane hP hpost b (split post e n).next h.2.2
    ⟨saneFrames_append _ h1.1 ⟨h.1, h1.2, h2.1⟩, h2.2⟩
  | .letRec f env args th body b, n, h =>
    have h1 := split_sane hP hpost body n h.2.2.2.1
    have h2 := split_sane hP hpost b (split post body n).next h.2.2.2.2
    ⟨⟨⟨h.1, h.2.1, h.2.2.1, hpost _ (sane_plug _ h1.1 h1.2)⟩, h2.1⟩, h2.2⟩
  | .try_ e x t b, n, h =>
    have h1 := split_sane hP hpost e n h.2.1
    have h2 := split_sane hP hpost b (split post e n).next h.2.2
    ⟨h1.1, h.1, h1.2, sane_plug _ h2.1 h2.2⟩
  | .clone _ e, n, h => split_sane hP hpost e n h
  | .drop _ e, n, h => split_sane hP hpost e n h
theorem splitExprs_sane (hP : ∀ i, P (anfName i)) (hpost : ∀ e, sane P e → sane P (post e)) (last : Bool) :
    ∀ (es : Exprs) (n : Nat), saneExprs P es →
    saneFrames P (splitExprs post last es n).frames ∧ saneList P (splitExprs post last es n).tail
  | .nil, _, _ => ⟨trivial, trivial⟩
  | .cons e es, n, h =>
    have h1 := boundIf_sane hP (last || !es.isNil) (split_sane hP hpost e n h.1)
    have h2 := splitExprs_sane hP hpost last es _ h.2
    ⟨saneFrames_append _ h1.1 h2.1, h1.2, h2.2⟩
theorem splitAlts_sane (hP : ∀ i, P (anfName i)) (hpost : ∀ e, sane P e → sane P (post e)) :
    ∀ (as : Alts) (n : Nat), saneAlts P as → saneAlts P (splitAlts post as n).1
  | .nil, _, _ => trivial
  | .cons _ x e as, n, h =>
    have h1 := split_sane hP hpost e n h.2.1
    ⟨h.1, sane_plug _ h1.1 h1.2, splitAlts_sane hP hpost as _ h.2.2⟩
end

theorem anfName_plain (i : Nat) : Plain (anfName i) := by
  constructor
  · intro y j h
    have := congrArg String.toList h
    simp [anfName, fvName, String.toList_append] at this
  · intro j f h
    have := congrArg String.toList h
    simp [anfName, liftName, String.toList_append] at this

theorem normalizeProgram_isGlobal (p : Program) (x : Name) : (normalizeProgram p).isGlobal x = p.isGlobal x := by
  have : ∀ (ds : List Global) (n : Nat), ((anfGlobals (removeAliases id) ds n).find? (·.name == x)).isSome =
      (ds.find? (·.name == x)).isSome := by
    intro ds
    induction ds with
    | nil => intro n; rfl
    | cons d ds ih =>
      intro n
      simp only [anfGlobals, List.find?_cons]
      cases d.name == x
      · exact ih _
      · rfl
  simp only [Program.isGlobal, Program.find, normalizeProgram, this]

theorem normalizeProgram_sane {p : Program} (h : SaneProgram p) : SaneProgram (normalizeProgram p) where
  names x hx := h.names x (by rwa [normalizeProgram_isGlobal] at hx)
  args d hd := by
    obtain ⟨d', hd', m, rfl⟩ := anfGlobals_mem _ p.globals 0 d hd
    exact h.args d' hd'
  bodies d hd := by
    obtain ⟨d', hd', m, rfl⟩ := anfGlobals_mem _ p.globals 0 d hd
    have hpost : ∀ e, sane Plain e → sane Plain (removeAliases id e) :=
      fun e he => removeAliases_sane e id (fun _ hx => hx) he
    have h1 := split_sane anfName_plain hpost d'.body m (h.bodies d' hd')
    exact hpost _ (sane_plug _ h1.1 h1.2)

/-! ### Alpha conversion -/

mutual
theorem sane_of_nodup : ∀ (e : Expr), (binders e).Nodup → (∀ x ∈ names e, P x) → sane P e
  | .literal _, _, _ => trivial
  | .variable x, _, h => h x (by simp [names])
  | .op _ es, hn, h => saneExprs_of_nodup es hn h
  | .case e as, hn, h => by
    simp only [binders, List.nodup_append] at hn
    exact ⟨sane_of_nodup e hn.1 fun x hx => h x (by simp [names, hx]),
      saneAlts_of_nodup as hn.2.1 fun x hx => h x (by simp [names, hx])⟩
  | .if_ c t e, hn, h => by
    simp only [binders, List.nodup_append] at hn
    exact ⟨sane_of_nodup c hn.1 fun x hx => h x (by simp [names, hx]),
      sane_of_nodup t hn.2.1.1 fun x hx => h x (by simp [names, hx]),
      sane_of_nodup e hn.2.1.2.1 fun x hx => h x (by simp [names, hx])⟩
  | .let_ y e b, hn, h => by
    simp only [binders, List.nodup_append, List.nodup_cons] at hn
    exact ⟨h y (by simp [names]), sane_of_nodup e hn.2.1 fun x hx => h x (by simp [names, hx]),
      sane_of_nodup b hn.2.2.1 fun x hx => h x (by simp [names, hx])⟩
  | .letRec f env args th body b, hn, h => by
    simp only [binders, List.nodup_append, List.nodup_cons, List.mem_append, not_or] at hn
    exact ⟨h f (by simp [names]), fun x hx => h x (by simp [names, hx]), hn.1.1,
      sane_of_nodup body hn.2.2.1.1 fun x hx => h x (by simp [names, hx]),
      sane_of_nodup b hn.2.2.1.2.1 fun x hx => h x (by simp [names, hx])⟩
  | .try_ e y t b, hn, h => by
    simp only [binders, List.nodup_append, List.nodup_cons] at hn
    exact ⟨h y (by simp [names]), sane_of_nodup e hn.2.1 fun x hx => h x (by simp [names, hx]),
      sane_of_nodup b hn.2.2.1 fun x hx => h x (by simp [names, hx])⟩
  | .clone _ e, hn, h => sane_of_nodup e hn h
  | .drop _ e, hn, h => sane_of_nodup e hn h
theorem saneExprs_of_nodup : ∀ (es : Exprs), (bindersExprs es).Nodup → (∀ x ∈ namesExprs es, P x) → saneExprs P es
  | .nil, _, _ => trivial
  | .cons e es, hn, h => by
    simp only [bindersExprs, List.nodup_append] at hn
    exact ⟨sane_of_nodup e hn.1 fun x hx => h x (by simp [namesExprs, hx]),
      saneExprs_of_nodup es hn.2.1 fun x hx => h x (by simp [namesExprs, hx])⟩
theorem saneAlts_of_nodup : ∀ (as : Alts), (bindersAlts as).Nodup → (∀ x ∈ namesAlts as, P x) → saneAlts P as
  | .nil, _, _ => trivial
  | .cons ts y e as, hn, h => by
    simp only [bindersAlts, List.nodup_append, List.nodup_cons] at hn
    exact ⟨h y (by simp [namesAlts]), sane_of_nodup e hn.2.1 fun x hx => h x (by simp [namesAlts, hx]),
      saneAlts_of_nodup as hn.2.2.1 fun x hx => h x (by simp [namesAlts, hx])⟩
end

mutual
theorem names_bound_or_free : ∀ (e : Expr) (x : Name), x ∈ names e → x ∈ binders e ∨ x ∈ free e
  | .literal _, x, h => by simp [names] at h
  | .variable _, x, h => Or.inr h
  | .op _ es, x, h => namesExprs_bound_or_free es x h
  | .case e as, x, h => by
    simp only [names, binders, free, List.mem_append] at h ⊢
    have := names_bound_or_free e x
    have := namesAlts_bound_or_free as x
    grind
  | .if_ c t e, x, h => by
    simp only [names, binders, free, List.mem_append] at h ⊢
    have := names_bound_or_free c x
    have := names_bound_or_free t x
    have := names_bound_or_free e x
    grind
  | .let_ y e b, x, h => by
    simp only [names, binders, free, List.mem_append, List.mem_cons, List.mem_filter, bne_iff_ne, ne_eq, List.cons_append] at h ⊢
    have := names_bound_or_free e x
    have := names_bound_or_free b x
    grind
  | .letRec f env args th body b, x, h => by
    simp only [names, binders, free, List.mem_append, List.mem_cons, List.mem_filter, bne_iff_ne, ne_eq, List.cons_append,
      Bool.and_eq_true, List.all_eq_true] at h ⊢
    have := names_bound_or_free body x
    have := names_bound_or_free b x
    by_cases hf : x = f
    · exact Or.inl (Or.inl hf)
    · by_cases ha : x ∈ args
      · exact Or.inl (Or.inr (Or.inl ha))
      · have : ∀ y ∈ args, ¬x = y := fun y hy h => ha (h ▸ hy)
        grind
  | .try_ e y t b, x, h => by
    simp only [names, binders, free, List.mem_append, List.mem_cons, List.mem_filter, bne_iff_ne, ne_eq, List.cons_append] at h ⊢
    have := names_bound_or_free e x
    have := names_bound_or_free b x
    grind
  | .clone _ e, x, h => names_bound_or_free e x h
  | .drop _ e, x, h => names_bound_or_free e x h
theorem namesExprs_bound_or_free : ∀ (es : Exprs) (x : Name), x ∈ namesExprs es → x ∈ bindersExprs es ∨ x ∈ freeExprs es
  | .nil, x, h => by simp [namesExprs] at h
  | .cons e es, x, h => by
    simp only [namesExprs, bindersExprs, freeExprs, List.mem_append] at h ⊢
    have := names_bound_or_free e x
    have := namesExprs_bound_or_free es x
    grind
theorem namesAlts_bound_or_free : ∀ (as : Alts) (x : Name), x ∈ namesAlts as → x ∈ bindersAlts as ∨ x ∈ freeAlts as
  | .nil, x, h => by simp [namesAlts] at h
  | .cons ts y e as, x, h => by
    simp only [namesAlts, bindersAlts, freeAlts, List.mem_append, List.mem_cons, List.mem_filter, bne_iff_ne, ne_eq,
      List.cons_append] at h ⊢
    have := names_bound_or_free e x
    have := namesAlts_bound_or_free as x
    grind
end

theorem alphaName_plain {x : Name} (hx : ':' ∉ x.toList) (k : Nat) : Plain (alphaName x k) := by
  unfold alphaName
  split
  · exact plain_of_no_colon hx
  · constructor
    · intro y i h
      have h1 := (numbered_inj h).1
      rw [h1] at hx
      simp at hx
    · intro i f h
      have h1 := congrArg String.toList h
      simp only [liftName, String.toList_append] at h1
      have h2 := congrArg (List.count ':') h1
      have h3 : List.count ':' x.toList = 0 := List.count_eq_zero.mpr hx
      have h4 : List.count ':' (toString k).toList = 0 := List.count_eq_zero.mpr (colon_not_in_digits k)
      have h5 : List.count ':' ("mir:lift:" : String).toList = 2 := by decide
      have h6 : List.count ':' (":" : String).toList = 1 := by decide
      simp only [List.count_append, h3, h4, h5, h6] at h2
      omega

theorem alphaProgram_sane {p : Program} (h : ∀ d ∈ p.globals, WellNamed p d) (hg : ∀ x, p.isGlobal x = true → Plain x)
    (ha : ∀ d ∈ p.globals, ∀ x ∈ d.args, Plain x) : SaneProgram (alphaProgram p) where
  names x hx := hg x (by
    have : (alphaProgram p).isGlobal x = p.isGlobal x :=
      isGlobal_map p (fun d => { d with body := (alpha d.body id p.nameCounts).1 }) (fun _ => rfl) x
    rwa [this] at hx)
  args d hd := by
    simp only [alphaProgram, List.mem_map] at hd
    obtain ⟨d, hd, rfl⟩ := hd
    exact ha d hd
  bodies d hd := by
    simp only [alphaProgram, List.mem_map] at hd
    obtain ⟨d, hd, rfl⟩ := hd
    have hw := h d hd
    have hf := alpha_fresh d.body id p.nameCounts (fun x hx => hw.source x (by simp [hx])) hw.distinct
    refine sane_of_nodup _ hf.nodup fun x hx => ?_
    rcases names_bound_or_free _ x hx with hx | hx
    · obtain ⟨y, hy, k, rfl⟩ := alpha_from d.body id p.nameCounts _ hx
      exact alphaName_plain (hw.bound y hy) k
    · obtain ⟨y, hy, rfl⟩ := alpha_free _ _ _ _ hx
      rcases hw.closed _ hy with h1 | h1
      · exact ha d hd _ h1
      · exact hg _ h1

/-! ### C26: lambda lifting -/

/-- Lifting local functions does not change what a program does. -/
theorem c26_lambda_lifting (p : Program) (h : LiftableProgram p) (w : World) (fuel : Nat) (g : Name) (args : List Obs)
    (hs : p.run w captureEnvironment fuel g args ≠ .stuck) :
    ((liftProgram p).run w captureEnvironment fuel g args).outcome = (p.run w captureEnvironment fuel g args).outcome :=
  run_eq (liftK p) w captureEnvironment captureEnvironment fuel (lift_calls h w fuel) g args hs

theorem R.ne_stuck_of_outcome {r r' : R Value} (h : r.outcome = r'.outcome) (hs : r' ≠ .stuck) : r ≠ .stuck := by
  rintro rfl
  revert h hs
  cases r' <;> simp [R.outcome]

/-- Environments are inferred, and then functions are lifted. -/
theorem c26_after_inference (p : Program) (h : SaneProgram p) (w : World) (fuel : Nat) (g : Name) (args : List Obs)
    (hs : p.run w captureAll fuel g args ≠ .stuck) :
    ((liftProgram (inferProgram p)).run w captureEnvironment fuel g args).outcome = (p.run w captureAll fuel g args).outcome := by
  have h1 := c25_environments p w fuel g args hs
  rw [c26_lambda_lifting _ (inferProgram_liftable h) w fuel g args (R.ne_stuck_of_outcome h1 hs), h1]

/-- All passes before reference counting (lib/mir-fmm/src/lib.rs:32-37), for all well-named programs. -/
theorem c26_pipeline (p : Program) (h : ∀ d ∈ p.globals, WellNamed p d) (hg : ∀ x, p.isGlobal x = true → Plain x)
    (ha : ∀ d ∈ p.globals, ∀ x ∈ d.args, Plain x) (w : World) (fuel : Nat) (g : Name) (args : List Obs)
    (hs : p.run w captureAll fuel g args ≠ .stuck) :
    ((liftProgram (inferProgram (normalizeProgram (alphaProgram (flattenProgram p))))).run w captureEnvironment fuel g args).outcome =
      (p.run w captureAll fuel g args).outcome := by
  have h1 := c23_pipeline p h w fuel g args hs
  have hsane : SaneProgram (alphaProgram (flattenProgram p)) := by
    refine alphaProgram_sane (wellNamed_flatten h) (fun x hx => hg x (by rwa [isGlobal_flatten] at hx)) ?_
    intro d hd
    simp only [flattenProgram, convertProgram, List.mem_map] at hd
    obtain ⟨d, hd, rfl⟩ := hd
    exact ha d hd
  rw [c26_after_inference _ (normalizeProgram_sane hsane) w fuel g args (R.ne_stuck_of_outcome h1 hs), h1]

/-- `\(x, y) { f = \(z) { if x == z then y else f(z + y) }; u = \() { 1 }; v = \() { x }; record(f(1) , u, v) }` -/
def sampleLifting : Program where
  foreign := []
  globals := [⟨"g", ["x", "y"], false,
    .letRec "f" [] ["z"] false
      (.if_ (.op (.comparison .equal) (.cons (.variable "x") (.cons (.variable "z") .nil))) (.variable "y")
        (.op .call (.cons (.variable "f")
          (.cons (.op (.arithmetic .add) (.cons (.variable "z") (.cons (.variable "y") .nil))) .nil))))
      (.letRec "u" [] [] false (.literal (.number 1))
        (.letRec "v" [] [] false (.variable "x")
          (.op (.record "r") (.cons (.op .call (.cons (.variable "f") (.cons (.literal (.number 1)) .nil)))
            (.cons (.variable "u") (.cons (.variable "v") .nil))))))⟩]
  typeInformation := id

example : (∀ d ∈ sampleLifting.globals, WellNamed sampleLifting d) ∧
    (∀ x, sampleLifting.isGlobal x = true → Plain x) ∧ (∀ d ∈ sampleLifting.globals, ∀ x ∈ d.args, Plain x) := by
  refine ⟨?_, ?_, ?_⟩
  · intro d hd
    simp only [sampleLifting, List.mem_singleton] at hd
    subst hd
    refine ⟨by decide, ?_, by decide, by decide, by simp [distinctArguments, distinctArgumentsExprs],
      by simp [noEnvironments, noEnvironmentsExprs]⟩
    intro x hx
    refine sourceName_of_no_colon ?_
    revert x
    decide
  · intro x hx
    simp [sampleLifting, Program.isGlobal, Program.find] at hx
    subst hx
    exact plain_of_no_colon (by decide)
  · intro d hd x hx
    simp only [sampleLifting, List.mem_singleton] at hd
    subst hd
    refine plain_of_no_colon ?_
    revert x
    decide

/-- `f` gets its free variables as arguments, `u` needs none, and `v` stays a closure because it is a field. -/
example : (liftProgram (inferProgram sampleLifting)).globals.map (fun d => (d.name, d.args)) =
      [("g", ["x", "y"]), ("mir:lift:0:u", []), ("mir:lift:1:f", ["z", "x", "y"])] ∧
    ((liftProgram (inferProgram sampleLifting)).run sampleWorld captureEnvironment 9 "g" [.number 5, .number 2]).outcome =
      .value (.record "r" [.number 2, .function, .function]) [] := ⟨by decide, rfl⟩

end Verif.Mir
