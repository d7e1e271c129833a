import Verif.Mir.NormalizationLemmas

namespace Verif.Mir

/-! ### Normalization of programs without alias removal -/

theorem anfGlobals_find (post : Expr → Expr) (g : Name) : ∀ (ds : List Global) (n : Nat),
    (∀ d, ds.find? (·.name == g) = some d → ∃ m, (anfGlobals post ds n).find? (·.name == g) =
      some { d with body := post (split post d.body m).plug }) ∧
    (ds.find? (·.name == g) = none → (anfGlobals post ds n).find? (·.name == g) = none)
  | [], n => ⟨by simp, fun _ => rfl⟩
  | d :: ds, n => by
    obtain ⟨ih1, ih2⟩ := anfGlobals_find post g ds (anf post d.body Prod.mk n).2
    simp only [anfGlobals, List.find?_cons]
    cases hd : d.name == g with
    | true => exact ⟨fun d' h => ⟨n, by simp only [Option.some.injEq] at h; subst h; rw [anf_body_eq]⟩, by simp⟩
    | false => exact ⟨ih1, ih2⟩

theorem anfProgram_find {p : Program} {g : Name} {d : Global} (h : p.find g = some d) :
    ∃ m, (anfProgram p).find g = some { d with body := (split id d.body m).plug } :=
  (anfGlobals_find id g p.globals 0).1 d h

theorem anfProgram_find_none {p : Program} {g : Name} (h : p.find g = none) : (anfProgram p).find g = none :=
  (anfGlobals_find id g p.globals 0).2 h

theorem anfProgram_isGlobal {p : Program} {x : Name} (h : p.isGlobal x = true) : (anfProgram p).isGlobal x = true := by
  unfold Program.isGlobal at h ⊢
  simp only [Bool.or_eq_true] at h ⊢
  rcases h with h | h
  · exact Or.inl h
  · obtain ⟨d, hd⟩ := Option.isSome_iff_exists.mp h
    obtain ⟨m, hm⟩ := anfProgram_find hd
    exact Or.inr (by rw [hm]; rfl)

theorem anf_calls (w : World) (p : Program) (hp : ∀ d ∈ p.globals, HygienicE d.body) (n : Nat) :
    CallRel (anfK p) (apply w p captureAll n) (apply w (anfProgram p) captureAll n) := by
  refine apply_rel (anfK p) w captureAll captureAll ?_ ?_ ?_ ?_ n
  · intro d d' ren live ρ ρ' hk call call' hcall vs vs' log hr hvs
    have hk' := hk
    obtain ⟨rfl, hl, hy, m, rfl⟩ := hk
    refine SimE.enter (S := ⟨anfK p, w, captureAll, captureAll, call, call', rfl, hcall⟩) (ren' := id)
      (live' := (· ∈ free d.body)) ?_ (by simp [anfDef]) ?_ ?_ ?_ hk' log hr hvs
    · intro ρ ρ' log hr
      simp only [anfDef]
      rw [Sim.ev'_plug]
      exact split_sim p rfl rfl rfl d.body m ρ ρ' log hy hr
    · intro y hy hyf hya
      exact ⟨hl y hy hyf hya, hyf, rfl⟩
    · intro y _ x _ h; exact h
    · intro _ _; rfl
  · intro d ρ g h; exact h.elim
  · intro g d hd
    have hm : d ∈ p.globals := List.mem_of_find?_eq_some hd
    obtain ⟨m, hm'⟩ := anfProgram_find hd
    refine ⟨_, hm', ?_⟩
    intro call call' hcall vs vs' log hvs
    refine SimE.enterGlobal (S := ⟨anfK p, w, captureAll, captureAll, call, call', rfl, hcall⟩) (ren' := id)
      (live' := (· ∈ free d.body)) ?_ (by simp) (fun _ _ _ => rfl) (fun y _ x _ h => h)
      (fun x h => anfProgram_isGlobal h) log hvs
    intro ρ ρ' log hr
    rw [Sim.ev'_plug]
    exact split_sim p rfl rfl rfl d.body m ρ ρ' log (hp d hm) hr
  · intro g h1 h2
    exact ⟨anfProgram_find_none h1, h2⟩

/-! ### Alias removal -/

theorem remove_eq (v : Aliases) (x : Name) : v.remove x = extend v x x := rfl
theorem insert_eq (v : Aliases) (x y : Name) : v.insert x y = extend v x y := rfl

theorem removeMany_eq (xs : List Name) : ∀ (v : Aliases) (y : Name),
    v.removeMany xs y = if y ∈ xs then y else v y := by
  induction xs with
  | nil => intro v y; simp [Aliases.removeMany]
  | cons x xs ih =>
    intro v y
    simp only [Aliases.removeMany, ih, List.mem_cons]
    by_cases h : y ∈ xs
    · simp [h]
    · by_cases h2 : y = x
      · simp [h2, Aliases.remove]
      · simp [h, h2, Aliases.remove]

/-- No variable is an alias of a name that is bound again. -/
structure Safe (v : Aliases) (bs fs : List Name) : Prop where
  nodup : bs.Nodup
  fresh : ∀ y ∈ fs, v y ∉ bs

abbrev SafeE (v : Aliases) (e : Expr) : Prop := Safe v (binders e) (free e)

theorem Safe.sub {v v' : Aliases} {bs fs bs' fs' : List Name} (h : Safe v bs fs) (hb : bs'.Sublist bs)
    (hf : ∀ y ∈ fs', (y ∈ fs ∧ v' y = v y) ∨ v' y ∉ bs') : Safe v' bs' fs' := by
  refine ⟨h.nodup.sublist hb, ?_⟩
  intro y hy hy'
  rcases hf y hy with ⟨h1, h2⟩ | h1
  · exact h.fresh y h1 (hb.subset (h2 ▸ hy'))
  · exact h1 hy'

theorem variableName_some {e : Expr} {z : Name} (h : variableName e = some z) : e = .variable z := by
  cases e <;> simp_all [variableName]

/-- An expression that becomes a variable becomes one of its variables. -/
theorem removeAliases_variable : ∀ (e : Expr) (v : Aliases) (z : Name), removeAliases v e = .variable z →
    ∃ y ∈ free e, z = v y
  | .literal _, v, z, h => by simp [removeAliases] at h
  | .variable x, v, z, h => by
    simp only [removeAliases, Expr.variable.injEq] at h
    exact ⟨x, by simp [free], h.symm⟩
  | .op _ _, v, z, h => by simp [removeAliases] at h
  | .case _ _, v, z, h => by simp [removeAliases] at h
  | .if_ _ _ _, v, z, h => by simp [removeAliases] at h
  | .let_ x e b, v, z, h => by
    simp only [removeAliases] at h
    split at h
    · rename_i y hy
      obtain ⟨u, hu, rfl⟩ := removeAliases_variable e v y (variableName_some hy)
      obtain ⟨u', hu', hz⟩ := removeAliases_variable b _ z h
      by_cases hux : u' = x
      · refine ⟨u, by simp [free, hu], ?_⟩
        simpa [Aliases.insert, hux] using hz
      · refine ⟨u', by simp only [free, List.mem_append]; exact Or.inr (mem_filter_ne hu' hux), ?_⟩
        simpa [Aliases.insert, hux] using hz
    · cases h
  | .letRec .., v, z, h => by simp [removeAliases] at h
  | .try_ .., v, z, h => by simp [removeAliases] at h
  | .clone _ _, v, z, h => by simp [removeAliases] at h
  | .drop _ _, v, z, h => by simp [removeAliases] at h

def aliasDef (d : Def) (v : Aliases) : Def :=
  ⟨d.f, d.env.map v, d.args, d.thunk, removeAliases ((v.remove d.f).removeMany d.args) d.body⟩

/-- What is needed of a function definition. -/
structure SafeDef (v : Aliases) (d : Def) : Prop where
  nodup : (binders d.body).Nodup
  name : d.f ∉ binders d.body
  args : ∀ x ∈ d.args, x ∉ binders d.body
  fresh : ∀ y ∈ free d.body, y ≠ d.f → y ∉ d.args → v y ∉ binders d.body ∧ v y ≠ d.f ∧ v y ∉ d.args

theorem SafeDef.body {v : Aliases} {d : Def} (h : SafeDef v d) : SafeE ((v.remove d.f).removeMany d.args) d.body := by
  refine ⟨h.nodup, ?_⟩
  intro y hy
  rw [removeMany_eq]
  split
  · rename_i hm; exact h.args y hm
  · rename_i hm
    simp only [Aliases.remove]
    split
    · exact h.name
    · rename_i hf; exact (h.fresh y hy hf hm).1

def aliasK (p : Program) : ClosureRel where
  source := p
  target := removeAliasesProgram p
  closure d d' ren live _ _ := (∀ x ∈ free d.body, x ≠ d.f → x ∉ d.args → live x) ∧ SafeDef ren d ∧ d' = aliasDef d ren
  lifted _ _ _ := False

variable {S : Sim}

theorem SafeE.letBody {v : Aliases} {x : Name} {e b : Expr} (h : SafeE v (.let_ x e b)) : SafeE (v.remove x) b := by
  have hn := h.nodup
  simp only [binders, List.nodup_cons, List.nodup_append, List.mem_append, not_or] at hn
  refine h.sub (by simp [binders]) fun y hy => ?_
  by_cases hyx : y = x
  · exact Or.inr (by simp [Aliases.remove, hyx, hn.1.2])
  · exact Or.inl ⟨by simp only [free, List.mem_append]; exact Or.inr (mem_filter_ne hy hyx), by simp [Aliases.remove, hyx]⟩

theorem SafeE.letAlias {v : Aliases} {x : Name} {e b : Expr} (h : SafeE v (.let_ x e b)) {z : Name}
    (hz : removeAliases v e = .variable z) : SafeE (v.insert x z) b := by
  refine h.sub (by simp [binders]) fun y hy => ?_
  by_cases hyx : y = x
  · refine Or.inr ?_
    obtain ⟨u, hu, rfl⟩ := removeAliases_variable e v z hz
    simp only [Aliases.insert, hyx, if_true]
    exact fun hb => h.fresh u (by simp [free, hu]) (by simp [binders, hb])
  · exact Or.inl ⟨by simp only [free, List.mem_append]; exact Or.inr (mem_filter_ne hy hyx), by simp [Aliases.insert, hyx]⟩

theorem SafeE.tryBody {v : Aliases} {x : Name} {e b : Expr} {t : TypeId} (h : SafeE v (.try_ e x t b)) :
    SafeE (v.remove x) b := by
  have hn := h.nodup
  simp only [binders, List.nodup_cons, List.nodup_append, List.mem_append, not_or] at hn
  refine h.sub (by simp [binders]) fun y hy => ?_
  by_cases hyx : y = x
  · exact Or.inr (by simp [Aliases.remove, hyx, hn.1.2])
  · exact Or.inl ⟨by simp only [free, List.mem_append]; exact Or.inr (mem_filter_ne hy hyx), by simp [Aliases.remove, hyx]⟩

theorem SafeE.alternative {v : Aliases} {x : Name} {e : Expr} {ts : Option (List TypeId)} {as : Alts}
    (h : Safe v (bindersAlts (.cons ts x e as)) (freeAlts (.cons ts x e as))) : SafeE (v.remove x) e := by
  have hn := h.nodup
  simp only [bindersAlts, List.nodup_cons, List.nodup_append, List.mem_append, not_or] at hn
  refine h.sub (by simp [bindersAlts]) fun y hy => ?_
  by_cases hyx : y = x
  · exact Or.inr (by simp [Aliases.remove, hyx, hn.1.1])
  · exact Or.inl ⟨by simp only [freeAlts, List.mem_append]; exact Or.inl (mem_filter_ne hy hyx), by simp [Aliases.remove, hyx]⟩

theorem SafeE.letRecDef {v : Aliases} {f : Name} {env args : List Name} {th : Bool} {body b : Expr}
    (h : SafeE v (.letRec f env args th body b)) : SafeDef v ⟨f, env, args, th, body⟩ := by
  have hn := h.nodup
  simp only [binders, List.nodup_cons, List.nodup_append, List.mem_append, not_or] at hn
  refine ⟨hn.2.2.1.1, hn.1.2.1, fun x hx hb => hn.2.2.2 x hx x (Or.inl hb) rfl, ?_⟩
  intro y hy hyf hya
  have hy' : y ∈ free (.letRec f env args th body b) := by
    simp only [free, List.mem_filter, List.mem_append, bne_iff_ne, ne_eq, Bool.and_eq_true, List.all_eq_true]
    exact ⟨Or.inl ⟨hy, hyf, fun z hz h => hya (h ▸ hz)⟩, hyf⟩
  have := h.fresh y hy'
  simp only [binders, List.mem_cons, List.mem_append, not_or] at this
  exact ⟨this.2.2.1, this.1, this.2.1⟩

theorem SafeE.letRecBody {v : Aliases} {f : Name} {env args : List Name} {th : Bool} {body b : Expr}
    (h : SafeE v (.letRec f env args th body b)) : SafeE (v.remove f) b := by
  have hn := h.nodup
  simp only [binders, List.nodup_cons, List.nodup_append, List.mem_append, not_or] at hn
  refine h.sub (by
    simp only [binders]
    exact ((List.sublist_append_right _ _).trans (List.sublist_append_right _ _)).cons _) fun y hy => ?_
  by_cases hyf : y = f
  · exact Or.inr (by simp [Aliases.remove, hyf, hn.1.2.2])
  · exact Or.inl ⟨by simp only [free, List.mem_filter, List.mem_append, bne_iff_ne, ne_eq]; exact ⟨Or.inr hy, hyf⟩,
      by simp [Aliases.remove, hyf]⟩

mutual
theorem alias_sim (p : Program) (hK : S.K = aliasK p) (hc : S.capture = captureAll) (hc' : S.capture' = captureAll) :
    ∀ (e : Expr) (v : Aliases), SafeE v e → SimE S v (· ∈ free e) e (removeAliases v e)
  | .literal l, v, _ => .literal l
  | .variable x, v, _ => .variable (by simp [free]) rfl
  | .op o es, v, h => .op o (aliasExprs_sim p hK hc hc' es v h)
  | .case e as, v, h =>
    .case ((alias_sim p hK hc hc' e v (h.sub (by simp [binders]) fun y hy => Or.inl ⟨by simp [free, hy], rfl⟩)).mono
        fun x hx => ⟨by simp [free, hx], rfl⟩)
      ((aliasAlts_sim p hK hc hc' as v (h.sub (by simp [binders]) fun y hy => Or.inl ⟨by simp [free, hy], rfl⟩)).mono
        fun x hx => ⟨by simp [free, hx], rfl⟩)
  | .if_ c t e, v, h =>
    .if_ ((alias_sim p hK hc hc' c v (h.sub (by simp [binders]) fun y hy => Or.inl ⟨by simp [free, hy], rfl⟩)).mono
        fun x hx => ⟨by simp [free, hx], rfl⟩)
      ((alias_sim p hK hc hc' t v (h.sub (by simp [binders]) fun y hy => Or.inl ⟨by simp [free, hy], rfl⟩)).mono
        fun x hx => ⟨by simp [free, hx], rfl⟩)
      ((alias_sim p hK hc hc' e v (h.sub (by simp [binders]) fun y hy => Or.inl ⟨by simp [free, hy], rfl⟩)).mono
        fun x hx => ⟨by simp [free, hx], rfl⟩)
  | .let_ x e b, v, h => by
    have he := (alias_sim p hK hc hc' e v (h.sub (by simp [binders]) fun y hy => Or.inl ⟨by simp [free, hy], rfl⟩)).mono
        (live' := (· ∈ free (.let_ x e b))) fun x hx => ⟨by simp [free, hx], rfl⟩
    simp only [removeAliases]
    split
    · rename_i z hz
      have hz := variableName_some hz
      have hb := alias_sim p hK hc hc' b _ (h.letAlias hz)
      rw [hz] at he
      intro ρ ρ' log hr
      have he := he ρ ρ' log hr
      simp only [Sim.ev, Sim.ev', eval] at he ⊢
      cases hl : lookup S.K.target ρ' z with
      | none => simp only [hl, R.ofOption] at he; generalize eval _ _ _ _ _ e _ = q at he; cases he; exact .stuck _
      | some u' =>
        simp only [hl, R.ofOption] at he
        generalize eval _ _ _ _ _ e _ = q at he
        cases he with
        | stuck => exact .stuck _
        | @ok u _ _ hu =>
          simp only [R.bind]
          refine hb _ _ log ?_
          intro y hy w hw
          rw [lookup_set] at hw
          by_cases hyx : y = x
          · simp only [hyx, if_true, Option.some.injEq] at hw
            subst hw
            exact ⟨u', by simp only [Aliases.insert, hyx, if_true]; exact hl, hu⟩
          · simp only [hyx, if_false] at hw
            simp only [Aliases.insert, hyx, if_false]
            exact hr y (by simp only [free, List.mem_append]; exact Or.inr (mem_filter_ne hy hyx)) w hw
    · refine .let_ (live' := (· ∈ free b)) he ?_ ?_
      · rw [← remove_eq]
        exact alias_sim p hK hc hc' b _ h.letBody
      · intro y hy hyx
        have hy' : y ∈ free (.let_ x e b) := by
          simp only [free, List.mem_append]; exact Or.inr (mem_filter_ne hy hyx)
        exact ⟨hy', fun hv => h.fresh y hy' (by simp [binders, hv])⟩
  | .letRec f env args th body b, v, h => by
    refine SimE.letRec (d := ⟨f, env, args, th, body⟩) (d' := aliasDef ⟨f, env, args, th, body⟩ v) (renC := v)
      (liveC := (· ∈ free (.letRec f env args th body b))) (live' := (· ∈ free b)) ?_ ?_ ?_ ?_
    · rw [hK]
      refine fun _ _ => ⟨?_, h.letRecDef, rfl⟩
      intro y hy hyf hya
      simp only [free, List.mem_filter, List.mem_append, bne_iff_ne, ne_eq, Bool.and_eq_true, List.all_eq_true]
      exact ⟨Or.inl ⟨hy, hyf, fun z hz h => hya (h ▸ hz)⟩, hyf⟩
    · intro ρ ρ' hr
      rw [hc, hc']
      exact hr
    · exact alias_sim p hK hc hc' b _ h.letRecBody
    · intro y hy hyf
      have hy' : y ∈ free (.letRec f env args th body b) := by
        simp only [free, List.mem_filter, List.mem_append, bne_iff_ne, ne_eq]; exact ⟨Or.inr hy, hyf⟩
      exact ⟨hy', fun hv => h.fresh y hy' (by simp [binders, hv, aliasDef])⟩
  | .try_ e x t b, v, h => by
    refine .try_ (live' := (· ∈ free b)) ((alias_sim p hK hc hc' e v
        (h.sub (by simp [binders]) fun y hy => Or.inl ⟨by simp [free, hy], rfl⟩)).mono
        fun x hx => ⟨by simp [free, hx], rfl⟩) ?_ ?_
    · rw [← remove_eq]
      exact alias_sim p hK hc hc' b _ h.tryBody
    · intro y hy hyx
      have hy' : y ∈ free (.try_ e x t b) := by
        simp only [free, List.mem_append]; exact Or.inr (mem_filter_ne hy hyx)
      exact ⟨hy', fun hv => h.fresh y hy' (by simp [binders, hv])⟩
  | .clone xs e, v, h => .clone xs xs (alias_sim p hK hc hc' e v h)
  | .drop xs e, v, h => .drop xs xs (alias_sim p hK hc hc' e v h)
theorem aliasExprs_sim (p : Program) (hK : S.K = aliasK p) (hc : S.capture = captureAll) (hc' : S.capture' = captureAll) :
    ∀ (es : Exprs) (v : Aliases), Safe v (bindersExprs es) (freeExprs es) →
      SimEs S v (· ∈ freeExprs es) es (removeAliasesExprs v es)
  | .nil, v, _ => .nil
  | .cons e es, v, h =>
    .cons ((alias_sim p hK hc hc' e v
        (h.sub (by simp [bindersExprs]) fun y hy => Or.inl ⟨by simp [freeExprs, hy], rfl⟩)).mono
        fun x hx => ⟨by simp [freeExprs, hx], rfl⟩)
      ((aliasExprs_sim p hK hc hc' es v
        (h.sub (by simp [bindersExprs]) fun y hy => Or.inl ⟨by simp [freeExprs, hy], rfl⟩)).mono
        fun x hx => ⟨by simp [freeExprs, hx], rfl⟩)
theorem aliasAlts_sim (p : Program) (hK : S.K = aliasK p) (hc : S.capture = captureAll) (hc' : S.capture' = captureAll) :
    ∀ (as : Alts) (v : Aliases), Safe v (bindersAlts as) (freeAlts as) →
      SimAs S v (· ∈ freeAlts as) as (removeAliasesAlts v as)
  | .nil, v, _ => .nil
  | .cons ts x e as, v, h => by
    refine .cons ts (live' := (· ∈ free e)) ?_ ?_ ((aliasAlts_sim p hK hc hc' as v
        (h.sub (by simp [bindersAlts]) fun y hy => Or.inl ⟨by simp [freeAlts, hy], rfl⟩)).mono
        fun x hx => ⟨by simp [freeAlts, hx], rfl⟩)
    · rw [← remove_eq]
      exact alias_sim p hK hc hc' e _ (SafeE.alternative h)
    · intro y hy hyx
      have hy' : y ∈ freeAlts (.cons ts x e as) := by
        simp only [freeAlts, List.mem_append]; exact Or.inl (mem_filter_ne hy hyx)
      exact ⟨hy', fun hv => h.fresh y hy' (by simp [bindersAlts, hv])⟩
end

theorem alias_calls (w : World) (p : Program) (hp : ∀ d ∈ p.globals, SafeE id d.body) (n : Nat) :
    CallRel (aliasK p) (apply w p captureAll n) (apply w (removeAliasesProgram p) captureAll n) := by
  refine apply_rel (aliasK p) w captureAll captureAll ?_ ?_ ?_ ?_ n
  · intro d d' ren live ρ ρ' hk call call' hcall vs vs' log hr hvs
    have hk' := hk
    obtain ⟨hl, hs, rfl⟩ := hk
    have hm : ∀ y, Aliases.removeMany (Aliases.remove ren d.f) d.args y =
        if y ∈ d.args then y else Aliases.remove ren d.f y := removeMany_eq _ _
    refine SimE.enter (S := ⟨aliasK p, w, captureAll, captureAll, call, call', rfl, hcall⟩)
      (ren' := Aliases.removeMany (Aliases.remove ren d.f) d.args)
      (live' := (· ∈ free d.body)) (alias_sim p rfl rfl rfl d.body _ hs.body) ?_ ?_ ?_ ?_ hk' log hr hvs
    · simp only [aliasDef]
      refine (List.map_congr_left (g := id) fun x hx => ?_).trans (List.map_id _) |>.symm
      rw [hm, if_pos hx]; rfl
    · intro y hy hyf hya
      refine ⟨hl y hy hyf hya, (hs.fresh y hy hyf hya).2.1, ?_⟩
      rw [hm, if_neg hya]
      simp [Aliases.remove, hyf]
    · intro y hy x hx hne
      rw [hm x, if_pos hx, hm y]
      split
      · exact hne
      · rename_i hya
        simp only [Aliases.remove]
        split
        · rename_i hyf; exact fun h => hya (hyf ▸ h ▸ hx)
        · rename_i hyf
          exact fun h => (hs.fresh y hy hyf hya).2.2 (h ▸ hx)
    · intro _ hfa
      rw [hm, if_neg hfa]
      simp [Aliases.remove, aliasDef]
  · intro d ρ g h; exact h.elim
  · intro g d hd
    have hm : d ∈ p.globals := List.mem_of_find?_eq_some hd
    refine ⟨{ d with body := removeAliases id d.body }, ?_, ?_⟩
    · simp only [aliasK, removeAliasesProgram] at hd ⊢
      rw [find_map p (fun d => { d with body := removeAliases id d.body }) (fun _ => rfl), hd]
      rfl
    · intro call call' hcall vs vs' log hvs
      refine SimE.enterGlobal (S := ⟨aliasK p, w, captureAll, captureAll, call, call', rfl, hcall⟩) (ren' := id)
        (live' := (· ∈ free d.body)) (alias_sim p rfl rfl rfl d.body id (hp d hm)) (by simp)
        (fun _ _ _ => rfl) (fun y _ x _ h => h) (fun x h => ?_) log hvs
      simp only [aliasK, removeAliasesProgram] at h ⊢
      rw [isGlobal_map p (fun d => { d with body := removeAliases id d.body }) (fun _ => rfl)]
      exact h
  · intro g h1 h2
    refine ⟨?_, h2⟩
    simp only [aliasK, removeAliasesProgram] at h1 ⊢
    rw [find_map p (fun d => { d with body := removeAliases id d.body }) (fun _ => rfl), h1]
    rfl

end Verif.Mir
