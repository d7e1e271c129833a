import Verif.Mir.Composite

namespace Verif.Mir

/-! ### Parts of hygienic expressions are hygienic -/

theorem HygienicE.letBound {x : Name} {e b : Expr} (hy : HygienicE (.let_ x e b)) : HygienicE e :=
  hy.sub (by simp [binders]) (fun x hx => Or.inl (by simp [free, hx]))

theorem HygienicE.letBody {x : Name} {e b : Expr} (hy : HygienicE (.let_ x e b)) : HygienicE b := by
  have hn := hy.nodup
  simp only [binders, List.nodup_cons, List.nodup_append, List.mem_append, not_or] at hn
  exact hy.sub (by simp [binders]) (fun y hy' => by
      by_cases hyx : y = x
      · exact Or.inr ⟨by simp [binders, hyx], hyx ▸ hn.1.2⟩
      · exact Or.inl (by simp only [free, List.mem_append]; exact Or.inr (mem_filter_ne hy' hyx)))

theorem HygienicE.letRecFunction {f : Name} {env args : List Name} {th : Bool} {body b : Expr}
    (hy : HygienicE (.letRec f env args th body b)) : HygienicE body := by
  have hn := hy.nodup
  simp only [binders, List.nodup_cons, List.nodup_append, List.mem_append, not_or] at hn
  exact hy.sub (by
        simp only [binders]
        exact ((List.sublist_append_left _ _).trans (List.sublist_append_right _ _)).cons _) (fun y hy' => by
      by_cases hyf : y = f
      · exact Or.inr ⟨by simp [binders, hyf], hyf ▸ hn.1.2.1⟩
      by_cases hya : y ∈ args
      · exact Or.inr ⟨by simp [binders, hya], fun hb => hn.2.2.2 y hya y (Or.inl hb) rfl⟩
      · refine Or.inl ?_
        simp only [free, List.mem_filter, List.mem_append, bne_iff_ne, ne_eq, Bool.and_eq_true, List.all_eq_true]
        exact ⟨Or.inl ⟨hy', hyf, fun z hz h => hya (h ▸ hz)⟩, hyf⟩)

theorem HygienicE.letRecBody {f : Name} {env args : List Name} {th : Bool} {body b : Expr}
    (hy : HygienicE (.letRec f env args th body b)) : HygienicE b := by
  have hn := hy.nodup
  simp only [binders, List.nodup_cons, List.nodup_append, List.mem_append, not_or] at hn
  exact hy.sub (by
        simp only [binders]
        exact ((List.sublist_append_right _ _).trans (List.sublist_append_right _ _)).cons _) (fun y hy' => by
      by_cases hyf : y = f
      · exact Or.inr ⟨by simp [binders, hyf], hyf ▸ hn.1.2.2⟩
      · refine Or.inl ?_
        simp only [free, List.mem_filter, List.mem_append, bne_iff_ne, ne_eq]
        exact ⟨Or.inr hy', hyf⟩)

theorem HygienicE.tryBody {x : Name} {e b : Expr} {t : TypeId} (hy : HygienicE (.try_ e x t b)) : HygienicE b := by
  have hn := hy.nodup
  simp only [binders, List.nodup_cons, List.nodup_append, List.mem_append, not_or] at hn
  exact hy.sub (by simp [binders]) (fun y hy' => by
      by_cases hyx : y = x
      · exact Or.inr ⟨by simp [binders, hyx], hyx ▸ hn.1.2⟩
      · exact Or.inl (by simp only [free, List.mem_append]; exact Or.inr (mem_filter_ne hy' hyx)))

theorem Hygienic.alternative {x : Name} {e : Expr} {ts : Option (List TypeId)} {as : Alts}
    (hy : Hygienic (bindersAlts (.cons ts x e as)) (freeAlts (.cons ts x e as))) : HygienicE e := by
  have hn := hy.nodup
  simp only [bindersAlts, List.nodup_cons, List.nodup_append, List.mem_append, not_or] at hn
  exact hy.sub (by simp [bindersAlts]) (fun y hy' => by
      by_cases hyx : y = x
      · exact Or.inr ⟨by simp [bindersAlts, hyx], hyx ▸ hn.1.1⟩
      · exact Or.inl (by simp only [freeAlts, List.mem_append]; exact Or.inl (mem_filter_ne hy' hyx)))

/-! ### Normalization of hygienic expressions gives hygienic ones, and no environments -/

theorem nodup_anfNames (n m : Nat) : (anfNames n m).Nodup := by
  unfold anfNames
  rw [List.nodup_iff_pairwise_ne, List.pairwise_map]
  exact (List.nodup_range' (s := n) (n := m - n)).imp fun h h' => h (anfName_inj h')

/-- Bound names of the result are different from each other and from its free names. -/
theorem split_safe {e : Expr} (hy : HygienicE e) (n : Nat) : SafeE id (split id e n).plug := by
  have hb := split_binders id (fun e x => Nat.le_refl _) e n
  have hbp : binders (split id e n).plug = bindersFrames (split id e n).frames ++ binders (split id e n).tail := by
    rw [Split.plug, binders_plug]
  refine ⟨?_, ?_⟩
  · rw [List.nodup_iff_count]
    intro x
    rw [hbp, List.count_append]
    refine Nat.le_trans (hb x) ?_
    have h1 := List.nodup_iff_count.mp hy.nodup x
    have h2 := List.nodup_iff_count.mp (nodup_anfNames n (split id e n).next) x
    by_cases hx : x ∈ binders e
    · have : x ∉ anfNames n (split id e n).next := by
        intro h
        obtain ⟨i, _, _, rfl⟩ := mem_anfNames.mp h
        exact hy.plain _ (Or.inl hx) ⟨i, rfl⟩
      rw [List.count_eq_zero_of_not_mem this]
      exact h1
    · rw [List.count_eq_zero_of_not_mem hx]
      omega
  · intro y hyf hyb
    rw [Split.plug, free_plug] at hyf
    have hf := split_free id (fun e x h => h) e n y hyf
    simp only [id] at hyb
    have hc : 0 < (binders (split id e n).plug).count y := List.count_pos_iff.mpr hyb
    rw [hbp, List.count_append] at hc
    have := hb y
    rcases Nat.lt_or_ge 0 ((binders e).count y) with h | h
    · exact hy.disjoint y (List.count_pos_iff.mp h) hf
    · have h' : 0 < (anfNames n (split id e n).next).count y := by omega
      obtain ⟨i, _, _, rfl⟩ := mem_anfNames.mp (List.count_pos_iff.mp h')
      exact hy.plain _ (Or.inr hf) ⟨i, rfl⟩

def noEnvironmentsFrames : List Frame → Prop
  | [] => True
  | .let_ _ e :: fs => noEnvironments e ∧ noEnvironmentsFrames fs
  | .letRec _ env _ _ body :: fs => env = [] ∧ noEnvironments body ∧ noEnvironmentsFrames fs

theorem noEnvironments_plug (fs : List Frame) (t : Expr) :
    noEnvironments (plug fs t) ↔ noEnvironmentsFrames fs ∧ noEnvironments t := by
  induction fs with
  | nil => simp [plug, noEnvironmentsFrames]
  | cons f fs ih => cases f <;> simp [plug, noEnvironments, noEnvironmentsFrames, ih, and_assoc]

theorem noEnvironmentsFrames_append (fs gs : List Frame) :
    noEnvironmentsFrames (fs ++ gs) ↔ noEnvironmentsFrames fs ∧ noEnvironmentsFrames gs := by
  induction fs with
  | nil => simp [noEnvironmentsFrames]
  | cons f fs ih => cases f <;> simp [noEnvironmentsFrames, ih, and_assoc]

theorem bound_noEnvironments {s : Split Expr} (b : Bool) (h : noEnvironmentsFrames s.frames ∧ noEnvironments s.tail) :
    noEnvironmentsFrames (s.boundIf b).frames ∧ noEnvironments (s.boundIf b).tail := by
  unfold Split.boundIf Split.bound
  split
  · split
    · exact h
    · exact ⟨(noEnvironmentsFrames_append _ _).mpr ⟨h.1, h.2, trivial⟩, trivial⟩
  · exact h

mutual
theorem split_noEnvironments : ∀ (e : Expr) (n : Nat), noEnvironments e →
    noEnvironmentsFrames (split id e n).frames ∧ noEnvironments (split id e n).tail
  | .literal _, n, h => ⟨trivial, trivial⟩
  | .variable _, n, h => ⟨trivial, trivial⟩
  | .op o es, n, h => splitExprs_noEnvironments (bindsLast o) es n h
  | .case e as, n, h =>
    have h1 := split_noEnvironments e n h.1
    ⟨h1.1, h1.2, splitAlts_noEnvironments as _ h.2⟩
  | .if_ c t e, n, h =>
    have h1 := split_noEnvironments c n h.1
    ⟨h1.1, h1.2, (noEnvironments_plug _ _).mpr (split_noEnvironments t _ h.2.1),
      (noEnvironments_plug _ _).mpr (split_noEnvironments e _ h.2.2)⟩
  | .let_ x e b, n, h =>
    have h1 := split_noEnvironments e n h.1
    have h2 := split_noEnvironments b (split id e n).next h.2
    ⟨(noEnvironmentsFrames_append _ _).mpr ⟨h1.1, h1.2, h2.1⟩, h2.2⟩
  | .letRec f env args th body b, n, h =>
    have h1 := split_noEnvironments body n h.2.1
    have h2 := split_noEnvironments b (split id body n).next h.2.2
    ⟨⟨h.1, (noEnvironments_plug _ _).mpr h1, h2.1⟩, h2.2⟩
  | .try_ e x t b, n, h =>
    have h1 := split_noEnvironments e n h.1
    ⟨h1.1, h1.2, (noEnvironments_plug _ _).mpr (split_noEnvironments b _ h.2)⟩
  | .clone _ e, n, h => split_noEnvironments e n h
  | .drop _ e, n, h => split_noEnvironments e n h
theorem splitExprs_noEnvironments (last : Bool) : ∀ (es : Exprs) (n : Nat), noEnvironmentsExprs es →
    noEnvironmentsFrames (splitExprs id last es n).frames ∧
      noEnvironmentsExprs (Exprs.ofList (splitExprs id last es n).tail)
  | .nil, n, h => ⟨trivial, trivial⟩
  | .cons e es, n, h => by
    have h1 := bound_noEnvironments (last || !es.isNil) (split_noEnvironments e n h.1)
    have h2 := splitExprs_noEnvironments last es ((split id e n).boundIf (last || !es.isNil)).next h.2
    exact ⟨(noEnvironmentsFrames_append _ _).mpr ⟨h1.1, h2.1⟩, h1.2, h2.2⟩
theorem splitAlts_noEnvironments : ∀ (as : Alts) (n : Nat), noEnvironmentsAlts as → noEnvironmentsAlts (splitAlts id as n).1
  | .nil, n, h => trivial
  | .cons ts x e as, n, h =>
    ⟨(noEnvironments_plug _ _).mpr (split_noEnvironments e n h.1), splitAlts_noEnvironments as _ h.2⟩
end

/-! ### Inner and outer removal -/

/-- Equal once aliases are removed. -/
def AEq (e e' : Expr) : Prop := ∀ v, removeAliases v e = removeAliases v e'

def AEqFrames (fs fs' : List Frame) : Prop := ∀ t t', AEq t t' → AEq (plug fs t) (plug fs' t')

theorem AEqFrames.nil : AEqFrames [] [] := fun _ _ h => h

theorem AEqFrames.append {fs fs' gs gs' : List Frame} (h : AEqFrames fs fs') (h' : AEqFrames gs gs') :
    AEqFrames (fs ++ gs) (fs' ++ gs') := by
  intro t t' ht
  rw [plug_append, plug_append]
  exact h _ _ (h' _ _ ht)

theorem AEq.let_ {x : Name} {e e' b b' : Expr} (he : AEq e e') (hb : AEq b b') : AEq (.let_ x e b) (.let_ x e' b') := by
  intro v
  simp only [removeAliases, he v]
  split
  · exact hb _
  · rw [hb]

theorem AEqFrames.let_ {x : Name} {e e' : Expr} {fs fs' : List Frame} (he : AEq e e') (h : AEqFrames fs fs') :
    AEqFrames (.let_ x e :: fs) (.let_ x e' :: fs') := fun _ _ ht => he.let_ (h _ _ ht)

structure SplitAEq (s s' : Split Expr) : Prop where
  frames : AEqFrames s.frames s'.frames
  tail : AEq s.tail s'.tail
  atom : isAtom s.tail = isAtom s'.tail
  next : s.next = s'.next

theorem SplitAEq.plug {s s' : Split Expr} (h : SplitAEq s s') : AEq s.plug s'.plug := h.frames _ _ h.tail

theorem SplitAEq.boundIf {s s' : Split Expr} (h : SplitAEq s s') (b : Bool) : SplitAEq (s.boundIf b) (s'.boundIf b) := by
  unfold Split.boundIf
  cases b
  · exact h
  · simp only [if_true]
    unfold Split.bound
    rw [h.atom, h.next]
    split
    · exact h
    · exact ⟨h.frames.append (.let_ h.tail .nil), fun _ => rfl, rfl, rfl⟩

abbrev A0 : Expr → Expr := removeAliases id

mutual
theorem split_aeq : ∀ (e : Expr) (n : Nat), HygienicE e → noEnvironments e → SplitAEq (split A0 e n) (split id e n)
  | .literal _, n, _, _ => ⟨.nil, fun _ => rfl, rfl, rfl⟩
  | .variable _, n, _, _ => ⟨.nil, fun _ => rfl, rfl, rfl⟩
  | .op o es, n, hy, hn => by
    obtain ⟨h1, h2, h3⟩ := splitExprs_aeq (bindsLast o) es n hy hn
    exact ⟨h1, fun v => by simp only [split, removeAliases]; rw [h2 v], rfl, h3⟩
  | .case e as, n, hy, hn => by
    have h1 := split_aeq e n (hy.sub (by simp [binders]) (fun x hx => Or.inl (by simp [free, hx]))) hn.1
    have h2 := splitAlts_aeq as (split id e n).next
      (hy.sub (by simp [binders]) (fun x hx => Or.inl (by simp [free, hx]))) hn.2
    refine ⟨h1.frames, fun v => ?_, rfl, ?_⟩
    · simp only [split, removeAliases, h1.next]
      rw [h1.tail v, h2.1 v]
    · simp only [split, h1.next]; exact h2.2
  | .if_ c t e, n, hy, hn => by
    have h1 := split_aeq c n (hy.sub (by simp [binders]) (fun x hx => Or.inl (by simp [free, hx]))) hn.1
    have h2 := split_aeq t (split id c n).next
      (hy.sub (by simp [binders]) (fun x hx => Or.inl (by simp [free, hx]))) hn.2.1
    have h3 := split_aeq e (split id t (split id c n).next).next
      (hy.sub (by simp [binders]) (fun x hx => Or.inl (by simp [free, hx]))) hn.2.2
    refine ⟨h1.frames, fun v => ?_, rfl, ?_⟩
    · simp only [split, removeAliases, h1.next, h2.next]
      rw [h1.tail v, h2.plug v, h3.plug v]
    · simp only [split, h1.next, h2.next]; exact h3.next
  | .let_ x e b, n, hy, hn => by
    have h1 := split_aeq e n hy.letBound hn.1
    have h2 := split_aeq b (split id e n).next hy.letBody hn.2
    simp only [split, h1.next]
    exact ⟨h1.frames.append (.let_ h1.tail h2.frames), h2.tail, h2.atom, h2.next⟩
  | .letRec f env args th body b, n, hy, hn => by
    obtain ⟨rfl, hn1, hn2⟩ := hn
    have h1 := split_aeq body n hy.letRecFunction hn1
    have h2 := split_aeq b (split id body n).next hy.letRecBody hn2
    have h3 : AEq (A0 (split A0 body n).plug) (split id body n).plug := by
      intro v
      show removeAliases v (removeAliases id _) = _
      rw [h1.plug id]
      exact alias_alias _ id v ((noEnvironments_plug _ _).mpr (split_noEnvironments body n hn1))
        (split_safe hy.letRecFunction n)
    simp only [split, h1.next]
    refine ⟨?_, h2.tail, h2.atom, h2.next⟩
    intro t t' ht v
    simp only [plug, removeAliases]
    rw [h2.frames t t' ht, h3]
    rfl
  | .try_ e x t b, n, hy, hn => by
    have h1 := split_aeq e n (hy.sub (by simp [binders]) (fun x hx => Or.inl (by simp [free, hx]))) hn.1
    have h2 := split_aeq b (split id e n).next hy.tryBody hn.2
    refine ⟨h1.frames, fun v => ?_, rfl, ?_⟩
    · simp only [split, removeAliases, h1.next]
      rw [h1.tail v, h2.plug]
    · simp only [split, h1.next]; exact h2.next
  | .clone xs e, n, hy, hn => by
    have h1 := split_aeq e n hy hn
    exact ⟨h1.frames, fun v => by simp only [split, removeAliases]; rw [h1.tail v], rfl, h1.next⟩
  | .drop xs e, n, hy, hn => by
    have h1 := split_aeq e n hy hn
    exact ⟨h1.frames, fun v => by simp only [split, removeAliases]; rw [h1.tail v], rfl, h1.next⟩
theorem splitExprs_aeq (last : Bool) : ∀ (es : Exprs) (n : Nat), Hygienic (bindersExprs es) (freeExprs es) →
    noEnvironmentsExprs es → AEqFrames (splitExprs A0 last es n).frames (splitExprs id last es n).frames ∧
      (∀ v, removeAliasesExprs v (Exprs.ofList (splitExprs A0 last es n).tail) =
        removeAliasesExprs v (Exprs.ofList (splitExprs id last es n).tail)) ∧
      (splitExprs A0 last es n).next = (splitExprs id last es n).next
  | .nil, n, _, _ => ⟨.nil, fun _ => rfl, rfl⟩
  | .cons e es, n, hy, hn => by
    have h1 := (split_aeq e n (hy.sub (by simp [bindersExprs]) (fun x hx => Or.inl (by simp [freeExprs, hx]))) hn.1).boundIf
      (last || !es.isNil)
    have h2 := splitExprs_aeq last es ((split id e n).boundIf (last || !es.isNil)).next
      (hy.sub (by simp [bindersExprs]) (fun x hx => Or.inl (by simp [freeExprs, hx]))) hn.2
    simp only [splitExprs, h1.next]
    refine ⟨h1.frames.append h2.1, fun v => ?_, h2.2.2⟩
    simp only [Exprs.ofList, removeAliasesExprs]
    rw [h1.tail v, h2.2.1 v]
theorem splitAlts_aeq : ∀ (as : Alts) (n : Nat), Hygienic (bindersAlts as) (freeAlts as) → noEnvironmentsAlts as →
    (∀ v, removeAliasesAlts v (splitAlts A0 as n).1 = removeAliasesAlts v (splitAlts id as n).1) ∧
      (splitAlts A0 as n).2 = (splitAlts id as n).2
  | .nil, n, _, _ => ⟨fun _ => rfl, rfl⟩
  | .cons ts x e as, n, hy, hn => by
    have h1 := split_aeq e n (Hygienic.alternative hy) hn.1
    have h2 := splitAlts_aeq as (split id e n).next
      (hy.sub (by simp [bindersAlts]) (fun x hx => Or.inl (by simp [freeAlts, hx]))) hn.2
    simp only [splitAlts, h1.next]
    refine ⟨fun v => ?_, h2.2⟩
    simp only [removeAliasesAlts]
    rw [h1.plug, h2.1 v]
end

theorem anfGlobals_eq : ∀ (ds : List Global) (n : Nat), (∀ d ∈ ds, HygienicE d.body ∧ noEnvironments d.body) →
    anfGlobals A0 ds n = (anfGlobals id ds n).map fun d => { d with body := removeAliases id d.body }
  | [], n, _ => rfl
  | d :: ds, n, h => by
    obtain ⟨hy, hn⟩ := h d (by simp)
    have h1 := split_aeq d.body n hy hn
    have h2 := anfGlobals_eq ds (split id d.body n).next fun d hd => h d (by simp [hd])
    simp only [anfGlobals, anf_body_eq, h1.next, h2, List.map_cons, id]
    congr 2
    exact h1.plug id

/-- Normalization is A-normalization followed by alias removal. -/
theorem normalizeProgram_eq (p : Program) (h : ∀ d ∈ p.globals, HygienicE d.body ∧ noEnvironments d.body) :
    normalizeProgram p = removeAliasesProgram (anfProgram p) := by
  unfold normalizeProgram removeAliasesProgram anfProgram
  congr 1
  exact anfGlobals_eq p.globals 0 h

theorem anfGlobals_mem (post : Expr → Expr) : ∀ (ds : List Global) (n : Nat) (d : Global), d ∈ anfGlobals post ds n →
    ∃ d' ∈ ds, ∃ m, d = { d' with body := post (split post d'.body m).plug }
  | [], n, d, h => by simp [anfGlobals] at h
  | d' :: ds, n, d, h => by
    simp only [anfGlobals, List.mem_cons] at h
    rcases h with rfl | h
    · exact ⟨d', by simp, n, by rw [anf_body_eq]⟩
    · obtain ⟨d'', h1, m, h2⟩ := anfGlobals_mem post ds _ d h
      exact ⟨d'', by simp [h1], m, h2⟩


/-! ### The form of the result -/

/-- Whether operands that must be atoms are. -/
def atomic (last : Bool) : Exprs → Prop
  | .nil => True
  | .cons e es => ((last || !es.isNil) = true → isAtom e = true) ∧ atomic last es

mutual
/-- A-normal form. Bindings are in blocks (`block`) only, not in operands, conditions and bound expressions; operands
are atoms, except for last operands of some operations. -/
def normal : Bool → Expr → Prop
  | _, .literal _ => True
  | _, .variable _ => True
  | _, .op o es => atomic (bindsLast o) es ∧ normalExprs es
  | _, .case e as => normal false e ∧ normalAlts as
  | _, .if_ c t e => normal false c ∧ normal true t ∧ normal true e
  | block, .let_ _ e b => block = true ∧ normal false e ∧ normal true b
  | block, .letRec _ _ _ _ body b => block = true ∧ normal true body ∧ normal true b
  | _, .try_ e _ _ b => normal false e ∧ normal true b
  | _, .clone _ e => normal false e
  | _, .drop _ e => normal false e
def normalExprs : Exprs → Prop
  | .nil => True
  | .cons e es => normal false e ∧ normalExprs es
def normalAlts : Alts → Prop
  | .nil => True
  | .cons _ _ e as => normal true e ∧ normalAlts as
end

theorem normal_block {e : Expr} (h : normal false e) : normal true e := by
  cases e <;> simp_all [normal]

def normalFrames : List Frame → Prop
  | [] => True
  | .let_ _ e :: fs => normal false e ∧ normalFrames fs
  | .letRec _ _ _ _ body :: fs => normal true body ∧ normalFrames fs

theorem normal_plug (fs : List Frame) (t : Expr) : normal true (plug fs t) ↔ normalFrames fs ∧ normal true t := by
  induction fs with
  | nil => simp [plug, normalFrames]
  | cons f fs ih => cases f <;> simp [plug, normal, normalFrames, ih, and_assoc]

theorem normalFrames_append (fs gs : List Frame) : normalFrames (fs ++ gs) ↔ normalFrames fs ∧ normalFrames gs := by
  induction fs with
  | nil => simp [normalFrames]
  | cons f fs ih => cases f <;> simp [normalFrames, ih, and_assoc]

theorem boundIf_normal {s : Split Expr} (b : Bool) (h : normalFrames s.frames ∧ normal false s.tail) :
    normalFrames (s.boundIf b).frames ∧ normal false (s.boundIf b).tail ∧ (b = true → isAtom (s.boundIf b).tail = true) := by
  unfold Split.boundIf Split.bound
  cases b
  · exact ⟨h.1, h.2, by simp⟩
  · simp only [if_true]
    split
    · exact ⟨h.1, h.2, fun _ => by assumption⟩
    · exact ⟨(normalFrames_append _ _).mpr ⟨h.1, h.2, trivial⟩, trivial, fun _ => rfl⟩

theorem Exprs.isNil_ofList (es : List Expr) : (Exprs.ofList es).isNil = es.isEmpty := by cases es <;> rfl

mutual
theorem split_normal : ∀ (e : Expr) (n : Nat), normalFrames (split id e n).frames ∧ normal false (split id e n).tail
  | .literal _, n => ⟨trivial, trivial⟩
  | .variable _, n => ⟨trivial, trivial⟩
  | .op o es, n =>
    have h := splitExprs_normal (bindsLast o) es n
    ⟨h.1, h.2.1, h.2.2.1⟩
  | .case e as, n =>
    have h1 := split_normal e n
    ⟨h1.1, h1.2, splitAlts_normal as _⟩
  | .if_ c t e, n =>
    have h1 := split_normal c n
    ⟨h1.1, h1.2, split_normal_plug t _, split_normal_plug e _⟩
  | .let_ x e b, n =>
    have h1 := split_normal e n
    have h2 := split_normal b (split id e n).next
    ⟨(normalFrames_append _ _).mpr ⟨h1.1, h1.2, h2.1⟩, h2.2⟩
  | .letRec f env args th body b, n =>
    have h2 := split_normal b (split id body n).next
    ⟨⟨split_normal_plug body n, h2.1⟩, h2.2⟩
  | .try_ e x t b, n =>
    have h1 := split_normal e n
    ⟨h1.1, h1.2, split_normal_plug b _⟩
  | .clone _ e, n => split_normal e n
  | .drop _ e, n => split_normal e n
theorem split_normal_plug : ∀ (e : Expr) (n : Nat), normal true (split id e n).plug := fun e n =>
  (normal_plug _ _).mpr ⟨(split_normal e n).1, normal_block (split_normal e n).2⟩
theorem splitExprs_normal (last : Bool) : ∀ (es : Exprs) (n : Nat), normalFrames (splitExprs id last es n).frames ∧
    atomic last (Exprs.ofList (splitExprs id last es n).tail) ∧
    normalExprs (Exprs.ofList (splitExprs id last es n).tail) ∧
    (Exprs.ofList (splitExprs id last es n).tail).isNil = es.isNil
  | .nil, n => ⟨trivial, trivial, trivial, rfl⟩
  | .cons e es, n => by
    have h1 := boundIf_normal (last || !es.isNil) (split_normal e n)
    have h2 := splitExprs_normal last es ((split id e n).boundIf (last || !es.isNil)).next
    refine ⟨(normalFrames_append _ _).mpr ⟨h1.1, h2.1⟩, ⟨?_, h2.2.1⟩, ⟨h1.2.1, h2.2.2.1⟩, rfl⟩
    rw [h2.2.2.2]
    exact h1.2.2
theorem splitAlts_normal : ∀ (as : Alts) (n : Nat), normalAlts (splitAlts id as n).1
  | .nil, n => trivial
  | .cons ts x e as, n => ⟨split_normal_plug e n, splitAlts_normal as _⟩
end

theorem removeAliases_isAtom {e : Expr} (v : Aliases) (h : isAtom e = true) : isAtom (removeAliases v e) = true := by
  cases e <;> simp_all [isAtom, removeAliases]

theorem removeAliasesExprs_isNil (v : Aliases) (es : Exprs) : (removeAliasesExprs v es).isNil = es.isNil := by
  cases es <;> rfl

theorem removeAliases_atomic (v : Aliases) (last : Bool) : ∀ (es : Exprs), atomic last es →
    atomic last (removeAliasesExprs v es)
  | .nil, _ => trivial
  | .cons e es, h => by
    refine ⟨?_, removeAliases_atomic v last es h.2⟩
    rw [removeAliasesExprs_isNil]
    exact fun hl => removeAliases_isAtom v (h.1 hl)

mutual
theorem removeAliases_normal : ∀ (e : Expr) (v : Aliases) (b : Bool), normal b e → normal b (removeAliases v e)
  | .literal _, v, _, _ => trivial
  | .variable _, v, _, _ => trivial
  | .op o es, v, _, h => ⟨removeAliases_atomic v _ es h.1, removeAliasesExprs_normal es v h.2⟩
  | .case e as, v, _, h => ⟨removeAliases_normal e v _ h.1, removeAliasesAlts_normal as v h.2⟩
  | .if_ c t e, v, _, h =>
    ⟨removeAliases_normal c v _ h.1, removeAliases_normal t v _ h.2.1, removeAliases_normal e v _ h.2.2⟩
  | .let_ x e b, v, bl, h => by
    obtain ⟨rfl, h1, h2⟩ := h
    simp only [removeAliases]
    split
    · exact removeAliases_normal b _ _ h2
    · exact ⟨rfl, removeAliases_normal e v _ h1, removeAliases_normal b _ _ h2⟩
  | .letRec f env args th body b, v, bl, h =>
    ⟨h.1, removeAliases_normal body _ _ h.2.1, removeAliases_normal b _ _ h.2.2⟩
  | .try_ e x t b, v, _, h => ⟨removeAliases_normal e v _ h.1, removeAliases_normal b _ _ h.2⟩
  | .clone _ e, v, _, h => removeAliases_normal e v false h
  | .drop _ e, v, _, h => removeAliases_normal e v false h
theorem removeAliasesExprs_normal : ∀ (es : Exprs) (v : Aliases), normalExprs es → normalExprs (removeAliasesExprs v es)
  | .nil, v, _ => trivial
  | .cons e es, v, h => ⟨removeAliases_normal e v _ h.1, removeAliasesExprs_normal es v h.2⟩
theorem removeAliasesAlts_normal : ∀ (as : Alts) (v : Aliases), normalAlts as → normalAlts (removeAliasesAlts v as)
  | .nil, v, _ => trivial
  | .cons ts x e as, v, h => ⟨removeAliases_normal e _ _ h.1, removeAliasesAlts_normal as v h.2⟩
end

mutual
/-- No variable is bound to another one. -/
def noAliases : Expr → Prop
  | .literal _ => True
  | .variable _ => True
  | .op _ es => noAliasesExprs es
  | .case e as => noAliases e ∧ noAliasesAlts as
  | .if_ c t e => noAliases c ∧ noAliases t ∧ noAliases e
  | .let_ _ e b => variableName e = none ∧ noAliases e ∧ noAliases b
  | .letRec _ _ _ _ body b => noAliases body ∧ noAliases b
  | .try_ e _ _ b => noAliases e ∧ noAliases b
  | .clone _ e => noAliases e
  | .drop _ e => noAliases e
def noAliasesExprs : Exprs → Prop
  | .nil => True
  | .cons e es => noAliases e ∧ noAliasesExprs es
def noAliasesAlts : Alts → Prop
  | .nil => True
  | .cons _ _ e as => noAliases e ∧ noAliasesAlts as
end

mutual
theorem removeAliases_noAliases : ∀ (e : Expr) (v : Aliases), noAliases (removeAliases v e)
  | .literal _, v => trivial
  | .variable _, v => trivial
  | .op o es, v => removeAliasesExprs_noAliases es v
  | .case e as, v => ⟨removeAliases_noAliases e v, removeAliasesAlts_noAliases as v⟩
  | .if_ c t e, v => ⟨removeAliases_noAliases c v, removeAliases_noAliases t v, removeAliases_noAliases e v⟩
  | .let_ x e b, v => by
    simp only [removeAliases]
    split
    · exact removeAliases_noAliases b _
    · rename_i h
      exact ⟨h, removeAliases_noAliases e v, removeAliases_noAliases b _⟩
  | .letRec f env args th body b, v => ⟨removeAliases_noAliases body _, removeAliases_noAliases b _⟩
  | .try_ e x t b, v => ⟨removeAliases_noAliases e v, removeAliases_noAliases b _⟩
  | .clone _ e, v => removeAliases_noAliases e v
  | .drop _ e, v => removeAliases_noAliases e v
theorem removeAliasesExprs_noAliases : ∀ (es : Exprs) (v : Aliases), noAliasesExprs (removeAliasesExprs v es)
  | .nil, v => trivial
  | .cons e es, v => ⟨removeAliases_noAliases e v, removeAliasesExprs_noAliases es v⟩
theorem removeAliasesAlts_noAliases : ∀ (as : Alts) (v : Aliases), noAliasesAlts (removeAliasesAlts v as)
  | .nil, v => trivial
  | .cons ts x e as, v => ⟨removeAliases_noAliases e _, removeAliasesAlts_noAliases as v⟩
end

end Verif.Mir
