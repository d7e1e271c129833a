import Verif.Mir.LiftingLemmas

/- The pass relates every expression that can be lifted to its result. -/
namespace Verif.Mir

/-- A later state of the pass. -/
def LiftState.Le (s t : LiftState) : Prop := (∃ ds, t.added = s.added ++ ds) ∧ s.index ≤ t.index

theorem LiftState.Le.refl (s : LiftState) : s.Le s := ⟨⟨[], by simp⟩, Nat.le_refl _⟩

theorem LiftState.Le.trans {s t u : LiftState} (h : s.Le t) (h' : t.Le u) : s.Le u := by
  obtain ⟨⟨a, ha⟩, h1⟩ := h
  obtain ⟨⟨b, hb⟩, h2⟩ := h'
  exact ⟨⟨a ++ b, by rw [hb, ha, List.append_assoc]⟩, Nat.le_trans h1 h2⟩

theorem LiftState.le_add (s : LiftState) (f : Name) (args : List Name) (th : Bool) (body : Expr) : s.Le (s.add f args th body).2 :=
  ⟨⟨_, rfl⟩, Nat.le_refl _⟩

theorem liftFunction_le (s : LiftState) (f : Name) (env args : List Name) (th : Bool) (body b : Expr) :
    s.Le (liftFunction s f env args th body b).2 := by
  unfold liftFunction
  split
  · exact s.le_add ..
  · split
    · exact .trans (t := { s with index := s.index + env.length }) ⟨⟨[], by simp⟩, Nat.le_add_right _ _⟩ (LiftState.le_add ..)
    · exact .refl s

mutual
theorem lift_le : ∀ (e : Expr) (s : LiftState), s.Le (lift e s).2
  | .literal _, s => .refl s
  | .variable _, s => .refl s
  | .op _ es, s => liftExprs_le es s
  | .case e as, s => (lift_le e s).trans (liftAlts_le as _)
  | .if_ c t e, s => ((lift_le c s).trans (lift_le t _)).trans (lift_le e _)
  | .let_ _ e b, s => (lift_le e s).trans (lift_le b _)
  | .letRec f env args th body b, s => ((lift_le body s).trans (lift_le b _)).trans (liftFunction_le ..)
  | .try_ e _ _ b, s => (lift_le e s).trans (lift_le b _)
  | .clone _ e, s => lift_le e s
  | .drop _ e, s => lift_le e s
theorem liftExprs_le : ∀ (es : Exprs) (s : LiftState), s.Le (liftExprs es s).2
  | .nil, s => .refl s
  | .cons e es, s => (lift_le e s).trans (liftExprs_le es _)
theorem liftAlts_le : ∀ (as : Alts) (s : LiftState), s.Le (liftAlts as s).2
  | .nil, s => .refl s
  | .cons _ _ e as, s => (lift_le e s).trans (liftAlts_le as _)
end

/-- All functions that were added are in a program. -/
def LiftState.In (s : LiftState) (T : Program) : Prop := ∀ d ∈ s.added, T.find d.name = some d

theorem LiftState.In.le {s t : LiftState} {T : Program} (h : t.In T) (hl : s.Le t) : s.In T := by
  obtain ⟨⟨ds, hd⟩, _⟩ := hl
  intro d hm
  exact h d (by rw [hd]; simp [hm])

theorem Saved.mono {n k : Nat} (h : n ≤ k) (x : Name) : Saved n x → Saved k x := by
  rintro ⟨y, i, h1, h2⟩
  exact ⟨y, i, by omega, h2⟩

theorem Lam.empty_erase (x : Name) : Lam.empty.erase x = Lam.empty := by
  funext y; simp [Lam.erase, Lam.empty]

theorem liftFunction_L {T : Program} {s : LiftState} {sc : List Name} {f : Name} {env args : List Name} {th : Bool}
    {body body' b b' : Expr} (h : liftable sc (.letRec f env args th body b))
    (hT : (liftFunction s f env args th body' b').2.In T)
    (hbody : L T (Saved s.index) (f :: args ++ env) .empty body body') (hb : L T (Saved s.index) (f :: sc) .empty b b') :
    L T (Saved (liftFunction s f env args th body' b').2.index) sc .empty (.letRec f env args th body b)
      (liftFunction s f env args th body' b').1 := by
  obtain ⟨h1, h2, h3, h4, -, -⟩ := h
  by_cases he : env = []
  · subst he
    simp only [liftFunction, if_true] at hT ⊢
    simp only [List.append_nil] at h1 hbody
    refine .liftEmpty h1 h2 ?_ hbody (by rw [Lam.empty_erase]; exact hb)
    exact hT ⟨liftName s.added.length f, _, _, _⟩ (by simp [LiftState.add])
  · by_cases hc : (!th && !isBoxed f body' && !isBoxed f b') = true
    · simp only [liftFunction, if_neg he, hc, if_true] at hT ⊢
      simp only [Bool.and_eq_true, Bool.not_eq_true'] at hc
      obtain ⟨⟨rfl, hc1⟩, hc2⟩ := hc
      have hf : Plain f := h1 f (by simp)
      have hy : ∀ y ∈ renameFree env s.index, ¬Saved s.index y := by
        rintro y hy ⟨z, i, h5, h6⟩
        obtain ⟨z', j, h7, h8, h9⟩ := mem_renameFree hy
        have := (fvName_inj (h9.symm.trans h6)).2
        omega
      have hmono := Saved.mono (n := s.index) (k := s.index + env.length) (Nat.le_add_right _ _)
      have hx : (LiftState.add { s with index := s.index + env.length } f (args ++ env) false
        (save env (renameFree env s.index) (callTransform f (renameFree env s.index) body'))).2.index = s.index + env.length := rfl
      rw [hx]
      refine .lift h1 h2 (fun x hx => (h4 x hx).2) h3 (fun x hx => ⟨(h4 x hx).1, rfl⟩) (renameFree_length _ _)
        (renameFree_nodup _ _) ?_ ?_ ?_ ((callTransform_L hf hy rfl hbody hc1).mono hmono)
        ((callTransform_L hf hy rfl hb hc2).mono hmono)
      · intro x hx
        obtain ⟨z, i, h5, h6, h7⟩ := mem_renameFree hx
        exact ⟨⟨z, i, h7⟩, z, i, h6, h7⟩
      · intro h ys hh
        simp [Lam.empty] at hh
      · exact hT ⟨liftName s.added.length f, _, _, _⟩ (by simp [LiftState.add])
    · simp only [liftFunction, if_neg he, if_neg hc] at hT ⊢
      exact .keep h1 (fun x hx => ⟨(h4 x hx).1, rfl⟩) hbody (by rw [Lam.empty_erase]; exact hb)

mutual
theorem lift_L {T : Program} : ∀ (e : Expr) (s : LiftState) (sc : List Name), liftable sc e → (lift e s).2.In T →
    L T (Saved (lift e s).2.index) sc .empty e (lift e s).1
  | .literal l, s, sc, _, _ => .literal l
  | .variable x, s, sc, h, _ => .variable h rfl
  | .op o es, s, sc, h, hT => .op o (liftExprs_L es s sc h hT)
  | .case e as, s, sc, h, hT =>
    .case ((lift_L e s sc h.1 (hT.le (liftAlts_le as _))).mono (Saved.mono (liftAlts_le as _).2))
      (liftAlts_L as _ sc h.2 hT)
  | .if_ c t e, s, sc, h, hT =>
    .if_ ((lift_L c s sc h.1 (hT.le ((lift_le t _).trans (lift_le e _)))).mono
        (Saved.mono ((lift_le t _).trans (lift_le e _)).2))
      ((lift_L t _ sc h.2.1 (hT.le (lift_le e _))).mono (Saved.mono (lift_le e _).2))
      (lift_L e _ sc h.2.2 hT)
  | .let_ x e b, s, sc, h, hT =>
    .let_ h.1 ((lift_L e s sc h.2.1 (hT.le (lift_le b _))).mono (Saved.mono (lift_le b _).2))
      (by rw [Lam.empty_erase]; exact lift_L b _ _ h.2.2 hT)
  | .letRec f env args th body b, s, sc, h, hT => by
    have hle := liftFunction_le (lift b (lift body s).2).2 f env args th (lift body s).1 (lift b (lift body s).2).1
    exact liftFunction_L (s := (lift b (lift body s).2).2) h hT
      ((lift_L body s _ h.2.2.2.2.1 (hT.le ((lift_le b _).trans hle))).mono (Saved.mono (lift_le b _).2))
      (lift_L b _ _ h.2.2.2.2.2 (hT.le hle))
  | .try_ e x t b, s, sc, h, hT =>
    .try_ t h.1 ((lift_L e s sc h.2.1 (hT.le (lift_le b _))).mono (Saved.mono (lift_le b _).2))
      (by rw [Lam.empty_erase]; exact lift_L b _ _ h.2.2 hT)
  | .clone xs e, s, sc, h, hT => .clone xs (lift_L e s sc h hT)
  | .drop xs e, s, sc, h, hT => .drop xs (lift_L e s sc h hT)
theorem liftExprs_L {T : Program} : ∀ (es : Exprs) (s : LiftState) (sc : List Name), liftableExprs sc es →
    (liftExprs es s).2.In T → Ls T (Saved (liftExprs es s).2.index) sc .empty es (liftExprs es s).1
  | .nil, s, sc, _, _ => .nil
  | .cons e es, s, sc, h, hT =>
    .cons ((lift_L e s sc h.1 (hT.le (liftExprs_le es _))).mono (Saved.mono (liftExprs_le es _).2))
      (liftExprs_L es _ sc h.2 hT)
theorem liftAlts_L {T : Program} : ∀ (as : Alts) (s : LiftState) (sc : List Name), liftableAlts sc as →
    (liftAlts as s).2.In T → LAlts T (Saved (liftAlts as s).2.index) sc .empty as (liftAlts as s).1
  | .nil, s, sc, _, _ => .nil
  | .cons ts x e as, s, sc, h, hT =>
    .cons ts h.1 (by
        rw [Lam.empty_erase]
        exact (lift_L e s _ h.2.1 (hT.le (liftAlts_le as _))).mono (Saved.mono (liftAlts_le as _).2))
      (liftAlts_L as _ sc h.2.2 hT)
end

/-! ### Programs -/

theorem liftGlobals_le : ∀ (ds : List Global) (s : LiftState), s.Le (liftGlobals ds s).2
  | [], s => .refl s
  | d :: ds, s => (lift_le d.body s).trans (liftGlobals_le ds _)

/-- Names of added functions are those that the pass generates, in order. -/
def LiftState.Numbered (s : LiftState) : Prop := ∀ i (h : i < s.added.length), ∃ f, s.added[i].name = liftName i f

theorem LiftState.Numbered.add {s : LiftState} (h : s.Numbered) (f : Name) (args : List Name) (th : Bool) (body : Expr) :
    (s.add f args th body).2.Numbered := by
  intro i hi
  simp only [LiftState.add, List.length_append, List.length_singleton] at hi ⊢
  by_cases hl : i < s.added.length
  · rw [List.getElem_append_left hl]; exact h i hl
  · have : i = s.added.length := by omega
    subst this
    exact ⟨f, by simp⟩

theorem liftFunction_numbered {s : LiftState} (h : s.Numbered) (f : Name) (env args : List Name) (th : Bool) (body b : Expr) :
    (liftFunction s f env args th body b).2.Numbered := by
  unfold liftFunction
  split
  · exact h.add _ _ _ _
  · split
    · exact LiftState.Numbered.add (s := { s with index := s.index + env.length }) h _ _ _ _
    · exact h

mutual
theorem lift_numbered : ∀ (e : Expr) (s : LiftState), s.Numbered → (lift e s).2.Numbered
  | .literal _, s, h => h
  | .variable _, s, h => h
  | .op _ es, s, h => liftExprs_numbered es s h
  | .case e as, s, h => liftAlts_numbered as _ (lift_numbered e s h)
  | .if_ c t e, s, h => lift_numbered e _ (lift_numbered t _ (lift_numbered c s h))
  | .let_ _ e b, s, h => lift_numbered b _ (lift_numbered e s h)
  | .letRec f env args th body b, s, h =>
    liftFunction_numbered (lift_numbered b _ (lift_numbered body s h)) _ _ _ _ _ _
  | .try_ e _ _ b, s, h => lift_numbered b _ (lift_numbered e s h)
  | .clone _ e, s, h => lift_numbered e s h
  | .drop _ e, s, h => lift_numbered e s h
theorem liftExprs_numbered : ∀ (es : Exprs) (s : LiftState), s.Numbered → (liftExprs es s).2.Numbered
  | .nil, s, h => h
  | .cons e es, s, h => liftExprs_numbered es _ (lift_numbered e s h)
theorem liftAlts_numbered : ∀ (as : Alts) (s : LiftState), s.Numbered → (liftAlts as s).2.Numbered
  | .nil, s, h => h
  | .cons _ _ e as, s, h => liftAlts_numbered as _ (lift_numbered e s h)
end

theorem liftGlobals_numbered : ∀ (ds : List Global) (s : LiftState), s.Numbered → (liftGlobals ds s).2.Numbered
  | [], s, h => h
  | d :: ds, s, h => liftGlobals_numbered ds _ (lift_numbered d.body s h)

theorem find_numbered : ∀ (ds : List Global) (n : Nat),
    (∀ i (h : i < ds.length), ∃ f, ds[i].name = liftName (n + i) f) → ∀ d ∈ ds, ds.find? (·.name == d.name) = some d
  | [], n, _, d, hd => by simp at hd
  | c :: ds, n, h, d, hd => by
    rw [List.find?_cons]
    by_cases hc : c.name = d.name
    · rw [hc, beq_self_eq_true]
      simp only [List.mem_cons] at hd
      rcases hd with rfl | hd
      · rfl
      · obtain ⟨i, hi, rfl⟩ := List.getElem_of_mem hd
        obtain ⟨f, hf⟩ := h 0 (by simp)
        obtain ⟨f', hf'⟩ := h (i + 1) (by simpa using hi)
        simp only [List.getElem_cons_zero, List.getElem_cons_succ] at hf hf'
        rw [hf, hf'] at hc
        have := (liftName_inj hc).1
        omega
    · rw [show (c.name == d.name) = false by simpa using hc]
      refine find_numbered ds (n + 1) (fun i hi => ?_) d ?_
      · obtain ⟨f, hf⟩ := h (i + 1) (by simpa using hi)
        exact ⟨f, by rw [List.getElem_cons_succ] at hf; rw [hf]; congr 1; omega⟩
      · simp only [List.mem_cons] at hd
        rcases hd with rfl | hd
        · exact absurd rfl hc
        · exact hd

/-- What a program needs for its functions to be lifted. -/
structure LiftableProgram (p : Program) : Prop where
  names : ∀ x, p.isGlobal x = true → Plain x
  args : ∀ d ∈ p.globals, ∀ x ∈ d.args, Plain x
  bodies : ∀ d ∈ p.globals, liftable d.args d.body

theorem liftGlobals_find : ∀ (ds : List Global) (s : LiftState) (g : Name),
    ((liftGlobals ds s).1.find? (·.name == g)).isSome = (ds.find? (·.name == g)).isSome
  | [], s, g => rfl
  | d :: ds, s, g => by
    simp only [liftGlobals, List.find?_cons]
    cases d.name == g
    · exact liftGlobals_find ds _ g
    · rfl

/-- A function and its lifted version. -/
def LGlobal (T : Program) (d d' : Global) : Prop :=
  d'.name = d.name ∧ d'.args = d.args ∧ d'.thunk = d.thunk ∧ ∃ N, L T N d.args .empty d.body d'.body

theorem liftGlobals_L {T : Program} : ∀ (ds : List Global) (s : LiftState), (∀ d ∈ ds, liftable d.args d.body) →
    (liftGlobals ds s).2.In T → ∀ g d, ds.find? (·.name == g) = some d →
      ∃ d', (liftGlobals ds s).1.find? (·.name == g) = some d' ∧ LGlobal T d d'
  | [], s, _, _, g, d, hd => by simp at hd
  | c :: ds, s, h, hT, g, d, hd => by
    simp only [liftGlobals, List.find?_cons] at hd hT ⊢
    cases hc : c.name == g with
    | true =>
      simp only [hc, Option.some.injEq] at hd ⊢
      subst hd
      exact ⟨_, rfl, rfl, rfl, rfl, _, lift_L c.body s _ (h c (by simp)) (hT.le (liftGlobals_le ds _))⟩
    | false =>
      simp only [hc] at hd ⊢
      exact liftGlobals_L ds _ (fun d hd => h d (by simp [hd])) hT g d hd

theorem liftProgram_in (p : Program) (h : LiftableProgram p) : (liftGlobals p.globals ⟨[], 0⟩).2.In (liftProgram p) := by
  intro d hd
  have hn := liftGlobals_numbered p.globals ⟨[], 0⟩ (by intro i hi; simp at hi)
  have hnone : (liftGlobals p.globals ⟨[], 0⟩).1.find? (·.name == d.name) = none := by
    cases hf : (liftGlobals p.globals ⟨[], 0⟩).1.find? (·.name == d.name) with
    | none => rfl
    | some c =>
      have h1 := liftGlobals_find p.globals ⟨[], 0⟩ d.name
      rw [hf] at h1
      have hg : p.isGlobal d.name = true := by
        simp only [Program.isGlobal, Program.find, ← h1]; simp
      obtain ⟨i, hi, rfl⟩ := List.getElem_of_mem hd
      obtain ⟨f, hf⟩ := hn i hi
      exact absurd hf ((h.names _ hg).2 i f)
  unfold Program.find
  simp only [liftProgram, List.find?_append, hnone, Option.none_or]
  exact find_numbered _ 0 (by simpa [LiftState.Numbered] using hn) d hd

theorem liftProgram_find (p : Program) (h : LiftableProgram p) {g : Name} {d : Global} (hd : p.find g = some d) :
    ∃ d', (liftProgram p).find g = some d' ∧ LGlobal (liftProgram p) d d' := by
  obtain ⟨d', h1, h2⟩ := liftGlobals_L p.globals ⟨[], 0⟩ h.bodies (liftProgram_in p h) g d hd
  refine ⟨d', ?_, h2⟩
  simp only [Program.find, liftProgram, List.find?_append, h1, Option.some_or]

theorem liftProgram_find_none (p : Program) {g : Name} (hg : Plain g) (hd : p.find g = none) :
    (liftProgram p).find g = none := by
  have h1 := liftGlobals_find p.globals ⟨[], 0⟩ g
  simp only [Program.find] at hd
  rw [hd] at h1
  simp only [Program.find, liftProgram, List.find?_append]
  cases hf : (liftGlobals p.globals ⟨[], 0⟩).1.find? (·.name == g) with
  | some c => rw [hf] at h1; cases h1
  | none =>
    rw [Option.none_or, List.find?_eq_none]
    intro d hd'
    have hn := liftGlobals_numbered p.globals ⟨[], 0⟩ (by intro i hi; simp at hi)
    obtain ⟨i, hi, rfl⟩ := List.getElem_of_mem hd'
    obtain ⟨f, hf⟩ := hn i hi
    rw [hf]
    simp only [beq_iff_eq]
    exact fun h => hg.2 i f h.symm

theorem liftProgram_isGlobal (p : Program) (h : LiftableProgram p) {x : Name} (hx : p.isGlobal x = true) :
    (liftProgram p).isGlobal x = true := by
  simp only [Program.isGlobal, Bool.or_eq_true] at hx ⊢
  rcases hx with hx | hx
  · exact Or.inl hx
  · obtain ⟨d, hd⟩ := Option.isSome_iff_exists.mp hx
    obtain ⟨d', h1, _⟩ := liftProgram_find p h hd
    exact Or.inr (by rw [h1]; rfl)

end Verif.Mir
