import Verif.Mir.Names
import Verif.Mir.ConversionLemmas

namespace Verif.Mir

mutual
/-- All names of variables and binders. -/
def names : Expr → List Name
  | .literal _ => []
  | .variable x => [x]
  | .op _ es => namesExprs es
  | .case e as => names e ++ namesAlts as
  | .if_ c t e => names c ++ names t ++ names e
  | .let_ x e b => x :: names e ++ names b
  | .letRec f _ args _ body b => f :: args ++ names body ++ names b
  | .try_ e x _ b => x :: names e ++ names b
  | .clone _ e => names e
  | .drop _ e => names e
def namesExprs : Exprs → List Name
  | .nil => []
  | .cons e es => names e ++ namesExprs es
def namesAlts : Alts → List Name
  | .nil => []
  | .cons _ x e as => x :: names e ++ namesAlts as
end

/-! Counts never decrease. -/

structure CountsLe (c d : Counts) : Prop where
  le : ∀ x, c x ≤ d x

theorem CountsLe.refl (c : Counts) : CountsLe c c := ⟨fun _ => Nat.le_refl _⟩
theorem CountsLe.le_trans {a b c : Counts} (h : CountsLe a b) (h' : CountsLe b c) : CountsLe a c :=
  ⟨fun x => Nat.le_trans (h.le x) (h'.le x)⟩

theorem rename_le (c : Counts) (x : Name) : CountsLe c (c.rename x).2 := by
  refine ⟨fun y => ?_⟩
  simp only [Counts.rename]
  split
  · subst_vars; omega
  · exact Nat.le_refl _

theorem rename_self (c : Counts) (x : Name) : (c.rename x).2 x = c x + 1 := by simp [Counts.rename]

theorem renameMany_le (xs : List Name) : ∀ (ren : Renaming) (c : Counts), CountsLe c (renameMany xs ren c).2 := by
  induction xs with
  | nil => intro ren c; exact .refl c
  | cons x xs ih => intro ren c; exact (rename_le c x).le_trans (ih _ _)

mutual
theorem alpha_le : ∀ (e : Expr) (ren : Renaming) (c : Counts), CountsLe c (alpha e ren c).2
  | .literal _, _, c => .refl c
  | .variable _, _, c => .refl c
  | .op _ es, ren, c => alphaExprs_le es ren c
  | .case e as, ren, c => (alpha_le e ren c).le_trans (alphaAlts_le as ren _)
  | .if_ i t e, ren, c => ((alpha_le i ren c).le_trans (alpha_le t ren _)).le_trans (alpha_le e ren _)
  | .let_ x e b, ren, c => ((rename_le c x).le_trans (alpha_le e ren _)).le_trans (alpha_le b _ _)
  | .letRec f _ args _ body b, ren, c =>
    (((rename_le c f).le_trans (renameMany_le args _ _)).le_trans (alpha_le body _ _)).le_trans (alpha_le b _ _)
  | .try_ e x _ b, ren, c => ((rename_le c x).le_trans (alpha_le e ren _)).le_trans (alpha_le b _ _)
  | .clone _ e, ren, c => alpha_le e ren c
  | .drop _ e, ren, c => alpha_le e ren c
theorem alphaExprs_le : ∀ (es : Exprs) (ren : Renaming) (c : Counts), CountsLe c (alphaExprs es ren c).2
  | .nil, _, c => .refl c
  | .cons e es, ren, c => (alpha_le e ren c).le_trans (alphaExprs_le es ren _)
theorem alphaAlts_le : ∀ (as : Alts) (ren : Renaming) (c : Counts), CountsLe c (alphaAlts as ren c).2
  | .nil, _, c => .refl c
  | .cons _ x e as, ren, c => ((rename_le c x).le_trans (alpha_le e _ _)).le_trans (alphaAlts_le as ren _)
end

/-! Variables in scope are never captured by binders that are named later. -/

def Below (ren : Renaming) (c : Counts) : Prop :=
  ∀ y x k, SourceName y → SourceName x → c x ≤ k → ren y = alphaName x k → y = x

theorem Below.mono {ren : Renaming} {c d : Counts} (h : Below ren c) (hl : CountsLe c d) : Below ren d :=
  fun y x k hy hx hk => h y x k hy hx (Nat.le_trans (hl.le x) hk)

theorem Below.insert {ren : Renaming} {c : Counts} (h : Below ren c) {x : Name} (hx : SourceName x) :
    Below (ren.insert x (c.rename x).1) (c.rename x).2 := by
  intro y z k hy hz hk he
  simp only [Renaming.insert] at he
  split at he
  · subst_vars
    exact (alphaName_inj hx hz he).1
  · exact h y z k hy hz (Nat.le_trans ((rename_le c x).le z) hk) he

theorem below_id (c : Counts) : Below id c := by
  intro y x k hy _ _ he
  exact (alphaName_source hy he).1

theorem renameMany_below (xs : List Name) : ∀ (ren : Renaming) (c : Counts), (∀ x ∈ xs, SourceName x) → Below ren c →
    Below (renameMany xs ren c).1 (renameMany xs ren c).2 := by
  induction xs with
  | nil => intro ren c _ h; exact h
  | cons x xs ih =>
    intro ren c hx h
    exact ih _ _ (fun y hy => hx y (by simp [hy])) (h.insert (hx x (by simp)))

theorem renameMany_not_mem (xs : List Name) : ∀ (ren : Renaming) (c : Counts) (y : Name), y ∉ xs →
    (renameMany xs ren c).1 y = ren y := by
  induction xs with
  | nil => intro ren c y _; rfl
  | cons x xs ih =>
    intro ren c y hy
    simp only [List.mem_cons, not_or] at hy
    simp only [renameMany]
    rw [ih _ _ y hy.2]
    simp [Renaming.insert, hy.1]

/-- Arguments get names that were not given before. -/
theorem renameMany_mem (xs : List Name) : ∀ (ren : Renaming) (c : Counts) (x : Name), x ∈ xs →
    ∃ k, c x ≤ k ∧ k < (renameMany xs ren c).2 x ∧ (renameMany xs ren c).1 x = alphaName x k := by
  induction xs with
  | nil => intro ren c x h; simp at h
  | cons z xs ih =>
    intro ren c x hx
    by_cases hm : x ∈ xs
    · obtain ⟨k, h1, h2, h3⟩ := ih (ren.insert z (c.rename z).1) (c.rename z).2 x hm
      exact ⟨k, Nat.le_trans ((rename_le c z).le x) h1, h2, h3⟩
    · have hxz : x = z := by simpa [hm] using hx
      subst hxz
      refine ⟨c x, Nat.le_refl _, ?_, ?_⟩
      · have := (renameMany_le xs (ren.insert x (c.rename x).1) (c.rename x).2).le x
        rw [rename_self] at this
        simp only [renameMany]
        omega
      · simp only [renameMany]
        rw [renameMany_not_mem xs _ _ x hm]
        simp [Renaming.insert, Counts.rename]

/-- A definition after conversion. -/
def alphaDef (d : Def) (ren : Renaming) (c : Counts) : Def :=
  let f' := c.rename d.f
  let ren2 := renameMany d.args (ren.insert d.f f'.1) f'.2
  ⟨f'.1, d.env.map ren2.1, d.args.map ren2.1, d.thunk, (alpha d.body ren2.1 ren2.2).1⟩

def alphaK (p : Program) : ClosureRel where
  source := p
  target := alphaProgram p
  closure d d' ren live _ _ := live = SourceName ∧ (∀ x ∈ d.f :: d.args ++ names d.body, SourceName x) ∧
    ∃ c, Below ren c ∧ d' = alphaDef d ren c
  lifted _ _ _ := False

variable {S : Sim}

theorem below_bind {ren : Renaming} {c : Counts} (hb : Below ren c) {x : Name} (hx : SourceName x) :
    ∀ y, SourceName y → y ≠ x → SourceName y ∧ ren y ≠ (c.rename x).1 := by
  intro y hy hne
  exact ⟨hy, fun h => hne (hb y x (c x) hy hx (Nat.le_refl _) h)⟩

mutual
theorem alpha_sim (p : Program) (hK : S.K = alphaK p) (hc : S.capture = captureAll) (hc' : S.capture' = captureAll) :
    ∀ (e : Expr) (ren : Renaming) (c : Counts), (∀ x ∈ names e, SourceName x) → Below ren c →
      SimE S ren SourceName e (alpha e ren c).1
  | .literal l, _, _, _, _ => .literal l
  | .variable x, _, _, h, _ => .variable (h x (by simp [names])) rfl
  | .op o es, ren, c, h, hb => .op o (alphaExprs_sim p hK hc hc' es ren c h hb)
  | .case e as, ren, c, h, hb =>
    .case (alpha_sim p hK hc hc' e ren c (fun x hx => h x (by simp [names, hx])) hb)
      (alphaAlts_sim p hK hc hc' as ren _ (fun x hx => h x (by simp [names, hx])) (hb.mono (alpha_le e ren c)))
  | .if_ i t e, ren, c, h, hb =>
    .if_ (alpha_sim p hK hc hc' i ren c (fun x hx => h x (by simp [names, hx])) hb)
      (alpha_sim p hK hc hc' t ren _ (fun x hx => h x (by simp [names, hx])) (hb.mono (alpha_le i ren c)))
      (alpha_sim p hK hc hc' e ren _ (fun x hx => h x (by simp [names, hx]))
        (hb.mono ((alpha_le i ren c).le_trans (alpha_le t ren _))))
  | .let_ x e b, ren, c, h, hb =>
    .let_ (alpha_sim p hK hc hc' e ren _ (fun x hx => h x (by simp [names, hx])) (hb.mono (rename_le c x)))
      (alpha_sim p hK hc hc' b _ _ (fun x hx => h x (by simp [names, hx]))
        ((hb.insert (h x (by simp [names]))).mono (alpha_le e ren _)))
      (below_bind hb (h x (by simp [names])))
  | .letRec f env args th body b, ren, c, h, hb => by
    have hf : SourceName f := h f (by simp [names])
    refine SimE.letRec (d := ⟨f, env, args, th, body⟩) (d' := alphaDef ⟨f, env, args, th, body⟩ ren c) (renC := ren)
      (liveC := SourceName) (live' := SourceName) ?_ ?_ ?_ (below_bind hb hf)
    · rw [hK]
      exact fun _ _ => ⟨rfl, fun x hx => h x (by
        simp only [names, List.mem_append] at hx ⊢; exact Or.inl hx), c, hb, rfl⟩
    · intro ρ ρ' hr
      rw [hc, hc']
      exact hr
    · refine alpha_sim p hK hc hc' b _ _ (fun x hx => h x (by simp [names, hx])) ?_
      exact (hb.insert hf).mono ((renameMany_le args _ _).le_trans (alpha_le body _ _))
  | .try_ e x t b, ren, c, h, hb =>
    .try_ (alpha_sim p hK hc hc' e ren _ (fun x hx => h x (by simp [names, hx])) (hb.mono (rename_le c x)))
      (alpha_sim p hK hc hc' b _ _ (fun x hx => h x (by simp [names, hx]))
        ((hb.insert (h x (by simp [names]))).mono (alpha_le e ren _)))
      (below_bind hb (h x (by simp [names])))
  | .clone xs e, ren, c, h, hb => .clone xs xs (alpha_sim p hK hc hc' e ren c h hb)
  | .drop xs e, ren, c, h, hb => .drop xs xs (alpha_sim p hK hc hc' e ren c h hb)
theorem alphaExprs_sim (p : Program) (hK : S.K = alphaK p) (hc : S.capture = captureAll) (hc' : S.capture' = captureAll) :
    ∀ (es : Exprs) (ren : Renaming) (c : Counts), (∀ x ∈ namesExprs es, SourceName x) → Below ren c →
      SimEs S ren SourceName es (alphaExprs es ren c).1
  | .nil, _, _, _, _ => .nil
  | .cons e es, ren, c, h, hb =>
    .cons (alpha_sim p hK hc hc' e ren c (fun x hx => h x (by simp [namesExprs, hx])) hb)
      (alphaExprs_sim p hK hc hc' es ren _ (fun x hx => h x (by simp [namesExprs, hx])) (hb.mono (alpha_le e ren c)))
theorem alphaAlts_sim (p : Program) (hK : S.K = alphaK p) (hc : S.capture = captureAll) (hc' : S.capture' = captureAll) :
    ∀ (as : Alts) (ren : Renaming) (c : Counts), (∀ x ∈ namesAlts as, SourceName x) → Below ren c →
      SimAs S ren SourceName as (alphaAlts as ren c).1
  | .nil, _, _, _, _ => .nil
  | .cons ts x e as, ren, c, h, hb =>
    .cons ts (alpha_sim p hK hc hc' e _ _ (fun x hx => h x (by simp [namesAlts, hx]))
        (hb.insert (h x (by simp [namesAlts]))))
      (below_bind hb (h x (by simp [namesAlts])))
      (alphaAlts_sim p hK hc hc' as ren _ (fun x hx => h x (by simp [namesAlts, hx]))
        (hb.mono ((rename_le c x).le_trans (alpha_le e _ _))))
end

theorem alpha_calls (w : World) (p : Program)
    (hp : ∀ d ∈ p.globals, ∀ x ∈ d.args ++ names d.body, SourceName x) (n : Nat) :
    CallRel (alphaK p) (apply w p captureAll n) (apply w (alphaProgram p) captureAll n) := by
  refine apply_rel (alphaK p) w captureAll captureAll ?_ ?_ ?_ ?_ n
  · intro d d' ren live ρ ρ' hk call call' hcall vs vs' log hr hvs
    have hk' := hk
    obtain ⟨rfl, hs, c, hb, rfl⟩ := hk
    have hf : SourceName d.f := hs d.f (by simp)
    have hargs : ∀ x ∈ d.args, SourceName x := fun x hx => hs x (by simp [hx])
    refine SimE.enter (S := ⟨alphaK p, w, captureAll, captureAll, call, call', rfl, hcall⟩)
      (ren' := (renameMany d.args (Renaming.insert ren d.f (c.rename d.f).1) (c.rename d.f).2).1)
      (live' := SourceName) (alpha_sim p rfl rfl rfl d.body _ _ (fun x hx => hs x (by simp [hx]))
        (renameMany_below _ _ _ hargs (hb.insert hf))) rfl ?_ ?_ ?_ hk' log hr hvs
    · intro y hy hyf hya
      refine ⟨hy, (below_bind hb hf y hy hyf).2, ?_⟩
      rw [renameMany_not_mem _ _ _ y hya]
      simp [Renaming.insert, hyf]
    · intro y hy x hx hne he
      obtain ⟨k, h1, h2, h3⟩ := renameMany_mem d.args (Renaming.insert ren d.f (c.rename d.f).1) (c.rename d.f).2 x hx
      rw [h3] at he
      by_cases hya : y ∈ d.args
      · obtain ⟨k', h4, h5, h6⟩ := renameMany_mem d.args (Renaming.insert ren d.f (c.rename d.f).1) (c.rename d.f).2 y hya
        rw [h6] at he
        exact hne (alphaName_inj hy (hargs x hx) he).1
      · rw [renameMany_not_mem _ _ _ y hya] at he
        exact hne ((hb.insert hf) y x k hy (hargs x hx) h1 he)
    · intro _ hfa
      simp only [alphaDef]
      rw [renameMany_not_mem _ _ _ d.f hfa]
      simp [Renaming.insert]
  · intro d ρ g h; exact h.elim
  · intro g d hd
    have hm : d ∈ p.globals := List.mem_of_find?_eq_some hd
    refine ⟨{ d with body := (alpha d.body id p.nameCounts).1 }, ?_, ?_⟩
    · simp only [alphaK, alphaProgram] at hd ⊢
      rw [find_map p (fun d => { d with body := (alpha d.body id p.nameCounts).1 }) (fun _ => rfl), hd]
      rfl
    · intro call call' hcall vs vs' log hvs
      refine SimE.enterGlobal (S := ⟨alphaK p, w, captureAll, captureAll, call, call', rfl, hcall⟩) (ren' := id)
        (live' := SourceName) (alpha_sim p rfl rfl rfl d.body id _ (fun x hx => hp d hm x (by simp [hx])) (below_id _))
        (by simp) (fun _ _ _ => rfl) (fun y _ x _ h => h) (fun x h => ?_) log hvs
      simp only [alphaK, alphaProgram] at h ⊢
      rw [isGlobal_map p (fun d => { d with body := (alpha d.body id p.nameCounts).1 }) (fun _ => rfl)]
      exact h
  · intro g h1 h2
    refine ⟨?_, h2⟩
    simp only [alphaK, alphaProgram] at h1 ⊢
    rw [find_map p (fun d => { d with body := (alpha d.body id p.nameCounts).1 }) (fun _ => rfl), h1]
    rfl

end Verif.Mir
