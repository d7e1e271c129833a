import Verif.Mir.AlphaLemmas

namespace Verif.Mir

mutual
/-- All names that an expression binds, in the order of its text. -/
def binders : Expr → List Name
  | .literal _ => []
  | .variable _ => []
  | .op _ es => bindersExprs es
  | .case e as => binders e ++ bindersAlts as
  | .if_ c t e => binders c ++ (binders t ++ binders e)
  | .let_ x e b => x :: (binders e ++ binders b)
  | .letRec f _ args _ body b => f :: (args ++ (binders body ++ binders b))
  | .try_ e x _ b => x :: (binders e ++ binders b)
  | .clone _ e => binders e
  | .drop _ e => binders e
def bindersExprs : Exprs → List Name
  | .nil => []
  | .cons e es => binders e ++ bindersExprs es
def bindersAlts : Alts → List Name
  | .nil => []
  | .cons _ x e as => x :: (binders e ++ bindersAlts as)
end

mutual
/-- No local function has two arguments with the same name. -/
def distinctArguments : Expr → Prop
  | .literal _ => True
  | .variable _ => True
  | .op _ es => distinctArgumentsExprs es
  | .case e as => distinctArguments e ∧ distinctArgumentsAlts as
  | .if_ c t e => distinctArguments c ∧ distinctArguments t ∧ distinctArguments e
  | .let_ _ e b => distinctArguments e ∧ distinctArguments b
  | .letRec _ _ args _ body b => args.Nodup ∧ distinctArguments body ∧ distinctArguments b
  | .try_ e _ _ b => distinctArguments e ∧ distinctArguments b
  | .clone _ e => distinctArguments e
  | .drop _ e => distinctArguments e
def distinctArgumentsExprs : Exprs → Prop
  | .nil => True
  | .cons e es => distinctArguments e ∧ distinctArgumentsExprs es
def distinctArgumentsAlts : Alts → Prop
  | .nil => True
  | .cons _ _ e as => distinctArguments e ∧ distinctArgumentsAlts as
end

/-- A name given between two points of the conversion. -/
def Fresh (c c' : Counts) (b : Name) : Prop :=
  ∃ x k, SourceName x ∧ c x ≤ k ∧ k < c' x ∧ b = alphaName x k

theorem Fresh.widen {a b c d : Counts} {x : Name} (h : Fresh b c x) (h1 : CountsLe a b) (h2 : CountsLe c d) :
    Fresh a d x := by
  obtain ⟨y, k, hy, h3, h4, rfl⟩ := h
  exact ⟨y, k, hy, Nat.le_trans (h1.le y) h3, Nat.lt_of_lt_of_le h4 (h2.le y), rfl⟩

theorem Fresh.disjoint {a b c : Counts} {x : Name} (h1 : Fresh a b x) (h2 : Fresh b c x) : False := by
  obtain ⟨y, k, hy, h3, h4, rfl⟩ := h1
  obtain ⟨z, l, hz, h5, h6, he⟩ := h2
  obtain ⟨rfl, rfl⟩ := alphaName_inj hy hz he
  omega

/-- A list of different names given between two points. -/
structure FreshList (c c' : Counts) (bs : List Name) : Prop where
  le : CountsLe c c'
  fresh : ∀ b ∈ bs, Fresh c c' b
  nodup : bs.Nodup

theorem FreshList.nil (c : Counts) : FreshList c c [] := ⟨.refl c, by simp, by simp⟩

theorem FreshList.append {a b c : Counts} {xs ys : List Name} (hx : FreshList a b xs) (hy : FreshList b c ys) :
    FreshList a c (xs ++ ys) := by
  refine ⟨hx.le.le_trans hy.le, ?_, ?_⟩
  · intro z hz
    rcases List.mem_append.mp hz with h | h
    · exact (hx.fresh z h).widen (.refl _) hy.le
    · exact (hy.fresh z h).widen hx.le (.refl _)
  · rw [List.nodup_append]
    refine ⟨hx.nodup, hy.nodup, ?_⟩
    rintro z hz z' hz' rfl
    exact (hx.fresh z hz).disjoint (hy.fresh z hz')

theorem FreshList.rename {c : Counts} {x : Name} (hx : SourceName x) : FreshList c (c.rename x).2 [(c.rename x).1] := by
  refine ⟨rename_le c x, ?_, by simp⟩
  intro b hb
  simp only [List.mem_singleton] at hb
  subst hb
  exact ⟨x, c x, hx, Nat.le_refl _, by rw [rename_self]; omega, rfl⟩

theorem FreshList.cons {a b c : Counts} {x : Name} {xs : List Name} (hx : FreshList a b [x]) (hxs : FreshList b c xs) :
    FreshList a c (x :: xs) := hx.append hxs

theorem FreshList.renameMany (xs : List Name) : ∀ (ren : Renaming) (c : Counts), (∀ x ∈ xs, SourceName x) → xs.Nodup →
    FreshList c (renameMany xs ren c).2 (xs.map (renameMany xs ren c).1) := by
  induction xs with
  | nil => intro ren c _ _; exact .nil c
  | cons x xs ih =>
    intro ren c hx hn
    obtain ⟨hn1, hn2⟩ := List.nodup_cons.mp hn
    simp only [List.map_cons, Mir.renameMany]
    rw [renameMany_not_mem xs _ _ x hn1]
    simp only [Renaming.insert, if_true]
    exact (FreshList.rename (hx x (by simp))).cons (ih _ _ (fun y hy => hx y (by simp [hy])) hn2)

mutual
theorem alpha_fresh : ∀ (e : Expr) (ren : Renaming) (c : Counts), (∀ x ∈ names e, SourceName x) → distinctArguments e →
    FreshList c (alpha e ren c).2 (binders (alpha e ren c).1)
  | .literal _, _, c, _, _ => .nil c
  | .variable _, _, c, _, _ => .nil c
  | .op _ es, ren, c, h, hd => alphaExprs_fresh es ren c h hd
  | .case e as, ren, c, h, hd =>
    .append (alpha_fresh e ren c (fun x hx => h x (by simp [names, hx])) hd.1)
      (alphaAlts_fresh as ren _ (fun x hx => h x (by simp [names, hx])) hd.2)
  | .if_ i t e, ren, c, h, hd =>
    .append (alpha_fresh i ren c (fun x hx => h x (by simp [names, hx])) hd.1)
      (.append (alpha_fresh t ren _ (fun x hx => h x (by simp [names, hx])) hd.2.1)
        (alpha_fresh e ren _ (fun x hx => h x (by simp [names, hx])) hd.2.2))
  | .let_ x e b, ren, c, h, hd =>
    .cons (.rename (h x (by simp [names])))
      (.append (alpha_fresh e ren _ (fun x hx => h x (by simp [names, hx])) hd.1)
        (alpha_fresh b _ _ (fun x hx => h x (by simp [names, hx])) hd.2))
  | .letRec f _ args _ body b, ren, c, h, hd =>
    .cons (.rename (h f (by simp [names])))
      (.append (.renameMany args _ _ (fun x hx => h x (by simp [names, hx])) hd.1)
        (.append (alpha_fresh body _ _ (fun x hx => h x (by simp [names, hx])) hd.2.1)
          (alpha_fresh b _ _ (fun x hx => h x (by simp [names, hx])) hd.2.2)))
  | .try_ e x _ b, ren, c, h, hd =>
    .cons (.rename (h x (by simp [names])))
      (.append (alpha_fresh e ren _ (fun x hx => h x (by simp [names, hx])) hd.1)
        (alpha_fresh b _ _ (fun x hx => h x (by simp [names, hx])) hd.2))
  | .clone _ e, ren, c, h, hd => alpha_fresh e ren c h hd
  | .drop _ e, ren, c, h, hd => alpha_fresh e ren c h hd
theorem alphaExprs_fresh : ∀ (es : Exprs) (ren : Renaming) (c : Counts), (∀ x ∈ namesExprs es, SourceName x) →
    distinctArgumentsExprs es → FreshList c (alphaExprs es ren c).2 (bindersExprs (alphaExprs es ren c).1)
  | .nil, _, c, _, _ => .nil c
  | .cons e es, ren, c, h, hd =>
    .append (alpha_fresh e ren c (fun x hx => h x (by simp [namesExprs, hx])) hd.1)
      (alphaExprs_fresh es ren _ (fun x hx => h x (by simp [namesExprs, hx])) hd.2)
theorem alphaAlts_fresh : ∀ (as : Alts) (ren : Renaming) (c : Counts), (∀ x ∈ namesAlts as, SourceName x) →
    distinctArgumentsAlts as → FreshList c (alphaAlts as ren c).2 (bindersAlts (alphaAlts as ren c).1)
  | .nil, _, c, _, _ => .nil c
  | .cons _ x e as, ren, c, h, hd =>
    .cons (.rename (h x (by simp [namesAlts])))
      (.append (alpha_fresh e _ _ (fun x hx => h x (by simp [namesAlts, hx])) hd.1)
        (alphaAlts_fresh as ren _ (fun x hx => h x (by simp [namesAlts, hx])) hd.2))
end

end Verif.Mir
