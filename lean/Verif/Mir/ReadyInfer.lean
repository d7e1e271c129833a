import Verif.Mir.ReadyLift
import Verif.Mir.LiftingPipeline

/- Passes before lambda lifting give expressions that are fit for reference counting. -/
namespace Verif.Mir

/-! ### The shape of expressions before reference counting -/

/-- What the front end guarantees of operations: fields of a record update are different
(hir-mir/src/record_element/mod.rs) and operations with one operand have one. -/
def Op.shaped : Op → Exprs → Prop
  | .update is, _ => is.Nodup
  | .field _, es | .synchronize, es | .typeInformation, es | .variant _, es => es.toList.length ≤ 1
  | _, _ => True

mutual
/-- What the front end guarantees of expressions: a `Case` has an alternative, what `TryOperation` returns early is the error
as it is (hir-mir/src/expression.rs:433-460), and there are no clones and drops. -/
def shaped : Expr → Prop
  | .literal _ => True
  | .variable _ => True
  | .op o es => o.shaped es ∧ shapedExprs es
  | .case e as => as ≠ .nil ∧ shaped e ∧ shapedAlts as
  | .if_ c t e => shaped c ∧ shaped t ∧ shaped e
  | .let_ _ e b => shaped e ∧ shaped b
  | .letRec _ _ _ _ body b => shaped body ∧ shaped b
  | .try_ e x t b => shaped e ∧ b = .op (.variant t) (.cons (.variable x) .nil)
  | .clone _ _ => False
  | .drop _ _ => False
def shapedExprs : Exprs → Prop
  | .nil => True
  | .cons e es => shaped e ∧ shapedExprs es
def shapedAlts : Alts → Prop
  | .nil => True
  | .cons _ _ e as => shaped e ∧ shapedAlts as
end

theorem Op.shaped.of_length {o : Op} {es es' : Exprs} (h : o.shaped es) (hl : es'.toList.length = es.toList.length) :
    o.shaped es' := by
  cases o <;> simp_all [Op.shaped]

/-! ### Environment inference -/

theorem atomic_atoms : ∀ (es : Exprs), atomic true es → es.atoms = true
  | .nil, _ => rfl
  | .cons e es, h => by
    rw [Exprs.atoms_cons, h.1 (by simp), atomic_atoms es h.2]
    rfl

theorem atomic_atomsButLast : ∀ (es : Exprs), atomic false es → es.atomsButLast = true
  | .nil, _ => rfl
  | .cons e es, h => by
    have ih := atomic_atomsButLast es h.2
    have h1 := h.1
    cases es with
    | nil => simp [Exprs.atomsButLast]
    | cons e' es =>
      have : isAtom e = true := h1 (by simp [Exprs.isNil])
      cases e <;> simp_all [isAtom, Exprs.atomsButLast]

theorem Op.shaped.normal {o : Op} {es : Exprs} (h : o.shaped es) (ha : atomic (bindsLast o) es) : o.normal es := by
  cases o <;> simp only [bindsLast] at ha <;> simp only [Op.shaped] at h <;> simp only [Op.normal] <;>
    first
      | exact h
      | exact atomic_atomsButLast es ha
      | exact atomic_atoms es ha
      | exact ⟨atomic_atoms es ha, h⟩

theorem infer_isAtom {e : Expr} (known : List Name) (h : isAtom e = true) : isAtom (infer known e) = true := by
  cases e <;> simp_all [isAtom, infer]

theorem inferExprs_matches (known : List Name) : ∀ (es : Exprs), Matches es (inferExprs known es)
  | .nil => trivial
  | .cons _ es => ⟨infer_isAtom known, inferExprs_matches known es⟩

variable {G : Name → Prop}

/-- What is known of an expression in whose scope `known` are local variables and `D` those in its closure. -/
structure Scoped (G : Name → Prop) (known D bs fs : List Name) : Prop where
  nodup : bs.Nodup
  disjoint : ∀ x ∈ bs, x ∉ D
  closed : ∀ x ∈ fs, x ∈ known → x ∈ D
  bound : ∀ x ∈ fs, x ∈ known ∨ G x
  binders : ∀ x ∈ bs, ¬ G x
  known : ∀ x ∈ known, ¬ G x

theorem Scoped.sub {known D bs fs bs' fs' : List Name} (h : Scoped G known D bs fs) (hb : bs'.Sublist bs)
    (hf : ∀ x ∈ fs', x ∈ fs) : Scoped G known D bs' fs' :=
  ⟨hb.nodup h.nodup, fun x hx => h.disjoint x (hb.mem hx), fun x hx => h.closed x (hf x hx),
    fun x hx => h.bound x (hf x hx), fun x hx => h.binders x (hb.mem hx), h.known⟩

theorem Scoped.bind {known D bs fs bs' fs' : List Name} {x : Name} (h : Scoped G known D bs fs) (hb : (x :: bs').Sublist bs)
    (hf : ∀ y ∈ fs', y ≠ x → y ∈ fs) : Scoped G (x :: known) (x :: D) bs' fs' := by
  have hn := List.nodup_cons.mp (hb.nodup h.nodup)
  have hx := h.binders x (hb.mem (by simp))
  have hs : ∀ y ∈ bs', y ∈ bs := fun y hy => hb.mem (by simp [hy])
  refine ⟨hn.2, ?_, ?_, ?_, fun y hy => h.binders y (hs y hy), ?_⟩
  · intro y hy
    simp only [List.mem_cons, not_or]
    exact ⟨fun e => hn.1 (e ▸ hy), h.disjoint y (hs y hy)⟩
  · intro y hy hk
    simp only [List.mem_cons] at hk ⊢
    by_cases e : y = x
    · exact Or.inl e
    · exact Or.inr (h.closed y (hf y hy e) (hk.resolve_left e))
  · intro y hy
    simp only [List.mem_cons]
    by_cases e : y = x
    · exact Or.inl (Or.inl e)
    · exact (h.bound y (hf y hy e)).imp Or.inr id
  · intro y hy
    rcases List.mem_cons.mp hy with rfl | hy
    exacts [hx, h.known y hy]

mutual
theorem infer_fit : ∀ (e : Expr) (b : Bool) (known D : List Name), shaped e → normal b e →
    Scoped G known D (binders e) (free e) → Fit G D (infer known e)
  | .literal _, _, _, _, _, _, _ => ⟨trivial, trivial⟩
  | .variable x, _, known, D, _, _, h =>
    ⟨trivial, (h.bound x (by simp [free])).imp (fun hk => h.closed x (by simp [free]) hk) id⟩
  | .op o es, _, known, D, hs, hn, h => by
    have := inferExprs_fit es known D hs.2 hn.2 h
    exact ⟨⟨(inferExprs_matches known es).normal (hs.1.normal hn.1), this.1⟩, this.2⟩
  | .case e as, _, known, D, hs, hn, h => by
    have h1 := infer_fit e _ known D hs.2.1 hn.1 (h.sub (by simp [binders]) fun x hx => by simp [free, hx])
    have h2 := inferAlts_fit as known D hs.2.2 hn.2 (h.sub (by simp [binders]) fun x hx => by simp [free, hx])
    refine ⟨⟨?_, h1.1, h2.1⟩, h1.2, h2.2⟩
    have := hs.1
    cases as with
    | nil => exact absurd rfl this
    | cons => simp [inferAlts]
  | .if_ c t e, _, known, D, hs, hn, h => by
    have h1 := infer_fit c _ known D hs.1 hn.1 (h.sub (by simp [binders]) fun x hx => by simp [free, hx])
    have h2 := infer_fit t _ known D hs.2.1 hn.2.1 (h.sub (by
      simp only [binders]
      exact (List.sublist_append_left _ _).trans (List.sublist_append_right _ _)) fun x hx => by simp [free, hx])
    have h3 := infer_fit e _ known D hs.2.2 hn.2.2 (h.sub (by
      simp only [binders]
      exact (List.sublist_append_right _ _).trans (List.sublist_append_right _ _)) fun x hx => by simp [free, hx])
    exact ⟨⟨h1.1, h2.1, h3.1⟩, h1.2, h2.2, h3.2⟩
  | .let_ x e b, _, known, D, hs, hn, h => by
    have h1 := infer_fit e _ known D hs.1 hn.2.1 (h.sub (by
      simp only [binders]
      exact (List.sublist_append_left _ _).cons _) fun x hx => by simp [free, hx])
    have h2 := infer_fit b _ (x :: known) (x :: D) hs.2 hn.2.2 (h.bind (by
      simp only [binders]
      exact (List.sublist_append_right _ _).cons_cons _) fun y hy hne => by simp [free, hy, hne])
    have hx : x ∈ binders (.let_ x e b) := by simp [binders]
    exact ⟨⟨h.disjoint x hx, h1.1, h2.1⟩, h.binders x hx, h1.2, h2.2⟩
  | .letRec f env args th body b, _, known, D, hs, hn, h => by
    have hnd := h.nodup
    simp only [binders, List.nodup_cons, List.nodup_append, List.mem_append, not_or] at hnd
    have hf : f ∈ binders (.letRec f env args th body b) := by simp [binders]
    have hargs : ∀ x ∈ args, x ∈ binders (.letRec f env args th body b) := fun x hx => by simp [binders, hx]
    have hbody : ∀ x ∈ binders body, x ∈ binders (.letRec f env args th body b) := fun x hx => by simp [binders, hx]
    have henv : ∀ x, x ∈ inferredEnvironment known f args body ↔ x ∈ free body ∧ x ≠ f ∧ x ∉ args ∧ x ∈ known :=
      fun x => mem_inferredEnvironment
    have hfree : ∀ x ∈ free body, x ≠ f → x ∉ args → x ∈ free (.letRec f env args th body b) := by
      intro x hx h1 h2
      simp only [free, List.mem_filter, List.mem_append, bne_iff_ne, ne_eq, Bool.and_eq_true, List.all_eq_true]
      exact ⟨Or.inl ⟨hx, h1, fun z hz h => h2 (h ▸ hz)⟩, h1⟩
    have henvD : ∀ x ∈ inferredEnvironment known f args body, x ∈ D := fun x hx => by
      obtain ⟨h6, h7, h8, h9⟩ := (henv x).mp hx
      exact h.closed x (hfree x h6 h7 h8) h9
    have hdup : (f :: inferredEnvironment known f args body ++ args).Nodup := by
      simp only [List.cons_append, List.nodup_cons, List.nodup_append, List.mem_append, not_or]
      exact ⟨⟨fun hx => ((henv f).mp hx).2.1 rfl, hnd.1.1⟩, nodup_eraseDups _ _ (Nat.le_refl _), hnd.2.1,
        fun x hx y hy e => ((henv x).mp hx).2.2.1 (e ▸ hy)⟩
    have hG : ∀ x ∈ f :: inferredEnvironment known f args body ++ args, ¬ G x := by
      intro x hx
      simp only [List.cons_append, List.mem_cons, List.mem_append] at hx
      rcases hx with rfl | hx | hx
      · exact h.binders _ hf
      · exact h.known x ((henv x).mp hx).2.2.2
      · exact h.binders x (hargs x hx)
    have h1 := infer_fit body _ (f :: args ++ known) (f :: inferredEnvironment known f args body ++ args) hs.1 hn.2.1 {
      nodup := hnd.2.2.1.1
      disjoint := by
        intro x hx hx'
        simp only [List.cons_append, List.mem_cons, List.mem_append] at hx'
        rcases hx' with rfl | hx' | hx'
        · exact hnd.1.2.1 hx
        · exact h.disjoint x (hbody x hx) (henvD x hx')
        · exact hnd.2.2.2 x hx' x (Or.inl hx) rfl
      closed := by
        intro x hx hk
        simp only [List.cons_append, List.mem_cons, List.mem_append, henv] at hk ⊢
        grind
      bound := by
        intro x hx
        simp only [List.cons_append, List.mem_cons, List.mem_append]
        by_cases h1 : x = f
        · exact Or.inl (Or.inl h1)
        · by_cases h2 : x ∈ args
          · exact Or.inl (Or.inr (Or.inl h2))
          · exact (h.bound x (hfree x hx h1 h2)).imp (fun h => Or.inr (Or.inr h)) id
      binders := fun x hx => h.binders x (hbody x hx)
      known := by
        intro x hx
        simp only [List.cons_append, List.mem_cons, List.mem_append] at hx
        rcases hx with rfl | hx | hx
        · exact h.binders _ hf
        · exact h.binders x (hargs x hx)
        · exact h.known x hx }
    have h2 := infer_fit b _ (f :: known) (f :: D) hs.2 hn.2.2 (h.bind (by
      simp only [binders]
      exact ((List.sublist_append_right _ _).trans (List.sublist_append_right _ _)).cons_cons _) fun y hy hne => by
        simp only [free, List.mem_filter, List.mem_append, bne_iff_ne, ne_eq]
        exact ⟨Or.inr hy, hne⟩)
    exact ⟨⟨h.disjoint f hf, henvD, hdup, h1.1, h2.1⟩, hG, h1.2, h2.2⟩
  | .try_ e x t b, _, known, D, hs, hn, h => by
    obtain ⟨hs1, rfl⟩ := hs
    have h1 := infer_fit e _ known D hs1 hn.1 (h.sub (by
      simp only [binders]
      exact (List.sublist_append_left _ _).cons _) fun x hx => by simp [free, hx])
    have hx : x ∈ binders (.try_ e x t (.op (.variant t) (.cons (.variable x) .nil))) := by simp [binders]
    exact ⟨⟨h.disjoint x hx, h1.1, rfl⟩, h.binders x hx, h1.2, Or.inl (by simp), trivial⟩
theorem inferExprs_fit : ∀ (es : Exprs) (known D : List Name), shapedExprs es → normalExprs es →
    Scoped G known D (bindersExprs es) (freeExprs es) →
    readyExprs D (inferExprs known es) ∧ inScopeExprs G D (inferExprs known es)
  | .nil, _, _, _, _, _ => ⟨trivial, trivial⟩
  | .cons e es, known, D, hs, hn, h => by
    have h1 := infer_fit e _ known D hs.1 hn.1 (h.sub (by simp [bindersExprs]) fun x hx => by simp [freeExprs, hx])
    have h2 := inferExprs_fit es known D hs.2 hn.2 (h.sub (by simp [bindersExprs]) fun x hx => by simp [freeExprs, hx])
    exact ⟨⟨h1.1, h2.1⟩, h1.2, h2.2⟩
theorem inferAlts_fit : ∀ (as : Alts) (known D : List Name), shapedAlts as → normalAlts as →
    Scoped G known D (bindersAlts as) (freeAlts as) →
    readyAlts D (inferAlts known as) ∧ inScopeAlts G D (inferAlts known as)
  | .nil, _, _, _, _, _ => ⟨trivial, trivial⟩
  | .cons ts x e as, known, D, hs, hn, h => by
    have h1 := infer_fit e _ (x :: known) (x :: D) hs.1 hn.1 (h.bind (by
      simp only [bindersAlts]
      exact (List.sublist_append_left _ _).cons_cons _) fun y hy hne => by simp [freeAlts, hy, hne])
    have h2 := inferAlts_fit as known D hs.2 hn.2 (h.sub (by
      simp only [bindersAlts]
      exact (List.sublist_append_right _ _).cons _) fun y hy => by simp [freeAlts, hy])
    have hx : x ∈ bindersAlts (.cons ts x e as) := by simp [bindersAlts]
    exact ⟨⟨⟨h.disjoint x hx, h1.1⟩, h2.1⟩, ⟨h.binders x hx, h1.2⟩, h2.2⟩
end

end Verif.Mir
