import Verif.Mir.Split
import Verif.Mir.AlphaUnique
import Verif.Mir.FreeVariables

/- Scopes of normalized expressions. -/
namespace Verif.Mir

theorem anfName_inj {i j : Nat} (h : anfName i = anfName j) : i = j := by
  unfold anfName at h
  have := congrArg String.toList h
  simp only [String.toList_append, List.append_cancel_left_eq] at this
  exact Nat.repr_injective (String.toList_injective this)

/-- A name that normalization generates. -/
def IsAnfName (x : Name) : Prop := ∃ i, x = anfName i

/-- Names bound by frames themselves. -/
def boundBy : List Frame → List Name
  | [] => []
  | .let_ x _ :: fs => x :: boundBy fs
  | .letRec f _ _ _ _ :: fs => f :: boundBy fs

theorem boundBy_append (fs gs : List Frame) : boundBy (fs ++ gs) = boundBy fs ++ boundBy gs := by
  induction fs with
  | nil => rfl
  | cons f fs ih => cases f <;> simp [boundBy, ih]

/-- Names generated between two points. -/
def anfNames (n m : Nat) : List Name := (List.range' n (m - n)).map anfName

theorem mem_anfNames {n m : Nat} {x : Name} : x ∈ anfNames n m ↔ ∃ i, n ≤ i ∧ i < m ∧ x = anfName i := by
  simp only [anfNames, List.mem_map, List.mem_range'_1]
  constructor
  · rintro ⟨i, h, rfl⟩; exact ⟨i, h.1, by omega, rfl⟩
  · rintro ⟨i, h1, h2, rfl⟩; exact ⟨i, ⟨h1, by omega⟩, rfl⟩

theorem boundIf_next_le (b : Bool) (s : Split Expr) : s.next ≤ (s.boundIf b).next := by
  unfold Split.boundIf Split.bound
  split
  · split <;> simp
  · exact Nat.le_refl _

variable (post : Expr → Expr)

mutual
theorem split_next_le : ∀ (e : Expr) (n : Nat), n ≤ (split post e n).next
  | .literal _, n => Nat.le_refl _
  | .variable _, n => Nat.le_refl _
  | .op _ es, n => splitExprs_next_le _ es n
  | .case e as, n => Nat.le_trans (split_next_le e n) (splitAlts_next_le as _)
  | .if_ c t e, n => Nat.le_trans (Nat.le_trans (split_next_le c n) (split_next_le t _)) (split_next_le e _)
  | .let_ _ e b, n => Nat.le_trans (split_next_le e n) (split_next_le b _)
  | .letRec _ _ _ _ body b, n => Nat.le_trans (split_next_le body n) (split_next_le b _)
  | .try_ e _ _ b, n => Nat.le_trans (split_next_le e n) (split_next_le b _)
  | .clone _ e, n => split_next_le e n
  | .drop _ e, n => split_next_le e n
theorem splitExprs_next_le (last : Bool) : ∀ (es : Exprs) (n : Nat), n ≤ (splitExprs post last es n).next
  | .nil, n => Nat.le_refl _
  | .cons e es, n =>
    Nat.le_trans (Nat.le_trans (split_next_le e n) (boundIf_next_le _ _)) (splitExprs_next_le last es _)
theorem splitAlts_next_le : ∀ (as : Alts) (n : Nat), n ≤ (splitAlts post as n).2
  | .nil, n => Nat.le_refl _
  | .cons _ _ e as, n => Nat.le_trans (split_next_le e n) (splitAlts_next_le as _)
end

/-! What frames bind. -/

theorem bound_boundBy (s : Split Expr) (b : Bool) {x : Name} (h : x ∈ boundBy (s.boundIf b).frames) :
    x ∈ boundBy s.frames ∨ x ∈ anfNames s.next (s.boundIf b).next := by
  unfold Split.boundIf Split.bound at h ⊢
  split at h
  · split at h
    · exact Or.inl h
    · rename_i h1 h2
      simp only [boundBy_append, boundBy, List.mem_append, List.mem_singleton] at h
      rcases h with h | rfl
      · exact Or.inl h
      · refine Or.inr ?_
        simp only [h1, h2, if_true, Bool.false_eq_true, if_false]
        exact mem_anfNames.mpr ⟨s.next, Nat.le_refl _, by omega, rfl⟩
  · exact Or.inl h

theorem anfNames_mono {n n' m m' : Nat} (h1 : n' ≤ n) (h2 : m ≤ m') {x : Name} (h : x ∈ anfNames n m) :
    x ∈ anfNames n' m' := by
  obtain ⟨i, h3, h4, rfl⟩ := mem_anfNames.mp h
  exact mem_anfNames.mpr ⟨i, by omega, by omega, rfl⟩

mutual
theorem split_boundBy : ∀ (e : Expr) (n : Nat) (x : Name), x ∈ boundBy (split post e n).frames →
    x ∈ binders e ∨ x ∈ anfNames n (split post e n).next
  | .literal _, n, x, h => by simp [split, boundBy] at h
  | .variable _, n, x, h => by simp [split, boundBy] at h
  | .op o es, n, x, h => splitExprs_boundBy (bindsLast o) es n x h
  | .case e as, n, x, h => by
    rcases split_boundBy e n x h with h | h
    · exact Or.inl (by simp [binders, h])
    · exact Or.inr (anfNames_mono (Nat.le_refl _) (splitAlts_next_le post as _) h)
  | .if_ c t e, n, x, h => by
    rcases split_boundBy c n x h with h | h
    · exact Or.inl (by simp [binders, h])
    · exact Or.inr (anfNames_mono (Nat.le_refl _)
        (Nat.le_trans (split_next_le post t _) (split_next_le post e _)) h)
  | .let_ y e b, n, x, h => by
    simp only [split, boundBy_append, boundBy, List.mem_append, List.mem_cons] at h
    rcases h with h | rfl | h
    · rcases split_boundBy e n x h with h | h
      · exact Or.inl (by simp [binders, h])
      · exact Or.inr (anfNames_mono (Nat.le_refl _) (split_next_le post b _) h)
    · exact Or.inl (by simp [binders])
    · rcases split_boundBy b _ x h with h | h
      · exact Or.inl (by simp [binders, h])
      · exact Or.inr (anfNames_mono (split_next_le post e _) (Nat.le_refl _) h)
  | .letRec f env args th body b, n, x, h => by
    simp only [split, boundBy, List.mem_cons] at h
    rcases h with rfl | h
    · exact Or.inl (by simp [binders])
    · rcases split_boundBy b _ x h with h | h
      · exact Or.inl (by simp [binders, h])
      · exact Or.inr (anfNames_mono (split_next_le post body _) (Nat.le_refl _) h)
  | .try_ e y t b, n, x, h => by
    rcases split_boundBy e n x h with h | h
    · exact Or.inl (by simp [binders, h])
    · exact Or.inr (anfNames_mono (Nat.le_refl _) (split_next_le post b _) h)
  | .clone _ e, n, x, h => split_boundBy e n x h
  | .drop _ e, n, x, h => split_boundBy e n x h
theorem splitExprs_boundBy (last : Bool) : ∀ (es : Exprs) (n : Nat) (x : Name),
    x ∈ boundBy (splitExprs post last es n).frames →
    x ∈ bindersExprs es ∨ x ∈ anfNames n (splitExprs post last es n).next
  | .nil, n, x, h => by simp [splitExprs, boundBy] at h
  | .cons e es, n, x, h => by
    simp only [splitExprs, boundBy_append, List.mem_append] at h
    rcases h with h | h
    · rcases bound_boundBy _ _ h with h | h
      · rcases split_boundBy e n x h with h | h
        · exact Or.inl (by simp [bindersExprs, h])
        · exact Or.inr (anfNames_mono (Nat.le_refl _)
            (Nat.le_trans (boundIf_next_le _ _) (splitExprs_next_le post last es _)) h)
      · exact Or.inr (anfNames_mono (split_next_le post e n) (splitExprs_next_le post last es _) h)
    · rcases splitExprs_boundBy last es _ x h with h | h
      · exact Or.inl (by simp [bindersExprs, h])
      · exact Or.inr (anfNames_mono (Nat.le_trans (split_next_le post e n) (boundIf_next_le _ _)) (Nat.le_refl _) h)
end

/-! Free variables. -/

/-- Free variables of frames, given the free variables of what follows. -/
def freeAfter : List Frame → List Name → List Name
  | [], xs => xs
  | .let_ x e :: fs, xs => free e ++ (freeAfter fs xs).filter (· != x)
  | .letRec f _ args _ body :: fs, xs =>
    ((free body).filter (fun x => x != f && args.all (x != ·)) ++ freeAfter fs xs).filter (· != f)

theorem free_plug (fs : List Frame) (t : Expr) : free (plug fs t) = freeAfter fs (free t) := by
  induction fs with
  | nil => rfl
  | cons f fs ih => cases f <;> simp [plug, free, freeAfter, ih]

theorem freeAfter_append (fs gs : List Frame) (xs : List Name) :
    freeAfter (fs ++ gs) xs = freeAfter fs (freeAfter gs xs) := by
  induction fs with
  | nil => rfl
  | cons f fs ih => cases f <;> simp [freeAfter, ih]

/-- Only names that frames do not bind stay free. -/
theorem mem_freeAfter (fs : List Frame) (xs : List Name) (x : Name) :
    x ∈ freeAfter fs xs ↔ x ∈ freeAfter fs [] ∨ (x ∈ xs ∧ x ∉ boundBy fs) := by
  induction fs with
  | nil => simp [freeAfter, boundBy]
  | cons f fs ih =>
    cases f with
    | let_ y e =>
      simp only [freeAfter, boundBy, List.mem_append, List.mem_filter, ih, List.mem_cons, bne_iff_ne, ne_eq]
      by_cases h : x = y <;> simp [h]
      rw [or_assoc]
    | letRec f env args th body =>
      simp only [freeAfter, boundBy, List.mem_append, List.mem_filter, ih, List.mem_cons, bne_iff_ne, ne_eq]
      by_cases h : x = f <;> simp [h]
      rw [or_assoc]

theorem freeAfter_mono (fs : List Frame) {xs ys : List Name} (h : ∀ x ∈ xs, x ∈ ys) {x : Name}
    (hx : x ∈ freeAfter fs xs) : x ∈ freeAfter fs ys := by
  rw [mem_freeAfter] at hx ⊢
  exact hx.imp_right fun ⟨h1, h2⟩ => ⟨h x h1, h2⟩

def freeList : List Expr → List Name
  | [] => []
  | e :: es => free e ++ freeList es

theorem freeExprs_ofList (es : List Expr) : freeExprs (Exprs.ofList es) = freeList es := by
  induction es with
  | nil => rfl
  | cons e es ih => simp [Exprs.ofList, freeExprs, freeList, ih]

theorem bound_free (s : Split Expr) (b : Bool) {x : Name} {ys : List Name}
    (h : x ∈ freeAfter (s.boundIf b).frames (free (s.boundIf b).tail ++ ys)) :
    x ∈ freeAfter s.frames (free s.tail ++ ys) := by
  unfold Split.boundIf Split.bound at h
  split at h
  · split at h
    · exact h
    · simp only [freeAfter_append, freeAfter, free] at h
      refine freeAfter_mono _ ?_ h
      intro y hy
      simp only [List.mem_append, List.mem_filter, List.mem_singleton, bne_iff_ne, ne_eq] at hy ⊢
      rcases hy with hy | ⟨h1 | h1, h2⟩
      · exact Or.inl hy
      · exact absurd h1 h2
      · exact Or.inr h1
  · exact h

mutual
/-- Normalization adds no free variables. -/
theorem split_free (hpost : ∀ e x, x ∈ free (post e) → x ∈ free e) : ∀ (e : Expr) (n : Nat) (x : Name),
    x ∈ freeAfter (split post e n).frames (free (split post e n).tail) → x ∈ free e
  | .literal _, n, x, h => h
  | .variable _, n, x, h => h
  | .op o es, n, x, h => by
    simp only [split, free, freeExprs_ofList] at h
    exact splitExprs_free hpost _ es n x h
  | .case e as, n, x, h => by
    simp only [split, free] at h ⊢
    rw [mem_freeAfter, List.mem_append] at h
    rw [List.mem_append]
    rcases h with h | ⟨h | h, h'⟩
    · exact Or.inl (split_free hpost e n x ((mem_freeAfter _ _ _).mpr (Or.inl h)))
    · exact Or.inl (split_free hpost e n x ((mem_freeAfter _ _ _).mpr (Or.inr ⟨h, h'⟩)))
    · exact Or.inr (splitAlts_free hpost as _ x h)
  | .if_ c t e, n, x, h => by
    simp only [split, free, Split.plug, free_plug] at h ⊢
    rw [mem_freeAfter, List.mem_append, List.mem_append] at h
    rw [List.mem_append, List.mem_append]
    rcases h with h | ⟨(h | h) | h, h'⟩
    · exact Or.inl (Or.inl (split_free hpost c n x ((mem_freeAfter _ _ _).mpr (Or.inl h))))
    · exact Or.inl (Or.inl (split_free hpost c n x ((mem_freeAfter _ _ _).mpr (Or.inr ⟨h, h'⟩))))
    · exact Or.inl (Or.inr (split_free hpost t _ x h))
    · exact Or.inr (split_free hpost e _ x h)
  | .let_ y e b, n, x, h => by
    simp only [split, free, freeAfter_append, freeAfter] at h ⊢
    rw [mem_freeAfter, List.mem_append] at h
    rw [List.mem_append]
    rcases h with h | ⟨h | h, h'⟩
    · exact Or.inl (split_free hpost e n x ((mem_freeAfter _ _ _).mpr (Or.inl h)))
    · exact Or.inl (split_free hpost e n x ((mem_freeAfter _ _ _).mpr (Or.inr ⟨h, h'⟩)))
    · rw [List.mem_filter] at h ⊢
      exact Or.inr ⟨split_free hpost b _ x h.1, h.2⟩
  | .letRec f env args th body b, n, x, h => by
    simp only [split, free, freeAfter, List.mem_filter, List.mem_append] at h ⊢
    refine ⟨?_, h.2⟩
    rcases h.1 with ⟨h1, h2⟩ | h1
    · refine Or.inl ⟨split_free hpost body n x ?_, h2⟩
      have := hpost _ _ h1
      rwa [Split.plug, free_plug] at this
    · exact Or.inr (split_free hpost b _ x h1)
  | .try_ e y t b, n, x, h => by
    simp only [split, free, Split.plug, free_plug] at h ⊢
    rw [mem_freeAfter, List.mem_append] at h
    rw [List.mem_append]
    rcases h with h | ⟨h | h, h'⟩
    · exact Or.inl (split_free hpost e n x ((mem_freeAfter _ _ _).mpr (Or.inl h)))
    · exact Or.inl (split_free hpost e n x ((mem_freeAfter _ _ _).mpr (Or.inr ⟨h, h'⟩)))
    · rw [List.mem_filter] at h ⊢
      exact Or.inr ⟨split_free hpost b _ x h.1, h.2⟩
  | .clone _ e, n, x, h => split_free hpost e n x h
  | .drop _ e, n, x, h => split_free hpost e n x h
theorem splitExprs_free (hpost : ∀ e x, x ∈ free (post e) → x ∈ free e) (last : Bool) :
    ∀ (es : Exprs) (n : Nat) (x : Name),
    x ∈ freeAfter (splitExprs post last es n).frames (freeList (splitExprs post last es n).tail) → x ∈ freeExprs es
  | .nil, n, x, h => by simp [splitExprs, freeAfter, freeList] at h
  | .cons e es, n, x, h => by
    simp only [splitExprs, freeList, freeExprs, freeAfter_append] at h ⊢
    rw [List.mem_append]
    have h2 : x ∈ freeAfter (split post e n).frames (free (split post e n).tail ++ freeExprs es) := by
      refine bound_free (split post e n) (last || !es.isNil) (freeAfter_mono _ ?_ h)
      intro y hy
      rw [mem_freeAfter, List.mem_append] at hy
      rw [List.mem_append]
      rcases hy with hy | ⟨hy | hy, hy'⟩
      · exact Or.inr (splitExprs_free hpost last es _ y ((mem_freeAfter _ _ _).mpr (Or.inl hy)))
      · exact Or.inl hy
      · exact Or.inr (splitExprs_free hpost last es _ y ((mem_freeAfter _ _ _).mpr (Or.inr ⟨hy, hy'⟩)))
    rw [mem_freeAfter, List.mem_append] at h2
    rcases h2 with h2 | ⟨h2 | h2, h3⟩
    · exact Or.inl (split_free hpost e n x ((mem_freeAfter _ _ _).mpr (Or.inl h2)))
    · exact Or.inl (split_free hpost e n x ((mem_freeAfter _ _ _).mpr (Or.inr ⟨h2, h3⟩)))
    · exact Or.inr h2
theorem splitAlts_free (hpost : ∀ e x, x ∈ free (post e) → x ∈ free e) : ∀ (as : Alts) (n : Nat) (x : Name),
    x ∈ freeAlts (splitAlts post as n).1 → x ∈ freeAlts as
  | .nil, n, x, h => h
  | .cons ts y e as, n, x, h => by
    simp only [splitAlts, freeAlts, Split.plug, free_plug, List.mem_append, List.mem_filter] at h ⊢
    rcases h with h | h
    · exact Or.inl ⟨split_free hpost e n x h.1, h.2⟩
    · exact Or.inr (splitAlts_free hpost as _ x h)
end

end Verif.Mir
