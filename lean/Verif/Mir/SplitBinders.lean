import Verif.Mir.SplitScope

/- Binders of normalized expressions. -/
namespace Verif.Mir

def bindersFrames : List Frame → List Name
  | [] => []
  | .let_ x e :: fs => x :: (binders e ++ bindersFrames fs)
  | .letRec f _ args _ body :: fs => f :: (args ++ (binders body ++ bindersFrames fs))

theorem binders_plug (fs : List Frame) (t : Expr) : binders (plug fs t) = bindersFrames fs ++ binders t := by
  induction fs with
  | nil => rfl
  | cons f fs ih => cases f <;> simp [plug, binders, bindersFrames, ih]

theorem bindersFrames_append (fs gs : List Frame) : bindersFrames (fs ++ gs) = bindersFrames fs ++ bindersFrames gs := by
  induction fs with
  | nil => rfl
  | cons f fs ih => cases f <;> simp [bindersFrames, ih]

theorem count_anfNames {n m k : Nat} (h1 : n ≤ m) (h2 : m ≤ k) (x : Name) :
    (anfNames n k).count x = (anfNames n m).count x + (anfNames m k).count x := by
  rw [← List.count_append]
  congr 1
  unfold anfNames
  rw [← List.map_append]
  congr 1
  have := @List.range'_append_1 n (m - n) (k - m)
  rw [show n + (m - n) = m by omega, show m - n + (k - m) = k - n by omega] at this
  exact this.symm

theorem anfNames_succ (n : Nat) : anfNames n (n + 1) = [anfName n] := by
  simp [anfNames]

theorem anfNames_self (n : Nat) : anfNames n n = [] := by simp [anfNames]

def bindersList : List Expr → List Name
  | [] => []
  | e :: es => binders e ++ bindersList es

theorem bindersExprs_ofList (es : List Expr) : bindersExprs (Exprs.ofList es) = bindersList es := by
  induction es with
  | nil => rfl
  | cons e es ih => simp [Exprs.ofList, bindersExprs, bindersList, ih]

theorem bound_binders (s : Split Expr) (b : Bool) (x : Name) :
    (bindersFrames (s.boundIf b).frames).count x + (binders (s.boundIf b).tail).count x =
      (bindersFrames s.frames).count x + (binders s.tail).count x + (anfNames s.next (s.boundIf b).next).count x := by
  unfold Split.boundIf Split.bound
  split
  · split
    · simp [anfNames_self]
    · simp only [bindersFrames_append, bindersFrames, binders, List.count_append, List.count_cons, List.count_nil,
        anfNames_succ, List.append_nil]
      omega
  · simp [anfNames_self]

variable (post : Expr → Expr)

mutual
/-- Normalization binds the same names, and new ones. -/
theorem split_binders (hpost : ∀ e x, (binders (post e)).count x ≤ (binders e).count x) : ∀ (e : Expr) (n : Nat) (x : Name),
    (bindersFrames (split post e n).frames).count x + (binders (split post e n).tail).count x ≤
      (binders e).count x + (anfNames n (split post e n).next).count x
  | .literal _, n, x => by simp [split, bindersFrames, binders]
  | .variable _, n, x => by simp [split, bindersFrames, binders]
  | .op o es, n, x => by
    simp only [split, binders, bindersExprs_ofList]
    exact splitExprs_binders hpost _ es n x
  | .case e as, n, x => by
    have h1 := split_binders hpost e n x
    have h2 := splitAlts_binders hpost as (split post e n).next x
    have h3 := count_anfNames (split_next_le post e n) (splitAlts_next_le post as (split post e n).next) x
    simp only [split, binders, List.count_append]
    omega
  | .if_ c t e, n, x => by
    have h1 := split_binders hpost c n x
    have h2 := split_binders hpost t (split post c n).next x
    have h3 := split_binders hpost e (split post t (split post c n).next).next x
    have h4 := count_anfNames (split_next_le post c n) (split_next_le post t (split post c n).next) x
    have h5 := count_anfNames (Nat.le_trans (split_next_le post c n) (split_next_le post t (split post c n).next))
      (split_next_le post e (split post t (split post c n).next).next) x
    simp only [split, binders, List.count_append, Split.plug, binders_plug]
    omega
  | .let_ y e b, n, x => by
    have h1 := split_binders hpost e n x
    have h2 := split_binders hpost b (split post e n).next x
    have h3 := count_anfNames (split_next_le post e n) (split_next_le post b (split post e n).next) x
    simp only [split, binders, List.count_append, List.count_cons, bindersFrames_append, bindersFrames]
    omega
  | .letRec f env args th body b, n, x => by
    have h1 := split_binders hpost body n x
    have h2 := split_binders hpost b (split post body n).next x
    have h3 := count_anfNames (split_next_le post body n) (split_next_le post b (split post body n).next) x
    have h4 := hpost (split post body n).plug x
    rw [Split.plug, binders_plug, List.count_append] at h4
    simp only [split, binders, List.count_append, List.count_cons, bindersFrames, Split.plug]
    omega
  | .try_ e y t b, n, x => by
    have h1 := split_binders hpost e n x
    have h2 := split_binders hpost b (split post e n).next x
    have h3 := count_anfNames (split_next_le post e n) (split_next_le post b (split post e n).next) x
    simp only [split, binders, List.count_append, List.count_cons, Split.plug, binders_plug]
    omega
  | .clone _ e, n, x => split_binders hpost e n x
  | .drop _ e, n, x => split_binders hpost e n x
theorem splitExprs_binders (hpost : ∀ e x, (binders (post e)).count x ≤ (binders e).count x) (last : Bool) :
    ∀ (es : Exprs) (n : Nat) (x : Name),
    (bindersFrames (splitExprs post last es n).frames).count x + (bindersList (splitExprs post last es n).tail).count x ≤
      (bindersExprs es).count x + (anfNames n (splitExprs post last es n).next).count x
  | .nil, n, x => by simp [splitExprs, bindersFrames, bindersList]
  | .cons e es, n, x => by
    have h1 := split_binders hpost e n x
    have h2 := bound_binders (split post e n) (last || !es.isNil) x
    have h3 := splitExprs_binders hpost last es ((split post e n).boundIf (last || !es.isNil)).next x
    have h4 := count_anfNames (split_next_le post e n) (boundIf_next_le (last || !es.isNil) (split post e n)) x
    have h5 := count_anfNames (Nat.le_trans (split_next_le post e n) (boundIf_next_le (last || !es.isNil) (split post e n)))
      (splitExprs_next_le post last es ((split post e n).boundIf (last || !es.isNil)).next) x
    simp only [splitExprs, bindersExprs, bindersList, List.count_append, bindersFrames_append]
    omega
theorem splitAlts_binders (hpost : ∀ e x, (binders (post e)).count x ≤ (binders e).count x) :
    ∀ (as : Alts) (n : Nat) (x : Name),
    (bindersAlts (splitAlts post as n).1).count x ≤
      (bindersAlts as).count x + (anfNames n (splitAlts post as n).2).count x
  | .nil, n, x => by simp [splitAlts, bindersAlts]
  | .cons ts y e as, n, x => by
    have h1 := split_binders hpost e n x
    have h2 := splitAlts_binders hpost as (split post e n).next x
    have h3 := count_anfNames (split_next_le post e n) (splitAlts_next_le post as (split post e n).next) x
    simp only [splitAlts, bindersAlts, List.count_append, List.count_cons, Split.plug, binders_plug]
    omega
end

end Verif.Mir
