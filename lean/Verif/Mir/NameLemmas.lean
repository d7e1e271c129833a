import Verif.Mir.AlphaUnique
import Verif.Mir.FreeVariables

namespace Verif.Mir

mutual
theorem free_names : ∀ (e : Expr) (x : Name), x ∈ free e → x ∈ names e
  | .literal _, x, h => by simp [free] at h
  | .variable _, x, h => h
  | .op _ es, x, h => freeExprs_names es x h
  | .case e as, x, h => by
    simp only [free, names, List.mem_append] at h ⊢
    exact h.imp (free_names e x) (freeAlts_names as x)
  | .if_ c t e, x, h => by
    simp only [free, names, List.mem_append] at h ⊢
    exact h.imp (fun h => h.imp (free_names c x) (free_names t x)) (free_names e x)
  | .let_ y e b, x, h => by
    simp only [free, names, List.mem_append, List.mem_filter, List.cons_append, List.mem_cons] at h ⊢
    exact Or.inr (h.imp (free_names e x) (fun h => free_names b x h.1))
  | .letRec f env args th body b, x, h => by
    simp only [free, names, List.mem_append, List.mem_filter, List.cons_append, List.mem_cons] at h ⊢
    rcases h.1 with h | h
    · exact Or.inr (Or.inl (Or.inr (free_names body x h.1)))
    · exact Or.inr (Or.inr (free_names b x h))
  | .try_ e y t b, x, h => by
    simp only [free, names, List.mem_append, List.mem_filter, List.cons_append, List.mem_cons] at h ⊢
    exact Or.inr (h.imp (free_names e x) (fun h => free_names b x h.1))
  | .clone _ e, x, h => free_names e x h
  | .drop _ e, x, h => free_names e x h
theorem freeExprs_names : ∀ (es : Exprs) (x : Name), x ∈ freeExprs es → x ∈ namesExprs es
  | .nil, x, h => by simp [freeExprs] at h
  | .cons e es, x, h => by
    simp only [freeExprs, namesExprs, List.mem_append] at h ⊢
    exact h.imp (free_names e x) (freeExprs_names es x)
theorem freeAlts_names : ∀ (as : Alts) (x : Name), x ∈ freeAlts as → x ∈ namesAlts as
  | .nil, x, h => by simp [freeAlts] at h
  | .cons ts y e as, x, h => by
    simp only [freeAlts, namesAlts, List.mem_append, List.mem_filter, List.cons_append, List.mem_cons] at h ⊢
    exact Or.inr (h.imp (fun h => free_names e x h.1) (freeAlts_names as x))
end

mutual
theorem binders_names : ∀ (e : Expr) (x : Name), x ∈ binders e → x ∈ names e
  | .literal _, x, h => by simp [binders] at h
  | .variable _, x, h => by simp [binders] at h
  | .op _ es, x, h => bindersExprs_names es x h
  | .case e as, x, h => by
    simp only [binders, names, List.mem_append] at h ⊢
    exact h.imp (binders_names e x) (bindersAlts_names as x)
  | .if_ c t e, x, h => by
    simp only [binders, names, List.mem_append] at h ⊢
    rcases h with h | h | h
    · exact Or.inl (Or.inl (binders_names c x h))
    · exact Or.inl (Or.inr (binders_names t x h))
    · exact Or.inr (binders_names e x h)
  | .let_ y e b, x, h => by
    simp only [binders, names, List.mem_append, List.cons_append, List.mem_cons] at h ⊢
    exact h.imp id (fun h => h.imp (binders_names e x) (binders_names b x))
  | .letRec f env args th body b, x, h => by
    simp only [binders, names, List.mem_append, List.cons_append, List.mem_cons] at h ⊢
    rcases h with h | h | h | h
    · exact Or.inl h
    · exact Or.inr (Or.inl (Or.inl h))
    · exact Or.inr (Or.inl (Or.inr (binders_names body x h)))
    · exact Or.inr (Or.inr (binders_names b x h))
  | .try_ e y t b, x, h => by
    simp only [binders, names, List.mem_append, List.cons_append, List.mem_cons] at h ⊢
    exact h.imp id (fun h => h.imp (binders_names e x) (binders_names b x))
  | .clone _ e, x, h => binders_names e x h
  | .drop _ e, x, h => binders_names e x h
theorem bindersExprs_names : ∀ (es : Exprs) (x : Name), x ∈ bindersExprs es → x ∈ namesExprs es
  | .nil, x, h => by simp [bindersExprs] at h
  | .cons e es, x, h => by
    simp only [bindersExprs, namesExprs, List.mem_append] at h ⊢
    exact h.imp (binders_names e x) (bindersExprs_names es x)
theorem bindersAlts_names : ∀ (as : Alts) (x : Name), x ∈ bindersAlts as → x ∈ namesAlts as
  | .nil, x, h => by simp [bindersAlts] at h
  | .cons ts y e as, x, h => by
    simp only [bindersAlts, namesAlts, List.mem_append, List.cons_append, List.mem_cons] at h ⊢
    exact h.imp id (fun h => h.imp (binders_names e x) (bindersAlts_names as x))
end

end Verif.Mir
