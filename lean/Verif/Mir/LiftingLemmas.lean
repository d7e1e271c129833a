import Verif.Mir.Lifting
import Verif.Mir.Names
import Verif.Mir.Pointwise
import Verif.Mir.ConversionLemmas
import Verif.Mir.FreeVariablesLemmas

namespace Verif.Mir

/-! ### Names -/

/-- A name that lambda lifting does not generate. -/
def Plain (x : Name) : Prop := (∀ y i, x ≠ fvName y i) ∧ ∀ i f, x ≠ liftName i f

theorem plain_of_no_colon {x : Name} (h : ':' ∉ x.toList) : Plain x := by
  constructor
  · rintro y i rfl
    simp [fvName] at h
  · rintro i f rfl
    simp [liftName] at h

theorem fvName_inj {x y : Name} {i j : Nat} (h : fvName x i = fvName y j) : x = y ∧ i = j := by
  obtain ⟨h1, h2⟩ := numbered_inj h
  have := congrArg String.toList h1
  simp only [String.toList_append, List.append_cancel_left_eq] at this
  exact ⟨String.toList_injective this, h2⟩

theorem prefix_split {a b d e : List Char} (hd : ':' ∉ a) (he : ':' ∉ b) (h : a ++ ':' :: d = b ++ ':' :: e) :
    a = b ∧ d = e := by
  rcases List.append_eq_append_iff.mp h with ⟨c, h1, h2⟩ | ⟨c, h1, h2⟩
  · cases c with
    | nil => simp at h1 h2; exact ⟨h1.symm, h2⟩
    | cons x c =>
      simp only [List.cons_append, List.cons.injEq] at h2
      exact absurd (h1 ▸ h2.1 ▸ by simp) he
  · cases c with
    | nil => simp at h1 h2; exact ⟨h1, h2.symm⟩
    | cons x c =>
      simp only [List.cons_append, List.cons.injEq] at h2
      exact absurd (h1 ▸ h2.1 ▸ by simp) hd

theorem liftName_inj {f g : Name} {i j : Nat} (h : liftName i f = liftName j g) : i = j ∧ f = g := by
  have h1 := congrArg String.toList h
  simp only [liftName, String.toList_append, List.append_assoc, List.append_cancel_left_eq] at h1
  obtain ⟨h2, h3⟩ := prefix_split (colon_not_in_digits i) (colon_not_in_digits j) h1
  exact ⟨Nat.repr_injective (String.toList_injective h2), String.toList_injective h3⟩

theorem fvName_ne_liftName (x : Name) (i j : Nat) (f : Name) : fvName x i ≠ liftName j f := by
  intro h
  have h1 := congrArg String.toList h
  simp [fvName, liftName, String.toList_append] at h1

/-- Names that have been generated for free variables. -/
def Saved (n : Nat) (x : Name) : Prop := ∃ y i, i < n ∧ x = fvName y i

theorem mem_renameFree : ∀ {env : List Name} {n : Nat} {y : Name}, y ∈ renameFree env n →
    ∃ x i, n ≤ i ∧ i < n + env.length ∧ y = fvName x i
  | [], n, y, h => by simp [renameFree] at h
  | x :: env, n, y, h => by
    simp only [renameFree, List.mem_cons] at h
    rcases h with rfl | h
    · exact ⟨x, n, Nat.le_refl _, by simp, rfl⟩
    · obtain ⟨z, i, h1, h2, h3⟩ := mem_renameFree h
      exact ⟨z, i, by omega, by simp only [List.length_cons]; omega, h3⟩

theorem renameFree_nodup : ∀ (env : List Name) (n : Nat), (renameFree env n).Nodup
  | [], n => by simp [renameFree]
  | x :: env, n => by
    simp only [renameFree, List.nodup_cons]
    refine ⟨fun h => ?_, renameFree_nodup env _⟩
    obtain ⟨y, i, h1, h2, h3⟩ := mem_renameFree h
    have := (fvName_inj h3).2
    omega

theorem renameFree_length : ∀ (env : List Name) (n : Nat), (renameFree env n).length = env.length
  | [], n => rfl
  | x :: env, n => by simp [renameFree, renameFree_length]

/-! ### Programs that can be lifted -/

mutual
/-- No name is one that the pass generates; environments of local functions consist of different variables in scope
other than the function and its arguments; no function has the name of its argument. -/
def liftable : List Name → Expr → Prop
  | _, .literal _ => True
  | _, .variable x => Plain x
  | scope, .op _ es => liftableExprs scope es
  | scope, .case e as => liftable scope e ∧ liftableAlts scope as
  | scope, .if_ c t e => liftable scope c ∧ liftable scope t ∧ liftable scope e
  | scope, .let_ x e b => Plain x ∧ liftable scope e ∧ liftable (x :: scope) b
  | scope, .letRec f env args _ body b => (∀ x ∈ f :: args ++ env, Plain x) ∧ f ∉ args ∧ env.Nodup ∧
      (∀ x ∈ env, x ∈ scope ∧ x ≠ f ∧ x ∉ args) ∧ liftable (f :: args ++ env) body ∧ liftable (f :: scope) b
  | scope, .try_ e x _ b => Plain x ∧ liftable scope e ∧ liftable (x :: scope) b
  | scope, .clone _ e => liftable scope e
  | scope, .drop _ e => liftable scope e
def liftableExprs : List Name → Exprs → Prop
  | _, .nil => True
  | scope, .cons e es => liftable scope e ∧ liftableExprs scope es
def liftableAlts : List Name → Alts → Prop
  | _, .nil => True
  | scope, .cons _ x e as => Plain x ∧ liftable (x :: scope) e ∧ liftableAlts scope as
end

/-! ### The relation between expressions and lifted ones -/

/-- Lifted local functions with the names of their saved free variables. -/
abbrev Lam := Name → Option (List Name)

def Lam.empty : Lam := fun _ => none
def Lam.erase (m : Lam) (x : Name) : Lam := fun y => if y = x then none else m y
def Lam.put (m : Lam) (x : Name) (xs : List Name) : Lam := fun y => if y = x then some xs else m y

mutual
inductive L (T : Program) (N : Name → Prop) : List Name → Lam → Expr → Expr → Prop
  | literal {sc : List Name} {m : Lam} (l : Literal) : L T N sc m (.literal l) (.literal l)
  | variable {sc : List Name} {m : Lam} {x : Name} : Plain x → m x = none → L T N sc m (.variable x) (.variable x)
  | op {sc : List Name} {m : Lam} (o : Op) {es es' : Exprs} : Ls T N sc m es es' → L T N sc m (.op o es) (.op o es')
  | call {sc : List Name} {m : Lam} {f : Name} {xs : List Name} {es es' : Exprs} : m f = some xs → Ls T N sc m es es' →
    L T N sc m (.op .call (.cons (.variable f) es)) (.op .call (.cons (.variable f) (es'.append (variables xs))))
  | case {sc : List Name} {m : Lam} {e e' : Expr} {as as' : Alts} : L T N sc m e e' → LAlts T N sc m as as' →
    L T N sc m (.case e as) (.case e' as')
  | if_ {sc : List Name} {m : Lam} {c c' t t' e e' : Expr} : L T N sc m c c' → L T N sc m t t' → L T N sc m e e' →
    L T N sc m (.if_ c t e) (.if_ c' t' e')
  | let_ {sc : List Name} {m : Lam} {x : Name} {e e' b b' : Expr} : Plain x → L T N sc m e e' →
    L T N (x :: sc) (m.erase x) b b' → L T N sc m (.let_ x e b) (.let_ x e' b')
  | try_ {sc : List Name} {m : Lam} {x : Name} (t : TypeId) {e e' b b' : Expr} : Plain x → L T N sc m e e' →
    L T N (x :: sc) (m.erase x) b b' → L T N sc m (.try_ e x t b) (.try_ e' x t b')
  | clone {sc : List Name} {m : Lam} (xs : List Name) {e e' : Expr} : L T N sc m e e' →
    L T N sc m (.clone xs e) (.clone xs e')
  | drop {sc : List Name} {m : Lam} (xs : List Name) {e e' : Expr} : L T N sc m e e' →
    L T N sc m (.drop xs e) (.drop xs e')
  | keep {sc : List Name} {m : Lam} {f : Name} {env args : List Name} {th : Bool} {body body' b b' : Expr} :
    (∀ x ∈ f :: args ++ env, Plain x) → (∀ x ∈ env, x ∈ sc ∧ m x = none) →
    L T N (f :: args ++ env) .empty body body' → L T N (f :: sc) (m.erase f) b b' →
    L T N sc m (.letRec f env args th body b) (.letRec f env args th body' b')
  | liftEmpty {sc : List Name} {m : Lam} {f : Name} {args : List Name} {th : Bool} {body body' b b' : Expr} {i : Nat} :
    (∀ x ∈ f :: args, Plain x) → f ∉ args →
    T.find (liftName i f) = some ⟨liftName i f, args, th, .let_ f (.variable (liftName i f)) body'⟩ →
    L T N (f :: args) .empty body body' → L T N (f :: sc) (m.erase f) b b' →
    L T N sc m (.letRec f [] args th body b) (.let_ f (.variable (liftName i f)) b')
  | lift {sc : List Name} {m : Lam} {f : Name} {env args xs : List Name} {body body' b b' : Expr} {i : Nat} :
    (∀ x ∈ f :: args ++ env, Plain x) → f ∉ args → (∀ x ∈ env, x ≠ f ∧ x ∉ args) → env.Nodup →
    (∀ x ∈ env, x ∈ sc ∧ m x = none) →
    xs.length = env.length → xs.Nodup → (∀ x ∈ xs, (∃ y i, x = fvName y i) ∧ N x) →
    (∀ h ys, m h = some ys → ∀ y ∈ ys, y ∉ xs) →
    T.find (liftName i f) = some ⟨liftName i f, args ++ env, false, .let_ f (.variable (liftName i f)) (save env xs body')⟩ →
    L T N (f :: args ++ env) (Lam.empty.put f xs) body body' → L T N (f :: sc) (m.put f xs) b b' →
    L T N sc m (.letRec f env args false body b) (.let_ f (.variable (liftName i f)) (save env xs b'))
inductive Ls (T : Program) (N : Name → Prop) : List Name → Lam → Exprs → Exprs → Prop
  | nil {sc : List Name} {m : Lam} : Ls T N sc m .nil .nil
  | cons {sc : List Name} {m : Lam} {e e' : Expr} {es es' : Exprs} : L T N sc m e e' → Ls T N sc m es es' →
    Ls T N sc m (.cons e es) (.cons e' es')
inductive LAlts (T : Program) (N : Name → Prop) : List Name → Lam → Alts → Alts → Prop
  | nil {sc : List Name} {m : Lam} : LAlts T N sc m .nil .nil
  | cons {sc : List Name} {m : Lam} (ts : Option (List TypeId)) {x : Name} {e e' : Expr} {as as' : Alts} : Plain x →
    L T N (x :: sc) (m.erase x) e e' → LAlts T N sc m as as' → LAlts T N sc m (.cons ts x e as) (.cons ts x e' as')
end

mutual
theorem L.mono {T : Program} {N N' : Name → Prop} (hN : ∀ x, N x → N' x) : ∀ {sc : List Name} {m : Lam} {e e' : Expr},
    L T N sc m e e' → L T N' sc m e e'
  | _, _, _, _, .literal l => .literal l
  | _, _, _, _, .variable h1 h2 => .variable h1 h2
  | _, _, _, _, .op o h => .op o (h.mono hN)
  | _, _, _, _, .call h1 h2 => .call h1 (h2.mono hN)
  | _, _, _, _, .case h1 h2 => .case (h1.mono hN) (h2.mono hN)
  | _, _, _, _, .if_ h1 h2 h3 => .if_ (h1.mono hN) (h2.mono hN) (h3.mono hN)
  | _, _, _, _, .let_ h1 h2 h3 => .let_ h1 (h2.mono hN) (h3.mono hN)
  | _, _, _, _, .try_ t h1 h2 h3 => .try_ t h1 (h2.mono hN) (h3.mono hN)
  | _, _, _, _, .clone xs h => .clone xs (h.mono hN)
  | _, _, _, _, .drop xs h => .drop xs (h.mono hN)
  | _, _, _, _, .keep h1 h2 h3 h4 => .keep h1 h2 (h3.mono hN) (h4.mono hN)
  | _, _, _, _, .liftEmpty h1 h2 h3 h4 h5 => .liftEmpty h1 h2 h3 (h4.mono hN) (h5.mono hN)
  | _, _, _, _, .lift h1 h2 h3 h4 h5 h6 h7 h8 h9 h10 h11 h12 =>
    .lift h1 h2 h3 h4 h5 h6 h7 (fun x hx => ⟨(h8 x hx).1, hN x (h8 x hx).2⟩) h9 h10 (h11.mono hN) (h12.mono hN)
theorem Ls.mono {T : Program} {N N' : Name → Prop} (hN : ∀ x, N x → N' x) : ∀ {sc : List Name} {m : Lam} {e e' : Exprs},
    Ls T N sc m e e' → Ls T N' sc m e e'
  | _, _, _, _, .nil => .nil
  | _, _, _, _, .cons h1 h2 => .cons (h1.mono hN) (h2.mono hN)
theorem LAlts.mono {T : Program} {N N' : Name → Prop} (hN : ∀ x, N x → N' x) : ∀ {sc : List Name} {m : Lam} {e e' : Alts},
    LAlts T N sc m e e' → LAlts T N' sc m e e'
  | _, _, _, _, .nil => .nil
  | _, _, _, _, .cons ts h1 h2 h3 => .cons ts h1 (h2.mono hN) (h3.mono hN)
end

/-! ### Adding arguments to calls -/

theorem save_isBoxed {f : Name} {b : Expr} : ∀ {env xs : List Name}, xs.length = env.length → f ∉ xs →
    isBoxed f (save env xs b) = false → f ∉ env ∧ isBoxed f b = false
  | [], [], _, _, h => ⟨by simp, h⟩
  | [], _ :: _, h, _, _ => by simp at h
  | _ :: _, [], h, _, _ => by simp at h
  | x :: env, y :: xs, hl, hf, h => by
    simp only [save, isBoxed, Bool.or_eq_false_iff, beq_eq_false_iff_ne, ne_eq, Bool.and_eq_false_iff,
      bne_eq_false_iff_eq, List.mem_cons, not_or] at h hf ⊢
    obtain ⟨h1, h2⟩ := save_isBoxed (env := env) (xs := xs) (by simpa using hl) hf.2
      (h.2.resolve_left fun h => hf.1 h.symm)
    exact ⟨⟨fun h' => h.1 h'.symm, h1⟩, h2⟩

theorem callTransform_save {f : Name} {ys : List Name} {b : Expr} : ∀ {env xs : List Name}, f ∉ xs →
    callTransform f ys (save env xs b) = save env xs (callTransform f ys b)
  | [], _, _ => by simp [save]
  | _ :: _, [], _ => by simp [save]
  | x :: env, y :: xs, hf => by
    simp only [List.mem_cons, not_or] at hf
    simp only [save, callTransform, if_neg (fun h => hf.1 (Eq.symm h)), callTransform_save hf.2]

theorem isBoxedExprs_append {f : Name} : ∀ (es fs : Exprs), isBoxedExprs f (es.append fs) = (isBoxedExprs f es || isBoxedExprs f fs)
  | .nil, fs => by simp [Exprs.append, isBoxedExprs]
  | .cons e es, fs => by simp [Exprs.append, isBoxedExprs, isBoxedExprs_append es fs, Bool.or_assoc]

theorem callTransformExprs_append {f : Name} {ys : List Name} : ∀ (es fs : Exprs),
    callTransformExprs f ys (es.append fs) = (callTransformExprs f ys es).append (callTransformExprs f ys fs)
  | .nil, fs => by simp [Exprs.append, callTransformExprs]
  | .cons e es, fs => by simp [Exprs.append, callTransformExprs, callTransformExprs_append es fs]

theorem callTransformExprs_variables {f : Name} {ys : List Name} : ∀ (xs : List Name),
    callTransformExprs f ys (variables xs) = variables xs
  | [] => by simp [variables, callTransformExprs]
  | x :: xs => by simp [variables, callTransformExprs, callTransform, callTransformExprs_variables xs]

theorem Lam.put_erase {m : Lam} {f : Name} {ys : List Name} {x : Name} (h : x ≠ f) :
    (m.put f ys).erase x = (m.erase x).put f ys := by
  funext y; simp only [Lam.put, Lam.erase]; split <;> split <;> simp_all

theorem Lam.put_erase_self {m : Lam} {f : Name} {ys : List Name} : (m.put f ys).erase f = m.erase f := by
  funext y; simp only [Lam.put, Lam.erase]; split <;> simp_all

theorem Lam.put_put {m : Lam} {f : Name} {ys : List Name} {x : Name} {xs : List Name} (h : x ≠ f) :
    (m.put f ys).put x xs = (m.put x xs).put f ys := by
  funext y; simp only [Lam.put]; split <;> split <;> simp_all

theorem Lam.put_put_self {m : Lam} {f : Name} {ys xs : List Name} : (m.put f ys).put f xs = m.put f xs := by
  funext y; simp only [Lam.put]; split <;> simp_all

theorem Exprs.calls_inv {f : Name} {es : Exprs} (h : es.calls f = true) : ∃ es', es = .cons (.variable f) es' := by
  match es, h with
  | .cons (.variable g) es, h => simp only [Exprs.calls, beq_iff_eq] at h; subst h; exact ⟨es, rfl⟩

mutual
theorem callTransform_L {T : Program} {N : Name → Prop} {f : Name} {ys : List Name} (hf : Plain f)
    (hy : ∀ y ∈ ys, ¬N y) : ∀ {sc : List Name} {m : Lam} {e e' : Expr}, m f = none → L T N sc m e e' →
      isBoxed f e' = false → L T N sc (m.put f ys) e (callTransform f ys e')
  | _, _, _, _, _, .literal l, _ => .literal l
  | _, m, _, _, hm, .variable (x := x) h1 h2, hb => by
    simp only [isBoxed, beq_eq_false_iff_ne, ne_eq] at hb
    exact .variable h1 (by simp only [Lam.put, if_neg hb, h2])
  | sc, m, _, _, hm, .op o (es := es) (es' := es') h, hb => by
    simp only [callTransform]
    split
    · rename_i hc
      obtain ⟨rfl, hc⟩ := hc
      obtain ⟨as', rfl⟩ := Exprs.calls_inv hc
      cases h with
      | cons h1 h2 =>
        simp only [isBoxed, if_true, isBoxedCall, Expr.isVariable, Bool.not_true, Bool.false_and, Bool.false_or] at hb
        have := callTransform_Ls hf hy hm h2 hb
        cases h1 with
        | «variable» h3 h4 =>
          simp only [callTransformExprs, Exprs.append, callTransform]
          exact .call (by simp [Lam.put]) this
    · rename_i hc
      refine .op o (callTransform_Ls hf hy hm h ?_)
      by_cases ho : o = .call
      · subst ho
        simp only [true_and] at hc
        cases es' with
        | nil => simp [isBoxedExprs]
        | cons e es =>
          simp only [isBoxed, if_true, isBoxedCall, Bool.or_eq_false_iff, Bool.and_eq_false_iff] at hb
          simp only [isBoxedExprs, Bool.or_eq_false_iff]
          refine ⟨?_, hb.2⟩
          rcases hb.1 with h' | h'
          · cases e <;> simp only [Expr.isVariable, Bool.not_true, Bool.not_false, Bool.true_eq_false, reduceCtorEq] at h'
            simp only [Exprs.calls] at hc
            simp only [isBoxed]
            simpa using hc
          · exact h'
      · simpa only [isBoxed, if_neg ho] using hb
  | _, m, _, _, hm, .call (f := g) (xs := xs) (es' := es') h1 h2, hb => by
    have hg : g ≠ f := by rintro rfl; simp [hm] at h1
    simp only [isBoxed, if_true, isBoxedCall, Expr.isVariable, Bool.not_true, Bool.false_and, Bool.false_or,
      isBoxedExprs_append, Bool.or_eq_false_iff] at hb
    have := callTransform_Ls hf hy hm h2 hb.1
    simp only [callTransform, Exprs.calls, beq_iff_eq, hg, and_false, if_false, callTransformExprs,
      callTransformExprs_append, callTransformExprs_variables]
    exact .call (by simp only [Lam.put, if_neg hg, h1]) this
  | _, _, _, _, hm, .case h1 h2, hb => by
    simp only [isBoxed, Bool.or_eq_false_iff] at hb
    exact .case (callTransform_L hf hy hm h1 hb.1) (callTransform_LAlts hf hy hm h2 hb.2)
  | _, _, _, _, hm, .if_ h1 h2 h3, hb => by
    simp only [isBoxed, Bool.or_eq_false_iff] at hb
    exact .if_ (callTransform_L hf hy hm h1 hb.1.1) (callTransform_L hf hy hm h2 hb.1.2) (callTransform_L hf hy hm h3 hb.2)
  | _, m, _, _, hm, .let_ (x := x) h1 h2 h3, hb => by
    simp only [isBoxed, Bool.or_eq_false_iff, Bool.and_eq_false_iff, bne_eq_false_iff_eq] at hb
    simp only [callTransform]
    refine .let_ h1 (callTransform_L hf hy hm h2 hb.1) ?_
    by_cases hx : x = f
    · rw [if_pos hx]; subst hx; rw [Lam.put_erase_self]; exact h3
    · rw [if_neg hx, Lam.put_erase hx]
      exact callTransform_L hf hy (by simp only [Lam.erase]; split <;> simp [hm]) h3 (hb.2.resolve_left hx)
  | _, m, _, _, hm, .try_ (x := x) t h1 h2 h3, hb => by
    simp only [isBoxed, Bool.or_eq_false_iff] at hb
    simp only [callTransform]
    refine .try_ t h1 (callTransform_L hf hy hm h2 hb.1) ?_
    by_cases hx : x = f
    · rw [if_pos hx]; subst hx; rw [Lam.put_erase_self]; exact h3
    · rw [if_neg hx, Lam.put_erase hx]
      exact callTransform_L hf hy (by simp only [Lam.erase]; split <;> simp [hm]) h3 hb.2
  | _, _, _, _, hm, .clone xs h, hb => .clone xs (callTransform_L hf hy hm h hb)
  | _, _, _, _, hm, .drop xs h, hb => .drop xs (callTransform_L hf hy hm h hb)
  | _, m, _, _, hm, .keep (f := g) (env := env) h1 h2 h3 h4, hb => by
    simp only [isBoxed, Bool.or_eq_false_iff, Bool.and_eq_false_iff, bne_eq_false_iff_eq, List.contains_eq_mem,
      decide_eq_false_iff_not] at hb
    simp only [callTransform]
    refine .keep h1 (fun x hx => ⟨(h2 x hx).1, ?_⟩) h3 ?_
    · have : x ≠ f := fun h => hb.1 (h ▸ hx)
      simp only [Lam.put, if_neg this, (h2 x hx).2]
    · by_cases hx : g = f
      · rw [if_pos hx]; subst hx; rw [Lam.put_erase_self]; exact h4
      · rw [if_neg hx, Lam.put_erase hx]
        exact callTransform_L hf hy (by simp only [Lam.erase]; split <;> simp [hm]) h4 (hb.2.resolve_left hx)
  | _, m, _, _, hm, .liftEmpty (f := g) h1 h2 h3 h4 h5, hb => by
    simp only [isBoxed, Bool.or_eq_false_iff, Bool.and_eq_false_iff, bne_eq_false_iff_eq] at hb
    simp only [callTransform]
    refine .liftEmpty h1 h2 h3 h4 ?_
    by_cases hx : g = f
    · rw [if_pos hx]; subst hx; rw [Lam.put_erase_self]; exact h5
    · rw [if_neg hx, Lam.put_erase hx]
      exact callTransform_L hf hy (by simp only [Lam.erase]; split <;> simp [hm]) h5 (hb.2.resolve_left hx)
  | _, m, _, _, hm, .lift (f := g) (env := env) (xs := xs) h1 h2 h3 h4 h5 h6 h7 h8 h9 h10 h11 h12, hb => by
    have hfx : f ∉ xs := fun h => by
      obtain ⟨⟨y, i, h'⟩, _⟩ := h8 f h
      exact hf.1 y i h'
    simp only [isBoxed, Bool.or_eq_false_iff, Bool.and_eq_false_iff, bne_eq_false_iff_eq] at hb
    simp only [callTransform]
    have hd : ∀ h zs, (m.put f ys) h = some zs → ∀ y ∈ zs, y ∉ xs := by
      intro h zs hz y hyz hyx
      simp only [Lam.put] at hz
      split at hz
      · cases hz; exact hy y hyz (h8 y hyx).2
      · exact h9 h zs hz y hyz hyx
    by_cases hx : g = f
    · rw [if_pos hx]
      subst hx
      refine .lift h1 h2 h3 h4 (fun x hx => ⟨(h5 x hx).1, ?_⟩) h6 h7 h8 hd h10 h11 (by rw [Lam.put_put_self]; exact h12)
      simp only [Lam.put, if_neg (h3 x hx).1, (h5 x hx).2]
    · rw [if_neg hx, callTransform_save hfx]
      obtain ⟨h13, h14⟩ := save_isBoxed h6 hfx (hb.2.resolve_left hx)
      refine .lift h1 h2 h3 h4 (fun x hx => ⟨(h5 x hx).1, ?_⟩) h6 h7 h8 hd h10 h11 ?_
      · have : x ≠ f := fun h => h13 (h ▸ hx)
        simp only [Lam.put, if_neg this, (h5 x hx).2]
      · rw [Lam.put_put hx]
        exact callTransform_L hf hy (by simp only [Lam.put]; rw [if_neg (Ne.symm hx)]; exact hm) h12 h14
theorem callTransform_Ls {T : Program} {N : Name → Prop} {f : Name} {ys : List Name} (hf : Plain f)
    (hy : ∀ y ∈ ys, ¬N y) : ∀ {sc : List Name} {m : Lam} {e e' : Exprs}, m f = none → Ls T N sc m e e' →
      isBoxedExprs f e' = false → Ls T N sc (m.put f ys) e (callTransformExprs f ys e')
  | _, _, _, _, _, .nil, _ => .nil
  | _, _, _, _, hm, .cons h1 h2, hb => by
    simp only [isBoxedExprs, Bool.or_eq_false_iff] at hb
    exact .cons (callTransform_L hf hy hm h1 hb.1) (callTransform_Ls hf hy hm h2 hb.2)
theorem callTransform_LAlts {T : Program} {N : Name → Prop} {f : Name} {ys : List Name} (hf : Plain f)
    (hy : ∀ y ∈ ys, ¬N y) : ∀ {sc : List Name} {m : Lam} {e e' : Alts}, m f = none → LAlts T N sc m e e' →
      isBoxedAlts f e' = false → LAlts T N sc (m.put f ys) e (callTransformAlts f ys e')
  | _, _, _, _, _, .nil, _ => .nil
  | _, m, _, _, hm, .cons ts (x := x) h1 h2 h3, hb => by
    simp only [isBoxedAlts, Bool.or_eq_false_iff, Bool.and_eq_false_iff, bne_eq_false_iff_eq] at hb
    refine .cons ts h1 ?_ (callTransform_LAlts hf hy hm h3 hb.2)
    by_cases hx : x = f
    · rw [if_pos hx]; subst hx; rw [Lam.put_erase_self]; exact h2
    · rw [if_neg hx, Lam.put_erase hx]
      exact callTransform_L hf hy (by simp only [Lam.erase]; split <;> simp [hm]) h2 (hb.1.resolve_left hx)
end

end Verif.Mir
