import Verif.Lower.Relation
import Verif.Mir.WholeProperties

/-!
# Lowered programs are what the middle end expects

`FrontEnd` (`Mir/WholeProperties.lean`) is what the passes of the middle end assume. Lowering establishes it for modules
whose names are in scope and not bound again.
-/

namespace Verif.Mir

mutual
theorem names_cases : ∀ (e : Expr) {x : Name}, x ∈ names e → x ∈ binders e ∨ x ∈ free e
  | .literal _, _, h => by simp [names] at h
  | .variable _, _, h => Or.inr (by simpa [names, free] using h)
  | .op _ es, _, h => namesExprs_cases es h
  | .case e as, x, h => by
    simp only [names, List.mem_append] at h
    simp only [binders, free, List.mem_append]
    have h1 := @names_cases e x
    have h2 := @namesAlts_cases as x
    tauto
  | .if_ c t e, x, h => by
    simp only [names, List.mem_append] at h
    simp only [binders, free, List.mem_append]
    have h1 := @names_cases c x
    have h2 := @names_cases t x
    have h3 := @names_cases e x
    tauto
  | .let_ y e b, x, h => by
    simp only [names, List.mem_append, List.mem_cons] at h
    simp only [binders, free, List.mem_append, List.mem_cons, List.mem_filter, bne_iff_ne]
    have h1 := @names_cases e x
    have h2 := @names_cases b x
    tauto
  | .letRec f env args th body b, x, h => by
    simp only [names, List.mem_append, List.mem_cons] at h
    simp only [binders, free, List.mem_append, List.mem_cons, List.mem_filter, bne_iff_ne, Bool.and_eq_true, List.all_eq_true]
    have h1 := @names_cases body x
    have h2 := @names_cases b x
    have h3 : x ∈ args ∨ ∀ y ∈ args, x ≠ y := by
      by_cases hx : x ∈ args
      · exact Or.inl hx
      · exact Or.inr fun y hy he => hx (he ▸ hy)
    tauto
  | .try_ e y _ b, x, h => by
    simp only [names, List.mem_append, List.mem_cons] at h
    simp only [binders, free, List.mem_append, List.mem_cons, List.mem_filter, bne_iff_ne]
    have h1 := @names_cases e x
    have h2 := @names_cases b x
    tauto
  | .clone _ e, _, h => names_cases e h
  | .drop _ e, _, h => names_cases e h
theorem namesExprs_cases : ∀ (es : Exprs) {x : Name}, x ∈ namesExprs es → x ∈ bindersExprs es ∨ x ∈ freeExprs es
  | .nil, _, h => by simp [namesExprs] at h
  | .cons e es, x, h => by
    simp only [namesExprs, List.mem_append] at h
    simp only [bindersExprs, freeExprs, List.mem_append]
    have h1 := @names_cases e x
    have h2 := @namesExprs_cases es x
    tauto
theorem namesAlts_cases : ∀ (as : Alts) {x : Name}, x ∈ namesAlts as → x ∈ bindersAlts as ∨ x ∈ freeAlts as
  | .nil, _, h => by simp [namesAlts] at h
  | .cons _ y e as, x, h => by
    simp only [namesAlts, List.mem_append, List.mem_cons] at h
    simp only [bindersAlts, freeAlts, List.mem_append, List.mem_cons, List.mem_filter, bne_iff_ne]
    have h1 := @names_cases e x
    have h2 := @namesAlts_cases as x
    tauto
end

end Verif.Mir

namespace Verif.Lower

open Verif.Hir (Ty Ctx Expr Module Definition RecordField)
open Verif

/-! ## Source programs -/

/-- Names that expressions in a function with the arguments `A` can bind. -/
def binder (A : List String) (x : String) : Bool := !x.toList.contains ':' && !A.contains x

/-- `tidy`, given how subexpressions are checked. -/
def tidyStep (A : List String) (rec : List String → Expr → Bool) (Γ : List String) : Expr → Bool
  | .variable x => Γ.contains x
  | .call _ f args => rec Γ f && args.all (rec Γ)
  | .builtInCall _ _ args => args.all (rec Γ)
  | .if_ c t e => rec Γ c && rec Γ t && rec Γ e
  | .ifType x e bs else_ => binder A x && (!bs.isEmpty || else_.isSome) && rec Γ e && bs.all (fun b => rec (x :: Γ) b.2) &&
    else_.all fun b => rec (x :: Γ) b.2
  | .lambda params _ body => params.all (fun p => binder A p.1) && decide (params.map (·.1)).Nodup &&
    rec (params.map (·.1) ++ Γ) body
  | .let_ x _ e b => x.all (binder A) && rec Γ e && rec (x.getD "" :: Γ) b
  | .addition _ l r => rec Γ l && rec Γ r
  | .arithmetic _ l r => rec Γ l && rec Γ r
  | .booleanOp _ l r => rec Γ l && rec Γ r
  | .equality _ _ l r => rec Γ l && rec Γ r
  | .not e => rec Γ e
  | .order _ l r => rec Γ l && rec Γ r
  | .try_ _ e => rec Γ e
  | .record _ fields => fields.all fun f => !f.1.toList.contains ':' && rec Γ f.2
  | .deconstruct _ e _ => rec Γ e
  | .update _ e fields => rec Γ e && decide (fields.map (·.1)).Nodup && fields.all fun f => rec Γ f.2
  | .coercion _ _ e => rec Γ e
  | _ => true

/-- Names in an expression are in scope or bound by it, and not bound if they are in `A`. Fields are given once in a record
update. -/
def tidy (A : List String) : Nat → List String → Expr → Bool
  | 0, _, _ => false
  | d + 1, Γ, e => tidyStep A (tidy A d) Γ e

/-- Names of functions that are defined or declared. -/
def globalNames (m : Module) : List String := m.declarations.map (·.1) ++ m.definitions.map (·.name)

/-- What is assumed about names in a module. -/
structure TidyModule (K : Config) (d : Nat) (m : Module) : Prop where
  stringEqual : K.stringEqual ∈ m.declarations.map (·.1)
  /-- Arguments are different and not names of functions. -/
  params : ∀ f ∈ m.definitions, (f.params.map (·.1)).Nodup ∧ ∀ p ∈ f.params, ':' ∉ p.1.toList ∧ internal p.1 = false ∧
    p.1 ∉ globalNames m
  /-- Names in bodies are in scope, and arguments are not bound again. -/
  bodies : ∀ f ∈ m.definitions, tidy (f.params.map (·.1)) d (f.params.map (·.1) ++ globalNames m) f.body = true
  /-- Names of functions are not ones that passes of the middle end make up. -/
  globals : ∀ x ∈ globalNames m, Mir.Plain x ∧ Mir.SourceName x

/-! ## Lowered expressions -/

/-- What the middle end expects of an expression in a scope. -/
structure Good (A Γ : List String) (e : Mir.Expr) : Prop where
  bound : ∀ x ∈ Mir.binders e, ':' ∉ x.toList ∧ x ∉ A
  closed : ∀ x ∈ Mir.free e, x ∈ Γ
  distinct : Mir.distinctArguments e
  environments : Mir.noEnvironments e
  shape : Mir.shaped e

/-- Operands. -/
structure Goods (A Γ : List String) (es : Mir.Exprs) : Prop where
  bound : ∀ x ∈ Mir.bindersExprs es, ':' ∉ x.toList ∧ x ∉ A
  closed : ∀ x ∈ Mir.freeExprs es, x ∈ Γ
  distinct : Mir.distinctArgumentsExprs es
  environments : Mir.noEnvironmentsExprs es
  shape : Mir.shapedExprs es

/-- Alternatives. -/
structure GoodAlts (A Γ : List String) (as : Mir.Alts) : Prop where
  bound : ∀ x ∈ Mir.bindersAlts as, ':' ∉ x.toList ∧ x ∉ A
  closed : ∀ x ∈ Mir.freeAlts as, x ∈ Γ
  distinct : Mir.distinctArgumentsAlts as
  environments : Mir.noEnvironmentsAlts as
  shape : Mir.shapedAlts as

section
variable {A Γ : List String}

theorem Good.literal (l) : Good A Γ (.literal l) := ⟨by simp [Mir.binders], by simp [Mir.free], trivial, trivial, trivial⟩

theorem Good.variable {x} (h : x ∈ Γ) : Good A Γ (.variable x) :=
  ⟨by simp [Mir.binders], by simpa [Mir.free] using h, trivial, trivial, trivial⟩

theorem Good.op {o es} (h : Goods A Γ es) (ho : Mir.Op.shaped o es) : Good A Γ (.op o es) :=
  ⟨h.bound, h.closed, h.distinct, h.environments, ho, h.shape⟩

theorem Goods.nil : Goods A Γ .nil := ⟨by simp [Mir.bindersExprs], by simp [Mir.freeExprs], trivial, trivial, trivial⟩

theorem Goods.cons {e es} (h : Good A Γ e) (hs : Goods A Γ es) : Goods A Γ (.cons e es) where
  bound x hx := by
    simp only [Mir.bindersExprs, List.mem_append] at hx
    exact hx.elim (h.bound x) (hs.bound x)
  closed x hx := by
    simp only [Mir.freeExprs, List.mem_append] at hx
    exact hx.elim (h.closed x) (hs.closed x)
  distinct := ⟨h.distinct, hs.distinct⟩
  environments := ⟨h.environments, hs.environments⟩
  shape := ⟨h.shape, hs.shape⟩

theorem Goods.ofList : ∀ {es : List Mir.Expr}, (∀ e ∈ es, Good A Γ e) → Goods A Γ (operands es)
  | [], _ => .nil
  | e :: es, h => .cons (h e (by simp)) (Goods.ofList fun e he => h e (by simp [he]))

theorem Good.if_ {c t e} (hc : Good A Γ c) (ht : Good A Γ t) (he : Good A Γ e) : Good A Γ (.if_ c t e) where
  bound x hx := by
    simp only [Mir.binders, List.mem_append] at hx
    exact hx.elim (hc.bound x) fun h => h.elim (ht.bound x) (he.bound x)
  closed x hx := by
    simp only [Mir.free, List.mem_append] at hx
    exact hx.elim (fun h => h.elim (hc.closed x) (ht.closed x)) (he.closed x)
  distinct := ⟨hc.distinct, ht.distinct, he.distinct⟩
  environments := ⟨hc.environments, ht.environments, he.environments⟩
  shape := ⟨hc.shape, ht.shape, he.shape⟩

theorem Good.let_ {x e b} (hx : ':' ∉ x.toList ∧ x ∉ A) (he : Good A Γ e) (hb : Good A (x :: Γ) b) :
    Good A Γ (.let_ x e b) where
  bound y hy := by
    simp only [Mir.binders, List.mem_append, List.mem_cons] at hy
    rcases hy with rfl | hy | hy
    · exact hx
    · exact he.bound y hy
    · exact hb.bound y hy
  closed y hy := by
    simp only [Mir.free, List.mem_append, List.mem_filter, bne_iff_ne] at hy
    rcases hy with hy | ⟨hy, hne⟩
    · exact he.closed y hy
    · simpa [hne] using hb.closed y hy
  distinct := ⟨he.distinct, hb.distinct⟩
  environments := ⟨he.environments, hb.environments⟩
  shape := ⟨he.shape, hb.shape⟩

theorem Good.case {e as} (he : Good A Γ e) (ha : GoodAlts A Γ as) (hn : as ≠ .nil) : Good A Γ (.case e as) where
  bound y hy := by
    simp only [Mir.binders, List.mem_append] at hy
    exact hy.elim (he.bound y) (ha.bound y)
  closed y hy := by
    simp only [Mir.free, List.mem_append] at hy
    exact hy.elim (he.closed y) (ha.closed y)
  distinct := ⟨he.distinct, ha.distinct⟩
  environments := ⟨he.environments, ha.environments⟩
  shape := ⟨hn, he.shape, ha.shape⟩

theorem GoodAlts.nil : GoodAlts A Γ .nil := ⟨by simp [Mir.bindersAlts], by simp [Mir.freeAlts], trivial, trivial, trivial⟩

theorem GoodAlts.cons {ts x e as} (hx : ':' ∉ x.toList ∧ x ∉ A) (he : Good A (x :: Γ) e) (ha : GoodAlts A Γ as) :
    GoodAlts A Γ (.cons ts x e as) where
  bound y hy := by
    simp only [Mir.bindersAlts, List.mem_append, List.mem_cons] at hy
    rcases hy with rfl | hy | hy
    · exact hx
    · exact he.bound y hy
    · exact ha.bound y hy
  closed y hy := by
    simp only [Mir.freeAlts, List.mem_append, List.mem_filter, bne_iff_ne] at hy
    rcases hy with ⟨hy, hne⟩ | hy
    · simpa [hne] using he.closed y hy
    · exact ha.closed y hy
  distinct := ⟨he.distinct, ha.distinct⟩
  environments := ⟨he.environments, ha.environments⟩
  shape := ⟨he.shape, ha.shape⟩

theorem Good.letRec {f args th body b} (hf : ':' ∉ f.toList ∧ f ∉ A) (ha : ∀ x ∈ args, ':' ∉ x.toList ∧ x ∉ A)
    (hn : args.Nodup) (he : Good A (f :: (args ++ Γ)) body) (hb : Good A (f :: Γ) b) :
    Good A Γ (.letRec f [] args th body b) where
  bound y hy := by
    simp only [Mir.binders, List.mem_append, List.mem_cons] at hy
    rcases hy with rfl | hy | hy | hy
    · exact hf
    · exact ha y hy
    · exact he.bound y hy
    · exact hb.bound y hy
  closed y hy := by
    simp only [Mir.free, List.mem_append, List.mem_filter, bne_iff_ne, Bool.and_eq_true, List.all_eq_true] at hy
    obtain ⟨⟨hy, -, hne⟩ | hy, h⟩ := hy
    · have h1 := he.closed y hy
      simp only [List.mem_cons, List.mem_append, h, false_or] at h1
      rcases h1 with h1 | h1
      · exact absurd rfl (hne y h1)
      · exact h1
    · simpa [h] using hb.closed y hy
  distinct := ⟨hn, he.distinct, hb.distinct⟩
  environments := ⟨rfl, he.environments, hb.environments⟩
  shape := ⟨he.shape, hb.shape⟩

theorem Good.try_ {e x t} (hx : ':' ∉ x.toList ∧ x ∉ A) (he : Good A Γ e) :
    Good A Γ (.try_ e x t (.op (.variant t) (.cons (.variable x) .nil))) where
  bound y hy := by
    simp only [Mir.binders, Mir.bindersExprs, List.mem_append, List.mem_cons, List.not_mem_nil, or_false] at hy
    rcases hy with rfl | hy
    · exact hx
    · exact he.bound y hy
  closed y hy := by
    simp only [Mir.free, Mir.freeExprs, List.mem_append, List.mem_filter, bne_iff_ne, List.mem_cons, List.not_mem_nil, or_false] at hy
    rcases hy with hy | ⟨rfl, hne⟩
    · exact he.closed y hy
    · exact absurd rfl hne
  distinct := ⟨he.distinct, trivial, trivial⟩
  environments := ⟨he.environments, trivial, trivial⟩
  shape := ⟨he.shape, rfl⟩

theorem Good.mono {Γ' : List String} {e} (h : Good A Γ e) (hs : ∀ x ∈ Γ, x ∈ Γ') : Good A Γ' e :=
  ⟨h.bound, fun x hx => hs x (h.closed x hx), h.distinct, h.environments, h.shape⟩

theorem GoodAlts.ne_nil {ts x e as} : (Mir.Alts.cons ts x e as) ≠ .nil := by simp

theorem Good.unary {o e} (h : Good A Γ e) (ho : Mir.Op.shaped o (.cons e .nil)) : Good A Γ (.op o (.cons e .nil)) :=
  .op (.cons h .nil) ho

theorem Good.binary {o l r} (hl : Good A Γ l) (hr : Good A Γ r) (ho : Mir.Op.shaped o (.cons l (.cons r .nil))) :
    Good A Γ (.op o (.cons l (.cons r .nil))) :=
  .op (.cons hl (.cons hr .nil)) ho

end

/-! ## Lowering -/

theorem internal_free {A : List String} (hA : ∀ x ∈ A, internal x = false) {x : String} (hx : internal x = true) : x ∉ A :=
  fun h => by rw [hA x h] at hx; cases hx

theorem binder_good {A : List String} {x : String} (h : binder A x = true) : ':' ∉ x.toList ∧ x ∉ A := by
  simpa [binder] using h

theorem mapM_mem {α β : Type} {f : α → Option β} : ∀ {l : List α} {l' : List β}, l.mapM f = some l' →
    ∀ y ∈ l', ∃ x ∈ l, f x = some y
  | [], _, h, y, hy => by simp at h; subst h; simp at hy
  | x :: xs, l', h, y, hy => by
    simp only [List.mapM_cons, Option.bind_eq_bind, Option.bind_eq_some_iff, Option.pure_def, Option.some.injEq] at h
    obtain ⟨z, h1, zs, h2, rfl⟩ := h
    rcases List.mem_cons.mp hy with rfl | hy
    · exact ⟨x, by simp, h1⟩
    · obtain ⟨w, h3, h4⟩ := mapM_mem h2 y hy
      exact ⟨w, by simp [h3], h4⟩

theorem mapM_mem' {α β : Type} {f : α → Option β} : ∀ {l : List α} {l' : List β}, l.mapM f = some l' →
    ∀ x ∈ l, ∃ y ∈ l', f x = some y
  | [], _, _, x, hx => by simp at hx
  | x :: xs, l', h, y, hy => by
    simp only [List.mapM_cons, Option.bind_eq_bind, Option.bind_eq_some_iff, Option.pure_def, Option.some.injEq] at h
    obtain ⟨z, h1, zs, h2, rfl⟩ := h
    rcases List.mem_cons.mp hy with rfl | hy
    · exact ⟨z, by simp, h1⟩
    · obtain ⟨w, h3, h4⟩ := mapM_mem' h2 y hy
      exact ⟨w, by simp [h3], h4⟩

theorem fieldIndex_inj {ts : List RecordField} {x y : String} {i : Nat} (hx : fieldIndex ts x = some i)
    (hy : fieldIndex ts y = some i) : x = y := by
  unfold fieldIndex at hx hy
  rw [List.findIdx?_eq_some_iff_getElem] at hx hy
  obtain ⟨h, h1, -⟩ := hx
  obtain ⟨_, h2, -⟩ := hy
  simp only [beq_iff_eq] at h1 h2
  exact h1.symm.trans h2

theorem fieldIndexes_nodup {ts : List RecordField} : ∀ {fields : List (String × Expr)} {is : List Nat},
    (fields.map (·.1)).Nodup → fields.mapM (fun f => fieldIndex ts f.1) = some is → is.Nodup
  | [], _, _, h => by simp at h; subst h; simp
  | f :: fs, l', hn, h => by
    simp only [List.mapM_cons, Option.bind_eq_bind, Option.bind_eq_some_iff, Option.pure_def, Option.some.injEq] at h
    obtain ⟨i, h1, is, h2, rfl⟩ := h
    simp only [List.map_cons, List.nodup_cons] at hn
    rw [List.nodup_cons]
    refine ⟨fun hi => ?_, fieldIndexes_nodup hn.2 h2⟩
    obtain ⟨g, hg, hi⟩ := mapM_mem h2 i hi
    exact hn.1 (List.mem_map.mpr ⟨g, hg, fieldIndex_inj hi h1⟩)

section
variable {K : Config} {a : Nat} {C : Ctx} {A : List String}

theorem alternative_good {Γ : List String} {x c e alt} (hx : ':' ∉ x.toList ∧ x ∉ A) (he : Good A (x :: Γ) e)
    (h : compileAlternative K x c e = some alt) : Good A (x :: Γ) alt.2 := by
  unfold compileAlternative at h
  split at h
  · simp only [Option.some.injEq] at h
    subst h
    refine .let_ hx (.unary (.variable (by simp)) (by simp [Mir.Op.shaped, Mir.Exprs.toList])) (he.mono ?_)
    intro y hy
    simp only [List.mem_cons] at hy ⊢
    tauto
  · split at h
    · cases h
    · simp only [Option.some.injEq] at h
      subst h
      exact he

theorem recordFields_good : ∀ {fields : List (String × Mir.Expr)} {Γ : List String} {body},
    (∀ x ∈ A, internal x = false) → (∀ f ∈ fields, ':' ∉ f.1.toList ∧ ∀ Δ, (∀ x ∈ Γ, x ∈ Δ) → Good A Δ f.2) →
    (∀ Δ, (∀ x ∈ Γ, x ∈ Δ) → (∀ f ∈ fields, fieldVariable f.1 ∈ Δ) → Good A Δ body) →
    Good A Γ (compileRecordFields fields body)
  | [], Γ, body, _, _, hb => hb Γ (fun _ h => h) (by simp)
  | (x, e) :: fs, Γ, body, hA, hf, hb => by
    unfold compileRecordFields
    have h1 := hf (x, e) (by simp)
    refine .let_ ⟨?_, ?_⟩ (h1.2 Γ fun _ h => h) ?_
    · simp only [fieldVariable, String.toList_append, List.mem_append, not_or]
      exact ⟨by decide, h1.1⟩
    · refine internal_free hA ?_
      simp [internal, fieldVariable]
    · refine recordFields_good hA (fun f hf' => ⟨(hf f (by simp [hf'])).1, fun Δ hΔ => (hf f (by simp [hf'])).2 Δ ?_⟩) ?_
      · exact fun y hy => hΔ y (by simp [hy])
      · intro Δ h2 h3
        refine hb Δ (fun y hy => h2 y (by simp [hy])) fun f hf' => ?_
        rcases List.mem_cons.mp hf' with rfl | hf'
        · exact h2 _ (by simp)
        · exact h3 f hf'

theorem coercion_good {Γ : List String} {c d e e'} (he : Good A Γ e) (h : compileCoercion K c d e = some e') : Good A Γ e' := by
  have h1 : ∀ c, Good A Γ (.op (.variant (typeId K c))
      (.cons (if boxed c then .op (.record (typeId K c)) (.cons e .nil) else e) .nil)) := by
    intro c
    refine .unary ?_ (by simp [Mir.Op.shaped, Mir.Exprs.toList])
    split
    · exact .unary he trivial
    · exact he
  unfold compileCoercion at h
  split at h <;> simp only [Option.some.injEq, reduceCtorEq] at h <;> subst h
  all_goals first | exact he | exact h1 _

variable {rec : Compiler} {trec : List String → Expr → Bool}

theorem alternatives_good (ih : ∀ Γ e e', K.stringEqual ∈ Γ → trec Γ e = true → rec e = some e' → Good A Γ e')
    {Γ : List String} (hΓ : K.stringEqual ∈ Γ) {x} (hx : ':' ∉ x.toList ∧ x ∉ A) {else_ : Option (Option Ty × Expr)}
    (he : else_.all (fun b => trec (x :: Γ) b.2) = true) :
    ∀ {bs : List (Ty × Expr)} {as}, bs.all (fun b => trec (x :: Γ) b.2) = true →
      compileAlternatives K a C rec x bs else_ = some as → GoodAlts A Γ as ∧ ((!bs.isEmpty || else_.isSome) = true → as ≠ .nil)
  | (t, e) :: bs, as, hb, h => by
    simp only [compileAlternatives, Option.bind_eq_bind, Option.bind_eq_some_iff, Option.some.injEq] at h
    obtain ⟨c, -, e1, h1, alt, h2, alts, h3, rfl⟩ := h
    simp only [List.all_cons, Bool.and_eq_true] at hb
    exact ⟨.cons hx (alternative_good hx (ih _ _ _ (by simp [hΓ]) hb.1 h1) h2)
      (alternatives_good ih hΓ hx he hb.2 h3).1, by simp⟩
  | [], as, hb, h => by
    match else_, he, h with
    | none, _, h =>
      simp only [compileAlternatives, Option.some.injEq] at h
      subst h
      exact ⟨.nil, by simp⟩
    | some (none, _), _, h => simp [compileAlternatives] at h
    | some (some t, e), he, h =>
      simp only [compileAlternatives, Option.bind_eq_bind, Option.bind_eq_some_iff] at h
      obtain ⟨c, -, e1, h1, h⟩ := h
      have h2 := ih (x :: Γ) _ _ (by simp [hΓ]) he h1
      split at h
      · simp only [Option.some.injEq] at h
        subst h
        exact ⟨.cons hx h2 .nil, by simp⟩
      · simp only [Option.bind_eq_some_iff, Option.some.injEq] at h
        obtain ⟨alt, h3, rfl⟩ := h
        exact ⟨.cons hx (alternative_good hx h2 h3) .nil, by simp⟩

theorem equality_good (ih : ∀ Γ e e', K.stringEqual ∈ Γ → trec Γ e = true → rec e = some e' → Good A Γ e')
    {Γ : List String} (hΓ : K.stringEqual ∈ Γ) {t l r e'} (hl : trec Γ l = true) (hr : trec Γ r = true)
    (h : compileEquality K a C rec t l r = some e') : Good A Γ e' := by
  simp only [compileEquality, Option.bind_eq_bind, Option.bind_eq_some_iff] at h
  obtain ⟨c, -, h⟩ := h
  split at h
  · simp only [Option.bind_eq_some_iff, Option.some.injEq] at h
    obtain ⟨l', h1, r', h2, rfl⟩ := h
    exact .binary (ih _ _ _ hΓ hl h1) (ih _ _ _ hΓ hr h2) trivial
  · simp only [Option.bind_eq_some_iff, Option.some.injEq] at h
    obtain ⟨l', h1, r', h2, rfl⟩ := h
    exact .op (.cons (.variable hΓ) (.cons (ih _ _ _ hΓ hl h1) (.cons (ih _ _ _ hΓ hr h2) .nil))) trivial
  · cases h

theorem step_good (hA : ∀ x ∈ A, internal x = false)
    (ih : ∀ Γ e e', K.stringEqual ∈ Γ → trec Γ e = true → rec e = some e' → Good A Γ e')
    (mono : ∀ Γ Δ e, (∀ x ∈ Γ, x ∈ Δ) → trec Γ e = true → trec Δ e = true)
    {Γ : List String} (hΓ : K.stringEqual ∈ Γ) {e e'} (ht : tidyStep A trec Γ e = true)
    (h : compileStep K a C rec e = some e') : Good A Γ e' := by
  have one : ∀ {e e'}, trec Γ e = true → rec e = some e' → Good A Γ e' := fun h1 h2 => ih _ _ _ hΓ h1 h2
  have many : ∀ {es : List Expr} {es'}, es.all (trec Γ) = true → es.mapM rec = some es' → ∀ e ∈ es', Good A Γ e := by
    intro es es' h1 h2 e he
    obtain ⟨x, hx, h3⟩ := mapM_mem h2 e he
    exact one (List.all_eq_true.mp h1 x hx) h3
  have int : ∀ {x : String}, internal x = true → x ∉ A := fun h => internal_free hA h
  unfold compileStep at h
  split at h <;> (try simp only [tidyStep, Bool.and_eq_true, List.all_cons, List.all_nil] at ht) <;>
    (try simp only [Option.bind_eq_bind, Option.bind_eq_some_iff, Option.some.injEq, reduceCtorEq] at h)
  case h_1 | h_2 | h_3 | h_4 => subst h; exact .literal _
  case h_5 => subst h; exact .variable (by simpa using ht)
  case h_6 =>
    obtain ⟨_, -, f', h1, as', h2, rfl⟩ := h
    exact .op (.cons (one ht.1 h1) (.ofList (many ht.2 h2))) trivial
  case h_7 =>
    obtain ⟨_, -, e1, h1, rfl⟩ := h
    have h2 := one ht.1 h1
    refine .let_ ⟨by decide, int (by decide)⟩ h2 (.case (.variable (by simp)) ?_ (by simp))
    exact .cons ⟨by decide, int (by decide)⟩ (.variable (by simp))
      (.cons ⟨by decide, int (by decide)⟩ (.unary (.variable (by simp)) trivial) .nil)
  case h_8 =>
    obtain ⟨_, -, e1, h1, rfl⟩ := h
    exact .unary (one ht.1 h1) (by simp [Mir.Op.shaped, Mir.Exprs.toList])
  case h_9 =>
    obtain ⟨c', h1, t', h2, e1, h3, rfl⟩ := h
    exact .if_ (one ht.1.1 h1) (one ht.1.2 h2) (one ht.2 h3)
  case h_10 =>
    obtain ⟨e1, h1, as, h2, rfl⟩ := h
    have h3 := alternatives_good ih hΓ (binder_good ht.1.1.1.1) ht.2 ht.1.2 h2
    exact .case (one ht.1.1.2 h1) h3.1 (h3.2 ht.1.1.1.2)
  case h_11 =>
    obtain ⟨b', h1, rfl⟩ := h
    refine .letRec ⟨by decide, int (by decide)⟩ ?_ (by simpa using ht.1.2)
      ((ih _ _ _ (by simp [hΓ]) ht.2 h1).mono fun x hx => by simp only [List.mem_cons]; exact Or.inr hx) (.variable (by simp))
    intro x hx
    obtain ⟨p, hp, rfl⟩ := List.mem_map.mp hx
    exact binder_good (List.all_eq_true.mp ht.1.1 p hp)
  case h_12 x _ _ _ =>
    obtain ⟨e1, h1, b1, h2, rfl⟩ := h
    refine .let_ ?_ (one ht.1.2 h1) (ih _ _ _ (by simp [hΓ]) ht.2 h2)
    cases x with
    | none => exact ⟨by decide, int (by decide)⟩
    | some x => exact binder_good ht.1.1
  case h_13 | h_14 | h_15 | h_21 =>
    obtain ⟨l', h1, r', h2, rfl⟩ := h
    exact .binary (one ht.1 h1) (one ht.2 h2) trivial
  case h_16 | h_17 =>
    obtain ⟨l', h1, r', h2, rfl⟩ := h
    exact .if_ (one ht.1 h1) (by first | exact one ht.2 h2 | exact .literal _) (by first | exact one ht.2 h2 | exact .literal _)
  case h_18 => exact equality_good ih hΓ ht.1 ht.2 h
  case h_19 =>
    obtain ⟨e1, h1, rfl⟩ := h
    exact .if_ (equality_good ih hΓ ht.1 ht.2 h1) (.literal _) (.literal _)
  case h_20 =>
    obtain ⟨e1, h1, rfl⟩ := h
    exact .if_ (one ht h1) (.literal _) (.literal _)
  case h_22 =>
    obtain ⟨e1, h1, c, -, alt, h2, rfl⟩ := h
    refine .case (.try_ ⟨by decide, int (by decide)⟩ (one ht h1)) (.cons ⟨by decide, int (by decide)⟩ ?_ .nil) (by simp)
    exact alternative_good ⟨by decide, int (by decide)⟩ (.variable (by simp)) h2
  case h_23 =>
    obtain ⟨ts, -, c, -, es, h1, h⟩ := h
    split at h
    case isFalse => cases h
    rename_i fields hall
    simp only [Option.some.injEq] at h
    subst h
    simp only [Bool.and_eq_true, List.all_eq_true, List.any_eq_true, beq_iff_eq] at hall
    have h2 : ∀ f ∈ es, ∃ g ∈ fields, f.1 = g.1 ∧ rec g.2 = some f.2 := by
      intro f hf
      obtain ⟨g, hg, h3⟩ := mapM_mem h1 f hf
      rw [Option.map_eq_some_iff] at h3
      obtain ⟨e2, h4, rfl⟩ := h3
      exact ⟨g, hg, rfl, h4⟩
    refine recordFields_good hA ?_ ?_
    · intro f hf
      obtain ⟨g, hg, h3, h4⟩ := h2 f hf
      have h5 := List.all_eq_true.mp ht g hg
      simp only [Bool.and_eq_true, Bool.not_eq_true', ← Bool.not_eq_true, List.contains_iff_mem] at h5
      refine ⟨h3 ▸ h5.1, fun Δ hΔ => ih Δ _ _ (hΔ _ hΓ) (mono _ _ _ hΔ h5.2) h4⟩
    · intro Δ hΔ hf
      refine .op (.ofList fun e he => ?_) trivial
      obtain ⟨t, ht', rfl⟩ := List.mem_map.mp he
      refine .variable ?_
      obtain ⟨g, hg, h3⟩ := hall.2 t ht'
      have h4 : ∃ f ∈ es, f.1 = g.1 := by
        obtain ⟨f, hf', h5⟩ := mapM_mem' h1 g hg
        rw [Option.map_eq_some_iff] at h5
        obtain ⟨e2, -, rfl⟩ := h5
        exact ⟨_, hf', rfl⟩
      obtain ⟨f, hf', h5⟩ := h4
      rw [← h3, ← h5]
      exact hf f hf'
  case h_24 =>
    obtain ⟨ts, -, i, -, e1, h1, rfl⟩ := h
    exact .unary (one ht h1) (by simp [Mir.Op.shaped, Mir.Exprs.toList])
  case h_25 =>
    obtain ⟨ts, -, e1, h1, is, h2, es, h3, rfl⟩ := h
    refine .op (.cons (one ht.1.1 h1) (.ofList ?_)) (fieldIndexes_nodup (by simpa using ht.1.2) h2)
    intro e he
    obtain ⟨g, hg, h4⟩ := mapM_mem h3 e he
    exact one (List.all_eq_true.mp ht.2 g hg) h4
  case h_26 =>
    obtain ⟨c, -, d, -, e1, h1, h2⟩ := h
    exact coercion_good (one ht h1) h2

end

theorem step_mono {A : List String} {trec : List String → Expr → Bool}
    (ih : ∀ Γ Δ e, (∀ x ∈ Γ, x ∈ Δ) → trec Γ e = true → trec Δ e = true) {Γ Δ : List String} (hs : ∀ x ∈ Γ, x ∈ Δ) {e : Expr}
    (h : tidyStep A trec Γ e = true) : tidyStep A trec Δ e = true := by
  have hc : ∀ x, ∀ y ∈ x :: Γ, y ∈ x :: Δ := by
    intro x y hy
    rcases List.mem_cons.mp hy with rfl | hy
    · simp
    · simp [hs y hy]
  have ha : ∀ xs : List String, ∀ y ∈ xs ++ Γ, y ∈ xs ++ Δ := by
    intro xs y hy
    rcases List.mem_append.mp hy with hy | hy
    · simp [hy]
    · simp [hs y hy]
  have one : ∀ {e}, trec Γ e = true → trec Δ e = true := fun {e} => ih Γ Δ e hs
  have more : ∀ {x e}, trec (x :: Γ) e = true → trec (x :: Δ) e = true := fun {x e} => ih _ _ e (hc x)
  unfold tidyStep at h ⊢
  split at h <;> (try simp only [Bool.and_eq_true, List.all_eq_true, List.contains_iff_mem] at h ⊢)
  case h_1 => exact hs _ h
  case h_2 => exact ⟨one h.1, fun e he => one (h.2 e he)⟩
  case h_3 => exact fun e he => one (h e he)
  case h_4 => exact ⟨⟨one h.1.1, one h.1.2⟩, one h.2⟩
  case h_5 else_ =>
    refine ⟨⟨⟨h.1.1.1, one h.1.1.2⟩, fun b hb => more (h.1.2 b hb)⟩, ?_⟩
    cases else_ with
    | none => rfl
    | some b => exact more h.2
  case h_6 => exact ⟨h.1, ih _ _ _ (ha _) h.2⟩
  case h_7 => exact ⟨⟨h.1.1, one h.1.2⟩, more h.2⟩
  case h_8 | h_9 | h_10 | h_11 | h_13 => exact ⟨one h.1, one h.2⟩
  case h_12 | h_14 | h_16 | h_18 => exact one h
  case h_15 => exact fun f hf => ⟨(h f hf).1, one (h f hf).2⟩
  case h_17 => exact ⟨⟨one h.1.1, h.1.2⟩, fun f hf => one (h.2 f hf)⟩

theorem tidy_mono {A : List String} : ∀ (d : Nat) (Γ Δ : List String) (e : Expr), (∀ x ∈ Γ, x ∈ Δ) →
    tidy A d Γ e = true → tidy A d Δ e = true
  | 0, _, _, _, _, h => by cases h
  | d + 1, _, _, _, hs, h => step_mono (tidy_mono d) hs h

/-- Lowered expressions are what the middle end expects. -/
theorem compile_good {K : Config} {a : Nat} {C : Ctx} {A : List String} (hA : ∀ x ∈ A, internal x = false) :
    ∀ (d d' : Nat) (Γ : List String) (e : Expr) (e' : Mir.Expr), K.stringEqual ∈ Γ → tidy A d' Γ e = true →
      compile K a C d e = some e' → Good A Γ e'
  | 0, _, _, _, _, _, _, h => by cases h
  | _ + 1, 0, _, _, _, _, h, _ => by cases h
  | d + 1, d' + 1, Γ, e, e', hΓ, ht, h =>
    step_good hA (fun Γ e e' => compile_good hA d d' Γ e e') (tidy_mono d') hΓ ht h

/-- Lowered programs are what the middle end expects. -/
theorem compile_frontEnd {K : Config} {a d d' : Nat} {m : Module} {p : Mir.Program} (hm : TidyModule K d' m)
    (hp : compileModule K a d m = some p) : Mir.FrontEnd p := by
  simp only [compileModule, Option.bind_eq_bind, Option.bind_eq_some_iff, Option.some.injEq] at hp
  obtain ⟨globals, h1, rfl⟩ := hp
  have hdef : ∀ g ∈ globals, ∃ f ∈ m.definitions, g.name = f.name ∧ g.args = f.params.map (·.1) ∧
      compile K a m.ctx d f.body = some g.body := by
    intro g hg
    obtain ⟨f, hf, h2⟩ := mapM_mem h1 g hg
    simp only [compileDefinition, Option.map_eq_some_iff] at h2
    obtain ⟨b, h3, rfl⟩ := h2
    exact ⟨f, hf, rfl, rfl, h3⟩
  have hnames : globals.map (·.name) = m.definitions.map (·.name) := by
    clear hdef hm
    generalize m.definitions = ds at h1
    induction ds generalizing globals with
    | nil => simp at h1; subst h1; rfl
    | cons f fs ih =>
      simp only [List.mapM_cons, Option.bind_eq_bind, Option.bind_eq_some_iff, Option.pure_def, Option.some.injEq] at h1
      obtain ⟨g, h2, gs, h3, rfl⟩ := h1
      simp only [compileDefinition, Option.map_eq_some_iff] at h2
      obtain ⟨b, h4, rfl⟩ := h2
      simp [ih gs h3]
  have hglobal : ∀ x, (⟨m.declarations.map (·.1), globals, fun _ => ""⟩ : Mir.Program).isGlobal x = true ↔ x ∈ globalNames m := by
    intro x
    simp only [Mir.Program.isGlobal, Mir.Program.find, Bool.or_eq_true, List.contains_iff_mem, List.find?_isSome, beq_iff_eq,
      globalNames, List.mem_append, ← hnames]
    simp only [List.mem_map]
  have hgood : ∀ g ∈ globals, Good g.args (g.args ++ globalNames m) g.body := by
    intro g hg
    obtain ⟨f, hf, -, h3, h4⟩ := hdef g hg
    rw [h3]
    refine compile_good ?_ _ _ _ _ _ ?_ (hm.bodies f hf) h4
    · intro x hx
      obtain ⟨p, hp, rfl⟩ := List.mem_map.mp hx
      exact ((hm.params f hf).2 p hp).2.1
    · simp [globalNames, hm.stringEqual]
  have hargs : ∀ g ∈ globals, g.args.Nodup ∧ ∀ x ∈ g.args, ':' ∉ x.toList ∧ x ∉ globalNames m := by
    intro g hg
    obtain ⟨f, hf, -, h3, -⟩ := hdef g hg
    rw [h3]
    refine ⟨(hm.params f hf).1, fun x hx => ?_⟩
    obtain ⟨p, hp, rfl⟩ := List.mem_map.mp hx
    exact ⟨((hm.params f hf).2 p hp).1, ((hm.params f hf).2 p hp).2.2⟩
  have hclosed : ∀ g ∈ globals, ∀ x ∈ Mir.free g.body, x ∈ g.args ∨ x ∈ globalNames m := by
    intro g hg x hx
    simpa using (hgood g hg).closed x hx
  refine ⟨fun g hg => ⟨fun x hx => ((hgood g hg).bound x hx).1, ?_, ?_, ?_, (hgood g hg).distinct, (hgood g hg).environments⟩,
    ?_, ?_, fun g hg => (hgood g hg).shape⟩
  · intro x hx
    rcases List.mem_append.mp hx with hx | hx
    · exact Mir.sourceName_of_no_colon ((hargs g hg).2 x hx).1
    · rcases Mir.names_cases _ hx with hx | hx
      · exact Mir.sourceName_of_no_colon ((hgood g hg).bound x hx).1
      · rcases hclosed g hg x hx with hx | hx
        · exact Mir.sourceName_of_no_colon ((hargs g hg).2 x hx).1
        · exact (hm.globals x hx).2
  · intro x hx
    rw [hglobal]
    exact hclosed g hg x hx
  · exact fun x hx hb => ((hgood g hg).bound x hb).2 hx
  · intro x hx
    rw [hglobal] at hx
    exact hm.globals x hx
  · intro g hg
    refine ⟨(hargs g hg).1, fun x hx => ⟨Mir.plain_of_no_colon ((hargs g hg).2 x hx).1, ?_⟩⟩
    rw [hglobal]
    exact ((hargs g hg).2 x hx).2

end Verif.Lower
