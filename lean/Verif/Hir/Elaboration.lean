import Verif.Hir.Soundness
import Verif.Hir.Omits

/-! # Accepted expressions are typed after coercion -/

namespace Verif.Hir

open Verif.Res

/-- Programs without the constructs that the analysis accepts although they are compiled wrongly. The flag
says whether `?` may occur. `?` may not occur
* in arguments of `go`, `race`, `keys` and `values`, which are evaluated in functions of their own, nor
* in functions whose result type is exactly `error` (and not a union with `error` or `any`).

Besides, no name of a branch of a comprehension occurs in a later iteratee of the branch. -/
inductive Tame (A : Aliases) : Bool → Expr → Prop
  | boolean {o} (b) : Tame A o (.boolean b)
  | none {o} : Tame A o .none
  | number {o} (i) : Tame A o (.number i)
  | string {o} (s) : Tame A o (.string s)
  | var {o} (x) : Tame A o (.variable x)
  | builtIn {o} (f) : Tame A o (.builtIn f)
  | call {o t f args} : Tame A o f → (∀ a ∈ args, Tame A o a) → Tame A o (.call t f args)
  | builtInCall {o t f args} : (∀ a ∈ args, Tame A (o && !f.deferred) a) → Tame A o (.builtInCall t f args)
  | if_ {o c a b} : Tame A o c → Tame A o a → Tame A o b → Tame A o (.if_ c a b)
  | ifList {o t l x y a b} : Tame A o l → Tame A o a → Tame A o b → Tame A o (.ifList t l x y a b)
  | ifMap {o t u x e k a b} : Tame A o e → Tame A o k → Tame A o a → Tame A o b →
      Tame A o (.ifMap t u x e k a b)
  | ifType {o x e bs} : Tame A o e → (∀ p ∈ bs, Tame A o p.2) → Tame A o (.ifType x e bs Option.none)
  | ifTypeElse {o x e bs t b} : Tame A o e → (∀ p ∈ bs, Tame A o p.2) → Tame A o b →
      Tame A o (.ifType x e bs (some (t, b)))
  | lambda {o ps r b} : Tame A false b → Tame A o (.lambda ps r b)
  | lambdaTry {o ps r b} : ¬ Canon A r .error → Tame A true b → Tame A o (.lambda ps r b)
  | let_ {o x t a b} : Tame A o a → Tame A o b → Tame A o (.let_ x t a b)
  | list {o t elems} : (∀ e, .single e ∈ elems → Tame A o e) → (∀ e, .multiple e ∈ elems → Tame A o e) →
      Tame A o (.list t elems)
  | comprehension {o t e} {b : Branch Expr} {bs : List (Branch Expr)} : Tame A o e →
      (∀ p ∈ b :: bs, Apart (p.names.zip p.iteratees)) → (∀ p ∈ b :: bs, ∀ i ∈ p.iteratees, Tame A o i.2) →
      (∀ p ∈ b :: bs, ∀ c, p.condition = some c → Tame A o c) → Tame A o (.comprehension t e b bs)
  | map {o k v elems} : (∀ a b, .single a b ∈ elems → Tame A o a) → (∀ a b, .single a b ∈ elems → Tame A o b) →
      (∀ e, .multiple e ∈ elems → Tame A o e) → Tame A o (.map k v elems)
  | addition {o t a b} : Tame A o a → Tame A o b → Tame A o (.addition t a b)
  | arithmetic {o op a b} : Tame A o a → Tame A o b → Tame A o (.arithmetic op a b)
  | booleanOp {o op a b} : Tame A o a → Tame A o b → Tame A o (.booleanOp op a b)
  | equality {o t op a b} : Tame A o a → Tame A o b → Tame A o (.equality t op a b)
  | not {o a} : Tame A o a → Tame A o (.not a)
  | order {o op a b} : Tame A o a → Tame A o b → Tame A o (.order op a b)
  | try_ {t a} : Tame A true a → Tame A true (.try_ t a)
  | record {o t fields} : (∀ f ∈ fields, Tame A o f.2) → Tame A o (.record t fields)
  | deconstruct {o t e x} : Tame A o e → Tame A o (.deconstruct t e x)
  | update {o t e fields} : Tame A o e → (∀ f ∈ fields, Tame A o f.2) → Tame A o (.update t e fields)

variable {C : Ctx} {M : TypeModule}

/-- Every type that can be looked up or written expands. -/
structure CtxOk (M : TypeModule) (C : Ctx) : Prop where
  written : ∀ {t}, typeExists M t = .ok () → ∃ c, Canon C.types t c
  records : ∀ {n fs}, C.records n = some fs → ∀ f ∈ fs, ∃ c, Canon C.types f.type c

/-- Types of variables expand. -/
def VarsOk (C : Ctx) (Γ : Vars) : Prop := ∀ x t, Γ x = some t → ∃ c, Canon C.types t c

theorem VarsOk.insert {Γ : Vars} {x : String} {t c : Ty} (h : VarsOk C Γ) (hc : Canon C.types t c) :
    VarsOk C (Γ.insert x t) := by
  intro y u hy
  unfold Vars.insert at hy
  split at hy
  · cases hy; exact ⟨c, hc⟩
  · exact h y u hy

theorem VarsOk.insertAll : ∀ {xs : List (String × Ty)} {Γ : Vars}, VarsOk C Γ →
    (∀ p ∈ xs, ∃ c, Canon C.types p.2 c) → VarsOk C (Γ.insertAll xs)
  | [], _, h, _ => h
  | (x, t) :: xs, Γ, h, hs => by
    obtain ⟨c, hc⟩ := hs (x, t) (by simp)
    have h1 : VarsOk C (Γ.insert x t) := h.insert hc
    exact VarsOk.insertAll (Γ := Γ.insert x t) h1 fun p hp => hs p (by simp [hp])

/-! ## Extraction -/

theorem orErr_ok {α : Type} {o : Option α} {e : Err} {a : α} (h : orErr o e = .ok a) : o = some a := by
  cases o with
  | none => cases h
  | some b => cases h; rfl

/-- The extracted type of a typed expression is its type. -/
theorem extract_typed : ∀ {n : Nat} {Γ : Vars} {ρ : Option Ty} {e : Expr} {c t : Ty}, Typed C Γ ρ e c →
    extract n C Γ e = .ok t → Canon C.types t c := by
  intro n
  induction n with
  | zero => intro Γ ρ e c t _ h; simp [extract] at h
  | succ n ih =>
    intro Γ ρ e c t ht h
    cases ht with
    | boolean b => simp [extract] at h; subst h; exact canon_boolean
    | none => simp [extract] at h; subst h; exact canon_none
    | number b => simp [extract] at h; subst h; exact canon_number
    | string b => simp [extract] at h; subst h; exact canon_string
    | var h1 h2 =>
      simp only [extract] at h
      have := orErr_ok h
      rw [h1] at this
      cases this
      exact h2
    | call h1 h2 h3 h4 =>
      simp only [extract, orErr, ok_bind, bind_eq_ok] at h
      obtain ⟨f, g1, g2⟩ := h
      cases g2
      have := (expectFunction_ok g1).det h1
      simp only [Ty.function.injEq] at this
      rw [this.2]
      exact h1.function_arg.2
    | builtInCall h1 h2 h3 h4 =>
      simp only [extract, orErr, ok_bind, bind_eq_ok] at h
      obtain ⟨f, g1, g2⟩ := h
      cases g2
      have := (expectFunction_ok g1).det h1
      simp only [Ty.function.injEq] at this
      rw [this.2]
      exact h1.function_arg.2
    | if_ h1 h2 h3 =>
      simp only [extract, bind_eq_ok] at h
      obtain ⟨ta, g1, tb, g2, g3⟩ := h
      cases g3
      exact (ih h2 g1).union_same (ih h3 g2)
    | ifList h0 h1 h2 h3 =>
      simp only [extract, bind_eq_ok] at h
      obtain ⟨tl, g1, e', g2, ta, g3, tb, g4, g5⟩ := h
      cases g5
      have := (expectList_ok g2).det (ih h1 g1)
      simp only [Ty.list.injEq] at this
      subst this
      exact (ih h2 g3).union_same (ih h3 g4)
    | ifMap h1 h2 h3 h4 h5 h6 =>
      simp only [extract, bind_eq_ok] at h
      obtain ⟨tl, g1, kv, g2, ta, g3, tb, g4, g5⟩ := h
      cases g5
      have := (expectMap_ok g2).det (ih h3 g1)
      simp only [Ty.map.injEq] at this
      rw [this.2] at g3
      exact (ih h5 g3).union_same (ih h6 g4)
    | ifTypeElse h1 h2 h3 h4 h5 h6 h7 =>
      have hor : ∀ t : Ty, orErr (some t) Err.typeNotInferred = .ok t := fun _ => rfl
      simp only [extract, hor, ok_bind, bind_eq_ok] at h
      obtain ⟨ts, g1, u, g2, g4⟩ := h
      refine canon_createUnion_same (orErr_ok g4) ?_
      intro t ht
      rcases List.mem_append.mp ht with ht | ht
      · obtain ⟨p, hp, g5⟩ := forall₂_mem_right (mapList_eq_ok.mp g1) ht
        exact ih (h4 p hp) g5
      · simp only [List.mem_singleton] at ht
        subst ht
        exact ih h7 g2
    | ifType h1 h2 h3 h4 h5 h6 =>
      simp only [extract, ok_bind, bind_eq_ok] at h
      obtain ⟨ts, g1, g4⟩ := h
      refine canon_createUnion_same (orErr_ok g4) ?_
      intro t ht
      simp only [List.append_nil] at ht
      obtain ⟨p, hp, g5⟩ := forall₂_mem_right (mapList_eq_ok.mp g1) ht
      exact ih (h5 p hp) g5
    | lambda h1 h2 => simp [extract] at h; subst h; exact h1
    | @let_ _ _ x lt _ _ _ _ h1 h2 h3 =>
      simp only [extract, bind_eq_ok] at h
      obtain ⟨xs, g1, g2⟩ := h
      have : xs = letBinding x lt := by
        cases x with
        | none => simp [bindLet] at g1; subst g1; rfl
        | some x => simp [bindLet, orErr] at g1; subst g1; rfl
      subst this
      exact ih h3 g2
    | list h1 h2 h3 => simp [extract] at h; subst h; exact h1.list
    | comprehension h1 h2 => simp [extract] at h; subst h; exact h1.list
    | map h1 h2 h3 h4 h5 => simp [extract] at h; subst h; exact h1.map h2
    | addNumber h1 h2 => simp [extract, orErr] at h; subst h; exact canon_number
    | addString h1 h2 => simp [extract, orErr] at h; subst h; exact canon_string
    | arithmetic h1 h2 => simp [extract] at h; subst h; exact canon_number
    | booleanOp h1 h2 => simp [extract] at h; subst h; exact canon_boolean
    | equality h1 h2 h3 => simp [extract] at h; subst h; exact canon_boolean
    | not h1 => simp [extract] at h; subst h; exact canon_boolean
    | order h1 h2 => simp [extract] at h; subst h; exact canon_boolean
    | try_ h1 h2 h3 h4 h5 h6 h7 h8 => simp [extract, orErr] at h; subst h; exact h4
    | record h1 h2 h3 h4 h5 => simp [extract] at h; subst h; exact h1
    | deconstruct h1 h2 h3 =>
      simp only [extract, orErr, ok_bind, bind_eq_ok] at h
      obtain ⟨fs, g1, g2⟩ := h
      unfold resolveFields at g1
      obtain ⟨c', g3, g4⟩ := bind_eq_ok.mp g1
      cases h1.ok_eq g3
      simp only at g4
      obtain ⟨fs', t', g5, g6, g7⟩ := h3
      have := resolveRecord_ok g4
      rw [g5] at this
      cases this
      rw [g2] at g6
      cases g6
      exact g7
    | update h1 h2 h3 h4 => simp [extract] at h; subst h; exact h1
    | coercion h1 h2 h3 h4 => simp [extract] at h; subst h; exact h2

/-- Coercing a typed expression. -/
theorem coerceTo_typed {n : Nat} {Γ : Vars} {ρ : Option Ty} {e e' : Expr} {c d u : Ty} (ht : Typed C Γ ρ e c)
    (hu : Canon C.types u d) (hs : Sub c d ∨ Coercible c d) (h : coerceTo n C Γ e u = .ok e') :
    Typed C Γ ρ e' d := by
  unfold coerceTo at h
  obtain ⟨l, h1, h2⟩ := bind_eq_ok.mp h
  obtain ⟨q, h3, h4⟩ := bind_eq_ok.mp h2
  have hl := extract_typed ht h1
  have := equalCheck_ok h3 hl hu
  cases q with
  | true =>
    simp only [if_true, Res.ok.injEq] at h4
    subst h4
    rw [← this.mp rfl]
    exact ht
  | false =>
    simp only [Bool.false_eq_true, if_false, Res.ok.injEq] at h4
    subst h4
    refine .coercion hl hu ht ?_
    rcases hs with hs | hs
    · rcases isVariant_or d with hv | ⟨hn, ha⟩
      · exact .variant hv hs
      · have := this.mpr (hs.eq_atom hl hu hn ha)
        cases this
    · exact hs

theorem expectSub_ok {n : Nat} {t u c d : Ty} (h : expectSub n C t u = .ok ()) (ht : Canon C.types t c)
    (hu : Canon C.types u d) : Sub c d := by
  unfold expectSub at h
  obtain ⟨q, h1, h2⟩ := bind_eq_ok.mp h
  cases q with
  | false => simp at h2
  | true => exact (subsumeCheck_ok h1 ht hu).mp rfl

theorem expectSub_canon {n : Nat} {t u : Ty} (h : expectSub n C t u = .ok ()) :
    ∃ c d, Canon C.types t c ∧ Canon C.types u d := by
  unfold expectSub at h
  obtain ⟨q, h1, _⟩ := bind_eq_ok.mp h
  exact canon_of_subsumeCheck h1

theorem forList_ok {α : Type} {f : α → Res Err Unit} {as : List α} (h : forList f as = .ok ()) :
    ∀ a ∈ as, f a = .ok () := by
  intro a ha
  unfold forList at h
  obtain ⟨us, h1, _⟩ := bind_eq_ok.mp h
  obtain ⟨u, _, h2⟩ := forall₂_mem_left (mapList_eq_ok.mp h1) ha
  cases u
  exact h2

end Verif.Hir
