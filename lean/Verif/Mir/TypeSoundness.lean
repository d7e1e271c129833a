import Verif.Mir.CheckLemmas
import Verif.Mir.Unreachable

/-
Well-typed modules do not get stuck: proofs.
-/
namespace Verif.Mir.Typed

section
variable (m : TModule) (id : Ty → TypeId) (S : Ty → Prop) (u : Bool)

/-- Everything that is known about a body of a function in a scope. -/
structure Body (r : Ty) (Γ : Scope) (e : TExpr) (τ : Ty) : Prop where
  type : HasType m.context r Γ e τ
  scopes : Scoped m.fallback Γ e
  tags : ∀ σ ∈ e.tags, S σ
  fallback : Γ m.fallback = m.scope m.fallback
  total : u = false → (e.erase id).total = true

/-- Which values have a type. -/
inductive ValT : Value → Ty → Prop
  | none : ValT .none .none
  | boolean (b : Bool) : ValT (.boolean b) .boolean
  | number (n : UInt64) : ValT (.number n) .number
  | string (s : List UInt8) : ValT (.string s) .byteString
  | record {n : Name} {fs : List Ty} {vs : List Value} (h : m.context.types n = some fs)
      (hv : List.Forall₂ ValT vs fs) : ValT (.record (id (.record n)) vs) (.record n)
  | variant {τ : Ty} {v : Value} (ht : S τ) (hn : τ ≠ .variant) (hv : ValT v τ) : ValT (.variant (id τ) v) .variant
  | closure {Γ : Scope} {f : Name} {env args : List (Name × Ty)} {r : Ty} {th : Bool} {body : TExpr} {ρ : Env}
      (hb : Body m id S u r ((Γ.insert f (.function (args.map (·.2)) r)).insertMany (env ++ args)) body r)
      (he : ∀ x ∈ env, (Γ.insert f (.function (args.map (·.2)) r)) x.1 = some x.2)
      (h1 : ∀ x σ v, Γ x = some σ → ρ x = some v → ValT v σ)
      (h2 : ∀ x σ, Γ x = some σ → ρ x = Option.none → m.scope x = some σ) :
      ValT (.closure f (env.map (·.1)) (args.map (·.1)) th (body.erase id) ρ) (.function (args.map (·.2)) r)
  | global {g : Name} {σ : Ty} (h : m.scope g = some σ) : ValT (.global g) σ

/-- Which environments fit a scope. -/
def EnvT (Γ : Scope) (ρ : Env) : Prop :=
  ∀ x σ, Γ x = some σ → (∀ v, ρ x = some v → ValT m id S u v σ) ∧ (ρ x = none → m.scope x = some σ)

/-- Which results fit: never stuck; a value has the type, and an early return has the type of the result of the function. -/
def RT {α : Type} (P : α → Prop) (r : Ty) : R α → Prop
  | .ok a l => P a ∧ ∀ e ∈ l, EventTyped m id S e
  | .ret v l => ValT m id S u v r ∧ ∀ e ∈ l, EventTyped m id S e
  | .timeout => True
  | .stuck => False

/-- Which callers fit. -/
def CallerT (c : Caller) : Prop :=
  ∀ f args r vs l, ValT m id S u f (.function args r) → List.Forall₂ (ValT m id S u) vs args →
    (∀ e ∈ l, EventTyped m id S e) → ∀ q, RT m id S u (fun v => ValT m id S u v r) q (c f vs l)

end

variable {m : TModule} {id : Ty → TypeId} {S : Ty → Prop} {u : Bool}

theorem RT.bind {α β : Type} {P : α → Prop} {Q : β → Prop} {r : Ty} {a : R α} {f : α → Log → R β}
    (h : RT m id S u P r a) (hf : ∀ v l, P v → (∀ e ∈ l, EventTyped m id S e) → RT m id S u Q r (f v l)) :
    RT m id S u Q r (a.bind f) := by
  cases a with
  | ok v l => exact hf v l h.1 h.2
  | ret v l => exact h
  | timeout => trivial
  | stuck => exact h

theorem EnvT.set {Γ : Scope} {ρ : Env} (h : EnvT m id S u Γ ρ) {x : Name} {v : Value} {τ : Ty} (hv : ValT m id S u v τ) :
    EnvT m id S u (Γ.insert x τ) (ρ.set x v) := by
  intro y σ hy
  simp only [Scope.insert] at hy
  simp only [Env.set]
  split
  · rename_i e
    rw [if_pos e] at hy
    cases hy
    exact ⟨fun w hw => by cases hw; exact hv, nofun⟩
  · rename_i e
    rw [if_neg e] at hy
    exact h y σ hy

theorem EnvT.setMany {Γ : Scope} {ρ : Env} (h : EnvT m id S u Γ ρ) : {xs : List (Name × Ty)} → {vs : List Value} →
    List.Forall₂ (ValT m id S u) vs (xs.map (·.2)) →
    ∃ ρ', ρ.setMany (xs.map (·.1)) vs = some ρ' ∧ EnvT m id S u (Γ.insertMany xs) ρ' := by
  intro xs
  induction xs generalizing Γ ρ with
  | nil =>
    intro vs hv
    cases hv
    exact ⟨ρ, rfl, h⟩
  | cons x xs ih =>
    intro vs hv
    cases hv with
    | cons hv hvs => exact ih (h.set hv) hvs

/-- Variables of an environment that agrees with the scope change nothing. -/
theorem insertMany_agrees (xs : List (Name × Ty)) (Γ : Scope) (h : ∀ x ∈ xs, Γ x.1 = some x.2) :
    Γ.insertMany xs = Γ := by
  induction xs generalizing Γ with
  | nil => rfl
  | cons x xs ih =>
    have : Γ.insert x.1 x.2 = Γ := by
      funext y
      simp only [Scope.insert]
      split
      · rename_i e; subst e; exact (h x (by simp)).symm
      · rfl
    obtain ⟨x, τ⟩ := x
    simp only at this
    rw [Scope.insertMany, this]
    exact ih Γ fun y hy => h y (by simp [hy])

theorem insertMany_append (xs ys : List (Name × Ty)) (Γ : Scope) :
    Γ.insertMany (xs ++ ys) = (Γ.insertMany xs).insertMany ys := by
  induction xs generalizing Γ with
  | nil => rfl
  | cons x xs ih => obtain ⟨x, τ⟩ := x; exact ih _

theorem insertMany_other (xs : List (Name × Ty)) (Γ : Scope) (y : Name) (h : ∀ x ∈ xs, x.1 ≠ y) :
    Γ.insertMany xs y = Γ y := by
  induction xs generalizing Γ with
  | nil => rfl
  | cons x xs ih =>
    obtain ⟨x, τ⟩ := x
    rw [Scope.insertMany, ih _ fun z hz => h z (by simp [hz])]
    have := h (x, τ) (by simp)
    simp only at this
    simp [Scope.insert, Ne.symm this]

theorem insert_other (Γ : Scope) (x y : Name) (τ : Ty) (h : x ≠ y) : Γ.insert x τ y = Γ y := by
  simp [Scope.insert, Ne.symm h]

/-! ### Operations -/

theorem forall₂_get {α β : Type} {R : α → β → Prop} {as : List α} {bs : List β} (h : List.Forall₂ R as bs) {i : Nat} {b : β}
    (hb : bs[i]? = some b) : ∃ a, as[i]? = some a ∧ R a b := by
  induction h generalizing i with
  | nil => simp at hb
  | cons h _ ih =>
    cases i with
    | zero => simp only [List.getElem?_cons_zero, Option.some.injEq] at hb; subst hb; exact ⟨_, by simp, h⟩
    | succ i => simp only [List.getElem?_cons_succ] at hb ⊢; exact ih hb

theorem forall₂_set {α β : Type} {R : α → β → Prop} {as : List α} {bs : List β} (h : List.Forall₂ R as bs) {i : Nat} {a : α}
    {b : β} (hb : bs[i]? = some b) (hab : R a b) : List.Forall₂ R (as.set i a) bs := by
  induction h generalizing i with
  | nil => simp at hb
  | cons h hs ih =>
    cases i with
    | zero =>
      simp only [List.getElem?_cons_zero, Option.some.injEq] at hb
      subst hb
      exact .cons hab hs
    | succ i => simp only [List.getElem?_cons_succ] at hb; exact .cons h (ih hb)

theorem updateFields_typed {fs : List Ty} {vs : List Value} (h : List.Forall₂ (ValT m id S u) vs fs) {is : List Nat} {ts : List Ty}
    (hi : List.Forall₂ (fun i τ => fs[i]? = some τ) is ts) {ws : List Value} (hw : List.Forall₂ (ValT m id S u) ws ts) :
    ∃ vs', updateFields vs is ws = some vs' ∧ List.Forall₂ (ValT m id S u) vs' fs := by
  induction hi generalizing vs ws with
  | nil => cases hw; exact ⟨vs, rfl, h⟩
  | @cons i τ is ts hi _ ih =>
    cases hw with
    | cons hw hws =>
      have hl : i < vs.length := by
        rw [h.length_eq]
        exact (List.getElem?_eq_some_iff.1 hi).1
      simp only [updateFields, if_pos hl]
      exact ih (forall₂_set h hi hw) hws

theorem concatenate_typed {vs : List Value} {ts : List Ty} (h : List.Forall₂ (ValT m id S u) vs ts)
    (ht : ∀ τ ∈ ts, τ = .byteString) (hfun : ∀ g σ, m.scope g = some σ → ∃ as r, σ = .function as r) :
    ∃ s, concatenate vs = some s := by
  induction h with
  | nil => exact ⟨[], rfl⟩
  | cons h _ ih =>
    obtain ⟨s, hs⟩ := ih fun τ hτ => ht τ (by simp [hτ])
    have hτ := ht _ List.mem_cons_self
    subst hτ
    cases h with
    | string s' => exact ⟨s' ++ s, by simp [concatenate, hs]⟩
    | global h => obtain ⟨_, _, h⟩ := hfun _ _ h; cases h

/-- Facts about the global functions of a well-typed module. -/
structure Globals (m : TModule) (id : Ty → TypeId) : Prop where
  functions : ∀ g σ, m.scope g = some σ → ∃ as r, σ = .function as r
  known : ∀ g σ, m.scope g = some σ → (m.program id).isGlobal g = true
  information : ∀ t, m.scope ((m.program id).typeInformation t) = m.scope m.fallback

theorem applyOp_typed (hg : Globals m id) (w : World) {Γ : Scope} (hf : Γ m.fallback = m.scope m.fallback) {o : TOp}
    {ts : List Ty} {τ : Ty} (ho : OpType m.context Γ o ts τ) (hn : o.erase id ≠ .call) (hS : ∀ σ, o = .variant σ → S σ)
    {vs : List Value} (hv : List.Forall₂ (ValT m id S u) vs ts) :
    ∃ v, applyOp w (m.program id) (o.erase id) vs = some v ∧ ValT m id S u v τ := by
  have num : ∀ {v : Value}, ValT m id S u v .number → ∃ n, v = .number n := by
    intro v h
    cases h with
    | number n => exact ⟨n, rfl⟩
    | global h => obtain ⟨_, _, h⟩ := hg.functions _ _ h; cases h
  cases ho with
  | arithmetic o =>
    obtain ⟨v, _, h1, hv1, rfl⟩ := List.forall₂_cons_right_iff.1 hv
    obtain ⟨v', _, h2, hv2, rfl⟩ := List.forall₂_cons_right_iff.1 hv1
    cases hv2
    obtain ⟨a, rfl⟩ := num h1
    obtain ⟨b, rfl⟩ := num h2
    exact ⟨_, rfl, .number _⟩
  | comparison o =>
    obtain ⟨v, _, h1, hv1, rfl⟩ := List.forall₂_cons_right_iff.1 hv
    obtain ⟨v', _, h2, hv2, rfl⟩ := List.forall₂_cons_right_iff.1 hv1
    cases hv2
    obtain ⟨a, rfl⟩ := num h1
    obtain ⟨b, rfl⟩ := num h2
    exact ⟨_, rfl, .boolean _⟩
  | call => exact absurd rfl hn
  | record h => exact ⟨_, rfl, .record h hv⟩
  | field h hi =>
    obtain ⟨v, _, h1, hv1, rfl⟩ := List.forall₂_cons_right_iff.1 hv
    cases hv1
    cases h1 with
    | record h' hv' =>
      rw [h] at h'
      cases h'
      obtain ⟨v, hvs, hvt⟩ := forall₂_get hv' hi
      exact ⟨v, by simp [TOp.erase, applyOp, hvs], hvt⟩
    | global h => obtain ⟨_, _, h⟩ := hg.functions _ _ h; cases h
  | update h hi =>
    obtain ⟨v, _, h1, hv1, rfl⟩ := List.forall₂_cons_right_iff.1 hv
    cases h1 with
    | record h' hv' =>
      rw [h] at h'
      cases h'
      obtain ⟨vs', hvs, hvt⟩ := updateFields_typed hv' hi hv1
      exact ⟨_, by simp [TOp.erase, applyOp, hvs], .record h hvt⟩
    | global h => obtain ⟨_, _, h⟩ := hg.functions _ _ h; cases h
  | concatenation h =>
    obtain ⟨s, hs⟩ := concatenate_typed hv h hg.functions
    exact ⟨.string s, by simp [TOp.erase, applyOp, hs], .string s⟩
  | synchronize =>
    obtain ⟨v, _, h1, hv1, rfl⟩ := List.forall₂_cons_right_iff.1 hv
    cases hv1
    exact ⟨v, rfl, h1⟩
  | typeInformation h =>
    obtain ⟨v, _, h1, hv1, rfl⟩ := List.forall₂_cons_right_iff.1 hv
    cases hv1
    cases h1 with
    | variant _ _ _ =>
      refine ⟨_, rfl, .global ?_⟩
      rw [hg.information, ← hf]
      exact h
    | global h => obtain ⟨_, _, h⟩ := hg.functions _ _ h; cases h
  | variant h =>
    obtain ⟨v, _, h1, hv1, rfl⟩ := List.forall₂_cons_right_iff.1 hv
    cases hv1
    exact ⟨_, rfl, .variant (hS _ rfl) h h1⟩

theorem lookup_typed (hg : Globals m id) {Γ : Scope} {ρ : Env} (h : EnvT m id S u Γ ρ) {x : Name} {τ : Ty} (hx : Γ x = some τ) :
    ∃ v, lookup (m.program id) ρ x = some v ∧ ValT m id S u v τ := by
  obtain ⟨h1, h2⟩ := h x τ hx
  unfold lookup
  cases hr : ρ x with
  | some v => exact ⟨v, rfl, h1 v hr⟩
  | none =>
    have := h2 hr
    exact ⟨.global x, by simp [hg.known x τ this], .global this⟩

theorem matchAlternative_many {ts : List Ty} (h : 2 ≤ ts.length) (id : Ty → TypeId) (t : TypeId) (v : Value) :
    matchAlternative (some (ts.map id)) t v = if t ∈ ts.map id then some (.variant t v) else none := by
  match ts, h with
  | a :: b :: ts, _ => simp [matchAlternative]

/-! ### Evaluation -/

section
variable (hg : Globals m id) (hi : ∀ σ τ, S σ → S τ → id σ = id τ → σ = τ) (w : World) (c : Caller)
  (hc : CallerT m id S u c)
include hg hi hc

mutual
theorem eval_typed : (e : TExpr) → (r : Ty) → (Γ : Scope) → (τ : Ty) → (ρ : Env) → (log : Log) →
    Body m id S u r Γ e τ → EnvT m id S u Γ ρ → (∀ e ∈ log, EventTyped m id S e) →
    RT m id S u (fun v => ValT m id S u v τ) r (evalU u w (m.program id) captureAll c ρ (e.erase id) log)
  | .literal l, r, Γ, τ, ρ, log, hb, hρ, hl => by
      simp only [TExpr.erase, evalU]
      cases hb.type <;> exact ⟨by constructor, hl⟩
  | .variable x, r, Γ, τ, ρ, log, hb, hρ, hl => by
      simp only [TExpr.erase, evalU]
      cases hb.type
      rename_i h
      obtain ⟨v, hv, ht⟩ := lookup_typed hg hρ h
      rw [hv]
      exact ⟨ht, hl⟩
  | .op o es, r, Γ, τ, ρ, log, hb, hρ, hl => by
      simp only [TExpr.erase, evalU]
      cases hb.type with
      | @op _ _ _ _ ts _ hes ho =>
        have ht : (∀ σ, o = .variant σ → S σ) ∧ ∀ σ ∈ es.tags, S σ := by
          have := hb.tags
          cases o <;> simp only [TExpr.tags] at this <;> refine ⟨?_, fun σ hσ => this σ (by simp [hσ])⟩ <;>
            first | (intro σ e; cases e; done) | (intro σ e; cases e; exact this _ (by simp))
        have hsc : (o.erase id).scalar = true → ∀ τ ∈ ts, τ = .number := by
          intro h
          cases ho <;> simp [TOp.erase, Op.scalar] at h ⊢
        refine RT.bind (evals_typed es r Γ ts ρ log _ hes (by simpa [Scoped] using hb.scopes) ht.2 hb.fallback
          (fun h => by simpa [TExpr.erase, Expr.total] using hb.total h) hsc hρ hl) fun vs l hvs hl' => ?_
        by_cases hcall : ∃ as q, o = .call as q
        · obtain ⟨as, q, rfl⟩ := hcall
          cases ho
          obtain ⟨f, args, hf, hargs, rfl⟩ := List.forall₂_cons_right_iff.1 hvs
          simp only [TOp.erase]
          exact hc f as τ args l hf hargs hl' r
        · have hn : o.erase id ≠ .call := by
            intro h
            cases o <;> simp [TOp.erase] at h hcall
          obtain ⟨v, hv, hvt⟩ := applyOp_typed hg w hb.fallback ho hn ht.1 hvs
          split
          · rename_i h; exact absurd h hn
          · rw [hv]; exact ⟨hvt, hl'⟩
  | .case e as, r, Γ, τ, ρ, log, hb, hρ, hl => by
      simp only [TExpr.erase, evalU]
      cases hb.type with
      | case he _ has =>
        have hs := hb.scopes
        have ht := hb.tags
        have hT := hb.total
        simp only [Scoped] at hs
        simp only [TExpr.tags, List.mem_append] at ht
        simp only [TExpr.erase, Expr.total, Bool.and_eq_true] at hT
        refine RT.bind (eval_typed e r Γ .variant ρ log
          ⟨he, hs.1, fun σ h => ht σ (.inl h), hb.fallback, fun h => (hT h).1⟩ hρ hl) fun v l hv hl' => ?_
        cases hv with
        | @variant σ v hσ hn hv =>
          exact alts_typed as r Γ τ ρ σ v l has hs.2 (fun σ h => ht σ (.inr h)) hb.fallback (fun h => (hT h).2) hσ hn hv hρ hl'
        | global h => obtain ⟨_, _, h⟩ := hg.functions _ _ h; cases h
  | .if_ e t f, r, Γ, τ, ρ, log, hb, hρ, hl => by
      simp only [TExpr.erase, evalU]
      cases hb.type with
      | if_ he ht hf =>
        have hs := hb.scopes
        have hu := hb.tags
        have hT := hb.total
        simp only [Scoped] at hs
        simp only [TExpr.tags, List.mem_append] at hu
        simp only [TExpr.erase, Expr.total, Bool.and_eq_true] at hT
        refine RT.bind (eval_typed e r Γ .boolean ρ log
          ⟨he, hs.1, fun σ h => hu σ (.inl (.inl h)), hb.fallback, fun h => (hT h).1.1⟩ hρ hl) fun v l hv hl' => ?_
        cases hv with
        | boolean b =>
          cases b
          · exact eval_typed f r Γ τ ρ l ⟨hf, hs.2.2, fun σ h => hu σ (.inr h), hb.fallback, fun h => (hT h).2⟩ hρ hl'
          · exact eval_typed t r Γ τ ρ l ⟨ht, hs.2.1, fun σ h => hu σ (.inl (.inr h)), hb.fallback, fun h => (hT h).1.2⟩ hρ hl'
        | global h => obtain ⟨_, _, h⟩ := hg.functions _ _ h; cases h
  | .let_ x σ e b, r, Γ, τ, ρ, log, hb, hρ, hl => by
      simp only [TExpr.erase, evalU]
      cases hb.type with
      | let_ he ht =>
        have hs := hb.scopes
        have hu := hb.tags
        have hT := hb.total
        simp only [Scoped] at hs
        simp only [TExpr.tags, List.mem_append] at hu
        simp only [TExpr.erase, Expr.total, Bool.and_eq_true] at hT
        refine RT.bind (eval_typed e r Γ σ ρ log
          ⟨he, hs.2.1, fun σ h => hu σ (.inl h), hb.fallback, fun h => (hT h).1⟩ hρ hl) fun v l hv hl' => ?_
        exact eval_typed b r _ τ _ l ⟨ht, hs.2.2, fun σ h => hu σ (.inr h),
          by rw [insert_other _ _ _ _ hs.1, hb.fallback], fun h => (hT h).2⟩ (hρ.set hv) hl'
  | .letRec f env args q th body b, r, Γ, τ, ρ, log, hb, hρ, hl => by
      simp only [TExpr.erase, evalU]
      cases hb.type with
      | letRec he ht =>
        have hs := hb.scopes
        have hu := hb.tags
        have hT := hb.total
        simp only [Scoped] at hs
        simp only [TExpr.tags, List.mem_append] at hu
        simp only [TExpr.erase, Expr.total, Bool.and_eq_true] at hT
        obtain ⟨hf, hargs, henv, hsb, hsc⟩ := hs
        refine eval_typed b r _ τ _ log ⟨ht, hsc, fun σ h => hu σ (.inr h),
          by rw [insert_other _ _ _ _ hf, hb.fallback], fun h => (hT h).2⟩ (hρ.set (.closure ⟨he, hsb, fun σ h => hu σ (.inl h), ?_, fun h => (hT h).1⟩ henv ?_ ?_)) hl
        · rw [insertMany_append, insertMany_agrees _ _ henv, insertMany_other _ _ _ hargs, insert_other _ _ _ _ hf, hb.fallback]
        · exact fun x σ v h1 h2 => (hρ x σ h1).1 v h2
        · exact fun x σ h1 h2 => (hρ x σ h1).2 h2
  | .try_ e x σ t, r, Γ, τ, ρ, log, hb, hρ, hl => by
      simp only [TExpr.erase, evalU]
      cases hb.type with
      | try_ ht he =>
        have hs := hb.scopes
        have hu := hb.tags
        have hT := hb.total
        simp only [Scoped] at hs
        simp only [TExpr.tags, List.mem_append, List.mem_cons] at hu
        simp only [TExpr.erase, Expr.total, Bool.and_eq_true] at hT
        refine RT.bind (eval_typed e r Γ .variant ρ log
          ⟨he, hs.2.1, fun σ h => hu σ (.inr (.inl h)), hb.fallback, fun h => (hT h).1⟩ hρ hl) fun v l hv hl' => ?_
        cases hv with
        | @variant σ' v hσ hn hv =>
          simp only
          split
          · rename_i heq
            have := hi _ _ hσ (hu σ (.inl rfl)) heq
            subst this
            refine RT.bind (eval_typed t r _ r _ l ⟨ht, hs.2.2, fun σ h => hu σ (.inr (.inr h)),
              by rw [insert_other _ _ _ _ hs.1, hb.fallback], fun h => (hT h).2⟩ (hρ.set hv) hl') fun v l hv hl' => ?_
            exact ⟨hv, hl'⟩
          · exact ⟨.variant hσ hn hv, hl'⟩
        | global h => obtain ⟨_, _, h⟩ := hg.functions _ _ h; cases h
  | .clone xs e, r, Γ, τ, ρ, log, hb, hρ, hl => by
      simp only [TExpr.erase, evalU]
      cases hb.type with
      | clone _ he => exact eval_typed e r Γ τ ρ log ⟨he, hb.scopes, hb.tags, hb.fallback, hb.total⟩ hρ hl
  | .drop xs e, r, Γ, τ, ρ, log, hb, hρ, hl => by
      simp only [TExpr.erase, evalU]
      cases hb.type with
      | drop _ he => exact eval_typed e r Γ τ ρ log ⟨he, hb.scopes, hb.tags, hb.fallback, hb.total⟩ hρ hl
theorem evals_typed : (es : TExprs) → (r : Ty) → (Γ : Scope) → (ts : List Ty) → (ρ : Env) → (log : Log) → (scalar : Bool) →
    HaveTypes m.context r Γ es ts → ScopedAll m.fallback Γ es → (∀ σ ∈ es.tags, S σ) →
    Γ m.fallback = m.scope m.fallback → (u = false → (es.erase id).total = true) →
    (scalar = true → ∀ τ ∈ ts, τ = .number) → EnvT m id S u Γ ρ → (∀ e ∈ log, EventTyped m id S e) →
    RT m id S u (fun vs => List.Forall₂ (ValT m id S u) vs ts) r
      (evalsU u w (m.program id) captureAll c scalar ρ (es.erase id) log)
  | .nil, r, Γ, ts, ρ, log, sc, ht, hs, htag, hf, hT, hsc, hρ, hl => by
      simp only [TExprs.erase, evalsU]
      cases ht
      exact ⟨.nil, hl⟩
  | .cons e es, r, Γ, ts, ρ, log, sc, ht, hs, htag, hf, hT, hsc, hρ, hl => by
      simp only [TExprs.erase, evalsU]
      cases ht with
      | @cons _ _ _ _ τ ts he hes =>
        simp only [ScopedAll] at hs
        simp only [TExprs.tags, List.mem_append] at htag
        simp only [TExprs.erase, Exprs.total, Bool.and_eq_true] at hT
        refine RT.bind (eval_typed e r Γ τ ρ log ⟨he, hs.1, fun σ h => htag σ (.inl h), hf, fun h => (hT h).1⟩ hρ hl)
          fun v l hv hl' => ?_
        have hnum : (sc && !v.isNumber) = false := by
          cases sc with
          | false => rfl
          | true =>
            have := hsc rfl τ (by simp)
            subst this
            cases hv with
            | number => rfl
            | global h => obtain ⟨_, _, h⟩ := hg.functions _ _ h; cases h
        simp only [hnum, Bool.false_eq_true, if_false]
        refine RT.bind (evals_typed es r Γ ts ρ l sc hes hs.2 (fun σ h => htag σ (.inr h)) hf (fun h => (hT h).2)
          (fun h τ hτ => hsc h τ (by simp [hτ])) hρ hl') fun vs l hvs hl'' => ?_
        exact ⟨.cons hv hvs, hl''⟩
theorem alts_typed : (as : TAlts) → (r : Ty) → (Γ : Scope) → (τ : Ty) → (ρ : Env) → (σ : Ty) → (v : Value) → (log : Log) →
    AltsHaveType m.context r Γ as τ → ScopedAlts m.fallback Γ as → (∀ σ ∈ as.tags, S σ) →
    Γ m.fallback = m.scope m.fallback → (u = false → (as.erase id).total = true) →
    S σ → σ ≠ .variant → ValT m id S u v σ → EnvT m id S u Γ ρ → (∀ e ∈ log, EventTyped m id S e) →
    RT m id S u (fun v => ValT m id S u v τ) r
      (evalAltsU u w (m.program id) captureAll c ρ (id σ) v (as.erase id) log)
  | .nil, r, Γ, τ, ρ, σ, v, log, ht, hs, htag, hf, hT, hσ, hn, hv, hρ, hl => by
      simp only [TAlts.erase, evalAltsU]
      cases u with
      | true => trivial
      | false => simp [TAlts.erase, Alts.total] at hT
  | .default x e, r, Γ, τ, ρ, σ, v, log, ht, hs, htag, hf, hT, hσ, hn, hv, hρ, hl => by
      simp only [TAlts.erase, evalAltsU, matchAlternative]
      simp only [ScopedAlts] at hs
      cases ht with
      | default he =>
        exact eval_typed e r _ τ _ log ⟨he, hs.2, fun σ h => htag σ (by simpa [TAlts.tags] using h),
          by rw [insert_other _ _ _ _ hs.1, hf], fun h => by simpa [TAlts.erase, Alts.total] using hT h⟩ (hρ.set (.variant hσ hn hv)) hl
  | .cons ts x e as, r, Γ, τ, ρ, σ, v, log, ht, hs, htag, hf, hT, hσ, hn, hv, hρ, hl => by
      simp only [TAlts.erase, evalAltsU]
      simp only [ScopedAlts] at hs
      simp only [TAlts.tags, List.mem_append] at htag
      simp only [TAlts.erase, Alts.total, Bool.and_eq_true] at hT
      cases ht with
      | @one _ _ _ _ _ σ' _ hσ' he has =>
        have ih := alts_typed as r Γ τ ρ σ v log has hs.2.2 (fun σ h => htag σ (.inr h)) hf (fun h => (hT h).2) hσ hn hv hρ hl
        simp only [List.map_cons, List.map_nil, matchAlternative]
        by_cases heq : id σ' = id σ
        · have := hi _ _ (htag σ' (.inl (.inl (by simp)))) hσ heq
          subst this
          simp only [if_true]
          exact eval_typed e r _ τ _ log ⟨he, by simpa [alternativeType] using hs.2.1, fun σ h => htag σ (.inl (.inr h)),
            by rw [insert_other _ _ _ _ hs.1, hf], fun h => (hT h).1⟩ (hρ.set hv) hl
        · simp only [if_neg heq]
          exact ih
      | many hlen hv' he has =>
        have ih := alts_typed as r Γ τ ρ σ v log has hs.2.2 (fun σ h => htag σ (.inr h)) hf (fun h => (hT h).2) hσ hn hv hρ hl
        have hat : alternativeType ts = .variant := by
          match ts, hlen with
          | a :: b :: ts, _ => rfl
        rw [matchAlternative_many hlen]
        by_cases hmem : id σ ∈ ts.map id
        · simp only [if_pos hmem]
          exact eval_typed e r _ τ _ log ⟨he, by simpa [hat] using hs.2.1, fun σ h => htag σ (.inl (.inr h)),
            by rw [insert_other _ _ _ _ hs.1, hf], fun h => (hT h).1⟩ (hρ.set (.variant hσ hn hv)) hl
        · simp only [if_neg hmem]
          exact ih
end
end

end Verif.Mir.Typed
