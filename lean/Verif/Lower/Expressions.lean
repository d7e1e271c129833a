import Verif.Lower.Alternatives

/-! # Simulation of expressions and calls -/

namespace Verif.Lower

open Verif.Hir (Ty Ctx Expr Module Definition RecordField Val Out)
open Verif

variable {K : Config} {a : Nat} {S : List Ty} {m : Module} {q : Bool} {W : Hir.World} {w : Mir.World} {p : Mir.Program}

section
variable (K a S m q W w p)
/-- Calls do the same. -/
def CallSim (n k : Nat) : Prop := ∀ f f' vs us, Rel K a S m f f' → List.Forall₂ (Rel K a S m) vs us →
  Sim K a S m q (Rel K a S m) ((Hir.evaluator W m a n).apply f vs) (Mir.apply w p Mir.captureAll k f' us)

/-- Expressions that compile to each other do the same. -/
def ExprSim (n k d : Nat) : Prop := ∀ d' e e' env ρ, compile K a m.ctx d e = some e' → plain K a m.ctx S d' e = true →
  EnvRel K a S m env ρ → Sim K a S m q (Rel K a S m) ((Hir.evaluator W m a n).eval env e) (meval w p k ρ e')
end

theorem some_bind {α β : Type} {o : Option α} {f : α → Option β} {b : β} (h : (o >>= f) = some b) :
    ∃ x, o = some x ∧ f x = some b := by
  simpa [Option.bind_eq_some_iff] using h

theorem mapM_forall₂ {α β : Type} {f : α → Option β} : ∀ {xs : List α} {ys : List β}, xs.mapM f = some ys →
    List.Forall₂ (fun x y => f x = some y) xs ys
  | [], ys, h => by simp at h; subst h; exact .nil
  | x :: xs, ys, h => by
    simp only [List.mapM_cons, Option.bind_eq_bind, Option.pure_def, Option.bind_eq_some_iff, Option.some.injEq] at h
    obtain ⟨y, h1, ys', h2, rfl⟩ := h
    exact .cons h1 (mapM_forall₂ h2)

theorem all_mem {α : Type} {f : α → Bool} {xs : List α} (h : xs.all f = true) : ∀ x ∈ xs, f x = true :=
  List.all_eq_true.mp h

/-! ## Variables -/

theorem sim_variable {n : Nat} {x : String} {env : Hir.Env} {ρ : Mir.Env} (hx : plainName K x = true)
    (he : EnvRel K a S m env ρ) (hf : ∀ f, Hir.lastLookup (m.definitions.map fun f => (f.name, f)) x = some f →
      p.isGlobal x = true) (hd : ∀ x ∈ m.declarations.map (·.1), p.isGlobal x = true) :
    Sim K a S m q (Rel K a S m) (Hir.lookup m env x) (meval w p n ρ (.variable x)) := by
  intro l l' hl
  have h1 := he.2 x hx
  unfold Hir.lookup
  simp only [meval, Mir.eval, Mir.lookup]
  cases h2 : env x with
  | some v =>
    cases h3 : ρ x with
    | none => simp only [h2, h3] at h1
    | some u =>
      simp only [h2, h3] at h1
      exact ⟨h1, hl⟩
  | none =>
    cases h3 : ρ x with
    | some u => simp only [h2, h3] at h1
    | none =>
      simp only
      cases h4 : Hir.lastLookup (m.definitions.map fun f => (f.name, f)) x with
      | some f =>
        simp only [hf f h4, if_true, Mir.R.ofOption, Out.val, ResRel]
        exact ⟨.definition h4, hl⟩
      | none =>
        by_cases h5 : x ∈ m.declarations.map (·.1)
        · have h6 : (m.declarations.map (·.1)).contains x = true := by simpa using h5
          simp only [h6, if_true, hd x h5, Mir.R.ofOption, Out.val, ResRel]
          refine ⟨.foreign h4 h5 ?_, hl⟩
          rintro rfl
          simp [plainName] at hx
        · have h6 : (m.declarations.map (·.1)).contains x = false := by
            rw [Bool.eq_false_iff]; simpa using h5
          simp only [h6, Bool.false_eq_true, if_false, Out.stuck, ResRel]

/-! ## Compiled alternatives -/

theorem sim_alternatives {n k d : Nat} (hp : ∀ t ∈ S, ∀ u ∈ S, typeId K t = typeId K u → t = u)
    (hs : ExprSim K a S m q W w p n k d) {d' : Nat} {x : String} (hx : plainName K x = true) {tag : Ty} {v : Val} {u : Mir.Value} (ht : tag ∈ S)
    (hv : Rel K a S m v u) {else_ : Option (Option Ty × Expr)} {env : Hir.Env} {ρ : Mir.Env} (he : EnvRel K a S m env ρ)
    (hpe : else_.all (fun b => b.1.all (taggedType a m.ctx S) && plain K a m.ctx S d' b.2) = true) :
    ∀ {bs : List (Ty × Expr)} {alts : Mir.Alts}, compileAlternatives K a m.ctx (compile K a m.ctx d) x bs else_ = some alts →
    (∀ b ∈ bs, taggedType a m.ctx S b.1 && plain K a m.ctx S d' b.2) →
    Sim K a S m q (Rel K a S m) (Hir.stepAlternatives m (Hir.evaluator W m a n) env x tag v bs else_)
      (Mir.evalAlts w p Mir.captureAll (Mir.apply w p Mir.captureAll k) ρ (typeId K tag) (box K tag u) alts)
  | (t, e) :: bs, alts, h, hb => by
    have htypes : (Hir.evaluator W m a n).types = a := by cases n <;> rfl
    unfold compileAlternatives at h
    obtain ⟨c, hc, h⟩ := some_bind h
    obtain ⟨e', h1, h⟩ := some_bind h
    obtain ⟨alt, h2, h⟩ := some_bind h
    obtain ⟨alts', h3, h⟩ := some_bind h
    simp only [Option.some.injEq] at h
    subst h
    have hc := ok?_eq hc
    obtain ⟨h4, h5⟩ := (Bool.and_eq_true _ _).mp (hb (t, e) (by simp))
    have h4 : tagged S c = true := by simpa [taggedType, hc] using h4
    have ih := sim_alternatives hp hs hx ht hv he hpe h3 fun b hb' => hb b (by simp [hb'])
    intro l l' hl
    rw [evalAlternative hp (Hir.Canon.of_ok hc) h4 ht h2]
    unfold Hir.stepAlternatives
    rw [htypes, hc]
    show ResRel K a S m q _ ((if Hir.alternativeMatches c tag = true then _ else _ : Out Val) l) _
    by_cases hm : Hir.alternativeMatches c tag = true
    · rw [if_pos hm, if_pos hm]
      exact hs d' e e' _ _ h1 h5 (he.set (alternativeRep_rel ht hv) hx) l l' hl
    · rw [if_neg hm, if_neg hm]
      exact ih l l' hl
  | [], alts, h, hb => by
    have htypes : (Hir.evaluator W m a n).types = a := by cases n <;> rfl
    match else_, hpe, h with
    | none, _, h =>
      unfold Hir.stepAlternatives
      exact Sim.stuck
    | some (none, e), _, h => unfold compileAlternatives at h; cases h
    | some (some t, e), hpe, h =>
      unfold compileAlternatives at h
      obtain ⟨c, hc, h⟩ := some_bind h
      obtain ⟨e', h1, h⟩ := some_bind h
      have hc := ok?_eq hc
      obtain ⟨h4, h5⟩ := (Bool.and_eq_true _ _).mp (show _ = true by simpa using hpe)
      have h4 : tagged S c = true := by simpa [taggedType, hc] using h4
      intro l l' hl
      unfold Hir.stepAlternatives
      rw [htypes, hc]
      show ResRel K a S m q _ ((if c = .any then _ else if Hir.alternativeMatches c tag = true then _ else _ : Out Val) l) _
      by_cases ha : c = .any
      · rw [if_pos ha] at h ⊢
        simp only [Option.some.injEq] at h
        subst h
        simp only [Mir.evalAlts, Mir.matchAlternative]
        exact hs d' e e' _ _ h1 h5 (he.set (.variant ht hv) hx) l l' hl
      · rw [if_neg ha] at h ⊢
        obtain ⟨alt, h2, h⟩ := some_bind h
        simp only [Option.some.injEq] at h
        subst h
        rw [evalAlternative hp (Hir.Canon.of_ok hc) h4 ht h2]
        by_cases hm : Hir.alternativeMatches c tag = true
        · rw [if_pos hm, if_pos hm]
          exact hs d' e e' _ _ h1 h5 (he.set (alternativeRep_rel ht hv) hx) l l' hl
        · rw [if_neg hm, if_neg hm]
          simp [Out.stuck, ResRel]

/-! ## Records -/

/-- Values of fields bound to variables. -/
def FieldEnv (K : Config) (a : Nat) (S : List Ty) (m : Module) (gs : List (String × Val)) (ρ : Mir.Env) : Prop :=
  ∀ x v, Hir.lookupField gs x = some v → ∃ u, ρ (fieldVariable x) = some u ∧ Rel K a S m v u

theorem fieldVariable_inj {x y : String} (h : fieldVariable x = fieldVariable y) : x = y := by
  have := congrArg String.toList h
  simp only [fieldVariable, String.toList_append] at this
  exact String.toList_injective (List.append_cancel_left this)

theorem sim_fields {n k d : Nat} (hK : internal K.stringEqual = false) (hs : ExprSim K a S m q W w p n k d) {d' : Nat} {body : Mir.Expr} {env : Hir.Env}
    {c : List (String × Val) → Out Val} :
    ∀ {fields : List (String × Expr)} {es : List (String × Mir.Expr)} {ρ : Mir.Env} {gs : List (String × Val)},
    compileFields (compile K a m.ctx d) fields = some es → (∀ f ∈ fields, plain K a m.ctx S d' f.2 = true) →
    EnvRel K a S m env ρ → FieldEnv K a S m gs ρ →
    (∀ fs ρ, fs.map (·.1) = fields.map (·.1) → EnvRel K a S m env ρ → FieldEnv K a S m (fs.reverse ++ gs) ρ →
      Sim K a S m q (Rel K a S m) (c fs) (meval w p k ρ body)) →
    Sim K a S m q (Rel K a S m)
      (Out.mapList (fun f : String × Expr => do
        let v ← (Hir.evaluator W m a n).eval env f.2
        Out.val (f.1, v)) fields >>= c)
      (meval w p k ρ (compileRecordFields es body))
  | [], es, ρ, gs, h, _, he, hg, hk => by
    simp [compileFields] at h
    subst h
    intro l l' hl
    exact hk [] ρ rfl he hg l l' hl
  | (x, e) :: fields, es, ρ, gs, h, hp, he, hg, hk => by
    simp only [compileFields, List.mapM_cons] at h
    obtain ⟨p1, h1, h⟩ := some_bind h
    obtain ⟨es', h2, h⟩ := some_bind h
    simp only [Option.pure_def, Option.some.injEq] at h
    subst h
    simp only [Option.map_eq_some_iff] at h1
    obtain ⟨e', h1, rfl⟩ := h1
    have h3 := hs d' e e' env ρ h1 (hp (x, e) (by simp)) he
    have h4 : Sim K a S m q (Rel K a S m) ((Hir.evaluator W m a n).eval env e >>= fun v =>
        Out.mapList (fun f : String × Expr => do
          let v ← (Hir.evaluator W m a n).eval env f.2
          Out.val (f.1, v)) fields >>= fun fs => c ((x, v) :: fs))
        (meval w p k ρ (compileRecordFields ((x, e') :: es') body)) := by
      simp only [compileRecordFields, meval, Mir.eval]
      refine Sim.bind h3 fun v u hv => ?_
      refine sim_fields hK hs (gs := (x, v) :: gs) h2 (fun f hf => hp f (by simp [hf])) (he.skip hK (internal_field x) u) ?_ ?_
      · intro y v' hy
        rw [lookupField_cons] at hy
        by_cases hxy : x = y
        · rw [if_pos hxy] at hy
          cases hy
          subst hxy
          exact ⟨u, by simp [Mir.Env.set], hv⟩
        · rw [if_neg hxy] at hy
          obtain ⟨u', h5, h6⟩ := hg y v' hy
          refine ⟨u', ?_, h6⟩
          unfold Mir.Env.set
          rw [if_neg (fun h => hxy (fieldVariable_inj h).symm), h5]
      · intro fs ρ' hfs he' hg'
        exact hk ((x, v) :: fs) ρ' (by simp [hfs]) he' (by simpa using hg')
    intro l l' hl
    have h5 := h4 l l' hl
    have h6 : (Out.mapList (fun f : String × Expr => do
        let v ← (Hir.evaluator W m a n).eval env f.2
        Out.val (f.1, v)) ((x, e) :: fields) >>= c) l = ((Hir.evaluator W m a n).eval env e >>= fun v =>
        Out.mapList (fun f : String × Expr => do
          let v ← (Hir.evaluator W m a n).eval env f.2
          Out.val (f.1, v)) fields >>= fun fs => c ((x, v) :: fs)) l := by
      rw [Out.mapList]
      show Out.bind (Out.bind (Out.bind _ _) _) c l = Out.bind _ _ l
      unfold Out.bind
      cases (Hir.evaluator W m a n).eval env e l <;> simp only [Out.val]
      simp only [bind, Out.bind]
      cases Out.mapList _ fields _ <;> rfl
    rw [h6]
    exact h5

theorem relFields_of_env {n : Nat} {gs : List (String × Val)} {ρ : Mir.Env} (hg : FieldEnv K a S m gs ρ) :
    ∀ {ts : List RecordField}, (∀ t ∈ ts, (Hir.lookupField gs t.name).isSome = true) → ∀ l,
    ∃ us, mevals w p n false ρ (operands (ts.map fun t => .variable (fieldVariable t.name))) l = .ok us l ∧
      RelFields K a S m gs ts us
  | [], _, l => ⟨[], rfl, .nil⟩
  | t :: ts, h, l => by
    obtain ⟨us, h1, h2⟩ := relFields_of_env hg (ts := ts) (fun t ht => h t (by simp [ht])) l
    obtain ⟨v, hv⟩ := Option.isSome_iff_exists.mp (h t (by simp))
    obtain ⟨u, h3, h4⟩ := hg _ _ hv
    refine ⟨u :: us, ?_, .cons hv h4 h2⟩
    simp only [List.map_cons, operands, Mir.Exprs.ofList, mevals, Mir.evals, Mir.eval, Mir.lookup, h3, Mir.R.ofOption,
      Mir.R.bind, Bool.false_and, Bool.false_eq_true, if_false]
    simp only [operands, mevals] at h1
    rw [h1]

end Verif.Lower
