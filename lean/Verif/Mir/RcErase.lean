import Verif.Mir.Semantics
import Verif.Mir.Rc
import Verif.Mir.Linear

/- Without clones and drops, a program does the same with values. -/
namespace Verif.Mir

mutual
/-- An expression without clones and drops. -/
def erase : Expr → Expr
  | .literal l => .literal l
  | .variable x => .variable x
  | .op o es => .op o (eraseExprs es)
  | .case e as => .case (erase e) (eraseAlts as)
  | .if_ c t e => .if_ (erase c) (erase t) (erase e)
  | .let_ x e b => .let_ x (erase e) (erase b)
  | .letRec f env args th body b => .letRec f env args th (erase body) (erase b)
  | .try_ e x t b => .try_ (erase e) x t (erase b)
  | .clone _ e => erase e
  | .drop _ e => erase e
def eraseExprs : Exprs → Exprs
  | .nil => .nil
  | .cons e es => .cons (erase e) (eraseExprs es)
def eraseAlts : Alts → Alts
  | .nil => .nil
  | .cons ts x e as => .cons ts x (erase e) (eraseAlts as)
end

mutual
/-- A value whose functions have no clones and drops. -/
def Value.erase : Value → Value
  | .none => .none
  | .boolean b => .boolean b
  | .number n => .number n
  | .string s => .string s
  | .record t vs => .record t (Value.eraseList vs)
  | .variant t v => .variant t v.erase
  | .closure f env args th body ρ => .closure f env args th (Verif.Mir.erase body) fun x => Value.eraseOption (ρ x)
  | .global g => .global g
def Value.eraseList : List Value → List Value
  | [] => []
  | v :: vs => v.erase :: Value.eraseList vs
def Value.eraseOption : Option Value → Option Value
  | some v => some v.erase
  | Option.none => Option.none
end

def Env.erase (ρ : Env) : Env := fun x => Value.eraseOption (ρ x)

def R.mapR {α β : Type} (f : α → β) : R α → R β
  | .ok a l => .ok (f a) l
  | .ret v l => .ret v.erase l
  | .timeout => .timeout
  | .stuck => .stuck

theorem R.mapR_bind {α β γ δ : Type} {f : α → β} {g : γ → δ} {r : R α} {r' : R β} {k : α → Log → R γ} {k' : β → Log → R δ}
    (h : r' = r.mapR f) (hk : ∀ a l, k' (f a) l = (k a l).mapR g) : r'.bind k' = (r.bind k).mapR g := by
  subst h
  cases r with
  | ok a l => exact hk a l
  | _ => rfl

theorem R.mapR_catch (r : R Value) : (r.mapR Value.erase).catch = r.catch.mapR Value.erase := by
  cases r <;> rfl

theorem eraseList_map (vs : List Value) : Value.eraseList vs = vs.map Value.erase := by
  induction vs with
  | nil => rfl
  | cons v vs ih => simp [Value.eraseList, ih]

theorem erase_isNumber (v : Value) : v.erase.isNumber = v.isNumber := by
  cases v <;> simp [Value.erase, Value.isNumber]

theorem erase_set (ρ : Env) (x : Name) (v : Value) : Env.erase (ρ.set x v) = (Env.erase ρ).set x v.erase := by
  funext y
  unfold Env.erase Env.set
  split <;> simp [Value.eraseOption]

theorem erase_setMany : ∀ (xs : List Name) (vs : List Value) (ρ : Env),
    (Env.erase ρ).setMany xs (vs.map Value.erase) = (ρ.setMany xs vs).map Env.erase
  | [], [], ρ => rfl
  | [], _ :: _, _ => rfl
  | _ :: _, [], _ => rfl
  | x :: xs, v :: vs, ρ => by
    simp only [List.map_cons, Env.setMany, ← erase_set]
    exact erase_setMany xs vs _

theorem erase_capture (env : List Name) (ρ : Env) :
    Env.erase (captureEnvironment env ρ) = captureEnvironment env (Env.erase ρ) := by
  funext x
  unfold Env.erase captureEnvironment
  split <;> simp [Value.eraseOption]

mutual
theorem erase_obs : ∀ v : Value, v.erase.obs = v.obs
  | .none | .boolean _ | .number _ | .string _ | .global _ => rfl
  | .closure .. => rfl
  | .record t vs => by simp [Value.erase, Value.obs, erase_obsList vs]
  | .variant t v => by simp [Value.erase, Value.obs, erase_obs v]
theorem erase_obsList : ∀ vs : List Value, Value.obsList (Value.eraseList vs) = Value.obsList vs
  | [] => rfl
  | v :: vs => by simp [Value.eraseList, Value.obsList, erase_obs v, erase_obsList vs]
end

mutual
theorem erase_value : ∀ (o : Obs), o.value.map Value.erase = o.value
  | .none | .boolean _ | .number _ | .string _ | .function => rfl
  | .record t vs => by
    simp only [Obs.value]
    have := erase_valueList vs
    cases h : Obs.valueList vs with
    | none => rfl
    | some us => rw [h] at this; simp only [Option.map_some, Option.some.injEq] at this ⊢; simp [Value.erase, this]
  | .variant t v => by
    simp only [Obs.value]
    have := erase_value v
    cases h : v.value with
    | none => rfl
    | some u => rw [h] at this; simp only [Option.map_some, Option.some.injEq] at this ⊢; simp [Value.erase, this]
theorem erase_valueList : ∀ (os : List Obs), (Obs.valueList os).map Value.eraseList = Obs.valueList os
  | [] => rfl
  | o :: os => by
    simp only [Obs.valueList]
    have h1 := erase_value o
    have h2 := erase_valueList os
    cases h : o.value with
    | none => rfl
    | some u =>
      rw [h] at h1
      cases h' : Obs.valueList os with
      | none => rfl
      | some us =>
        rw [h'] at h2
        simp only [Option.map_some, Option.some.injEq, Option.bind_some] at h1 h2 ⊢
        simp [Value.eraseList, h1, h2]
end

def Global.erase (d : Global) : Global := { d with body := Verif.Mir.erase d.body }

def Program.erase (p : Program) : Program := { p with globals := p.globals.map Global.erase }

theorem erase_find (p : Program) (g : Name) : p.erase.find g = (p.find g).map Global.erase := by
  unfold Program.find Program.erase
  simp only [List.find?_map]
  congr 1

theorem erase_isGlobal (p : Program) (x : Name) : p.erase.isGlobal x = p.isGlobal x := by
  unfold Program.isGlobal
  rw [erase_find]
  simp [Program.erase]

theorem erase_lookup (p : Program) (ρ : Env) (x : Name) :
    lookup p.erase (Env.erase ρ) x = (lookup p ρ x).map Value.erase := by
  unfold lookup Env.erase
  rw [erase_isGlobal]
  cases ρ x with
  | some v => rfl
  | none => simp only [Value.eraseOption]; split <;> rfl

theorem erase_updateFields : ∀ (is : List Nat) (vs ws : List Value),
    updateFields (vs.map Value.erase) is (ws.map Value.erase) = (updateFields vs is ws).map (List.map Value.erase)
  | [], vs, [] => rfl
  | [], vs, _ :: _ => rfl
  | _ :: _, vs, [] => rfl
  | i :: is, vs, w :: ws => by
    simp only [updateFields, List.map_cons, List.length_map]
    split
    · rw [← List.map_set, erase_updateFields is]
    · rfl

theorem erase_concatenate : ∀ (vs : List Value), concatenate (vs.map Value.erase) = concatenate vs
  | [] => rfl
  | v :: vs => by
    cases v <;> simp [Value.erase, concatenate, erase_concatenate vs]

theorem erase_applyOp (w : World) (p : Program) (o : Op) (vs : List Value) :
    applyOp w p.erase o (vs.map Value.erase) = (applyOp w p o vs).map Value.erase := by
  cases o with
  | arithmetic o =>
    rcases vs with _ | ⟨v, _ | ⟨u, _ | ⟨_, _⟩⟩⟩ <;> try rfl
    · cases v <;> simp [Value.erase, applyOp]
    · cases v <;> cases u <;> simp [Value.erase, applyOp]
    · cases v <;> cases u <;> simp [Value.erase, applyOp]
  | comparison o =>
    rcases vs with _ | ⟨v, _ | ⟨u, _ | ⟨_, _⟩⟩⟩ <;> try rfl
    · cases v <;> simp [Value.erase, applyOp]
    · cases v <;> cases u <;> simp [Value.erase, applyOp]
    · cases v <;> cases u <;> simp [Value.erase, applyOp]
  | call => simp [applyOp]
  | record t => simp [applyOp, Value.erase, eraseList_map]
  | field i =>
    rcases vs with _ | ⟨v, _ | ⟨u, us⟩⟩
    · rfl
    · cases v <;> simp [Value.erase, applyOp, eraseList_map]
    · cases v <;> simp [Value.erase, applyOp]
  | update is =>
    rcases vs with _ | ⟨v, us⟩
    · rfl
    · cases v <;> simp [Value.erase, applyOp, eraseList_map, erase_updateFields, Function.comp_def]
  | concatenation => simp [applyOp, erase_concatenate, Function.comp_def, Value.erase]
  | synchronize => rcases vs with _ | ⟨v, _ | ⟨u, us⟩⟩ <;> simp [applyOp]
  | typeInformation =>
    rcases vs with _ | ⟨v, _ | ⟨u, us⟩⟩
    · rfl
    · cases v <;> simp [Value.erase, applyOp, Program.erase]
    · cases v <;> simp [Value.erase, applyOp]
  | variant t => rcases vs with _ | ⟨v, _ | ⟨u, us⟩⟩ <;> simp [applyOp, Value.erase]

theorem erase_match (ts : Option (List TypeId)) (t : TypeId) (v : Value) :
    matchAlternative ts t v.erase = (matchAlternative ts t v).map Value.erase := by
  unfold matchAlternative
  split
  · simp [Value.erase]
  · split <;> rfl
  · split <;> simp [Value.erase]

theorem R.mapR_ofOption {α β : Type} (f : α → β) (o : Option α) (l : Log) :
    R.ofOption (o.map f) l = (R.ofOption o l).mapR f := by cases o <;> rfl

section
variable {w : World} {p : Program} {c c' : Caller}
  (hc : ∀ f vs l, c' f.erase (vs.map Value.erase) l = (c f vs l).mapR Value.erase)
include hc

mutual
theorem eval_erase : ∀ (ρ : Env) (e : Expr) (l : Log),
    eval w p.erase captureEnvironment c' (Env.erase ρ) (erase e) l = (eval w p captureEnvironment c ρ e l).mapR Value.erase
  | ρ, .literal lit, l => by cases lit <;> rfl
  | ρ, .variable x, l => by simp only [erase, eval, erase_lookup, R.mapR_ofOption]
  | ρ, .op o es, l => by
    simp only [erase, eval]
    refine R.mapR_bind (evals_erase o.scalar ρ es l) fun vs l => ?_
    cases o with
    | call =>
      cases vs with
      | nil => rfl
      | cons f vs => exact hc f vs l
    | _ => simp only []; rw [erase_applyOp, R.mapR_ofOption]
  | ρ, .case e as, l => by
    simp only [erase, eval]
    refine R.mapR_bind (eval_erase ρ e l) fun v l => ?_
    cases v with
    | variant t v => exact evalAlts_erase ρ t v as l
    | _ => rfl
  | ρ, .if_ b t e, l => by
    simp only [erase, eval]
    refine R.mapR_bind (eval_erase ρ b l) fun v l => ?_
    cases v with
    | boolean b => cases b <;> [exact eval_erase ρ e l; exact eval_erase ρ t l]
    | _ => rfl
  | ρ, .let_ x e b, l => by
    simp only [erase, eval]
    refine R.mapR_bind (eval_erase ρ e l) fun v l => ?_
    rw [← erase_set]
    exact eval_erase _ b l
  | ρ, .letRec f env args th body b, l => by
    simp only [erase, eval]
    rw [← eval_erase _ b l, erase_set, ← erase_capture]
    rfl
  | ρ, .try_ e x t b, l => by
    simp only [erase, eval]
    refine R.mapR_bind (eval_erase ρ e l) fun v l => ?_
    cases v with
    | variant t' u =>
      simp only [Value.erase]
      split
      · refine R.mapR_bind (f := Value.erase) ?_ fun v l => rfl
        rw [← erase_set]
        exact eval_erase _ b l
      · rfl
    | _ => rfl
  | ρ, .clone _ e, l => by simp only [erase, eval]; exact eval_erase ρ e l
  | ρ, .drop _ e, l => by simp only [erase, eval]; exact eval_erase ρ e l
theorem evals_erase (scalar : Bool) : ∀ (ρ : Env) (es : Exprs) (l : Log),
    evals w p.erase captureEnvironment c' scalar (Env.erase ρ) (eraseExprs es) l = (evals w p captureEnvironment c scalar ρ es l).mapR (List.map Value.erase)
  | ρ, .nil, l => rfl
  | ρ, .cons e es, l => by
    simp only [eraseExprs, evals]
    refine R.mapR_bind (eval_erase ρ e l) fun v l => ?_
    rw [erase_isNumber]
    split
    · rfl
    · exact R.mapR_bind (evals_erase scalar ρ es l) fun vs l => rfl
theorem evalAlts_erase : ∀ (ρ : Env) (t : TypeId) (v : Value) (as : Alts) (l : Log),
    evalAlts w p.erase captureEnvironment c' (Env.erase ρ) t v.erase (eraseAlts as) l = (evalAlts w p captureEnvironment c ρ t v as l).mapR Value.erase
  | ρ, t, v, .nil, l => rfl
  | ρ, t, v, .cons ts x e as, l => by
    simp only [eraseAlts, evalAlts, erase_match]
    cases matchAlternative ts t v with
    | none => exact evalAlts_erase ρ t v as l
    | some u =>
      simp only [Option.map_some]
      rw [← erase_set]
      exact eval_erase _ e l
end
end

theorem apply_erase (w : World) (p : Program) : ∀ n f vs l,
    apply w p.erase captureEnvironment n f.erase (vs.map Value.erase) l = (apply w p captureEnvironment n f vs l).mapR Value.erase
  | 0, f, vs, l => by cases f <;> rfl
  | n + 1, f, vs, l => by
    have ih := apply_erase w p n
    cases f with
    | closure f env args th body ρ =>
      simp only [apply, Value.erase]
      have h1 := erase_set ρ f (.closure f env args th body ρ)
      simp only [Value.erase] at h1
      change (match (Env.set (Env.erase ρ) f (.closure f env args th (erase body) (Env.erase ρ))).setMany args _ with
        | some ρ => _
        | none => _) = _
      change _ = (Env.erase ρ).set f (.closure f env args th (erase body) (Env.erase ρ)) at h1
      rw [← h1, erase_setMany]
      cases (Env.set ρ f (Value.closure f env args th body ρ)).setMany args vs with
      | none => rfl
      | some ρ => simp only [Option.map_some]; rw [eval_erase ih, R.mapR_catch]
    | global g =>
      simp only [apply, Value.erase]
      rw [erase_find]
      cases p.find g with
      | some d =>
        simp only [Option.map_some, Global.erase]
        have := erase_setMany d.args vs (fun _ => none)
        change Env.setMany (fun _ => none) _ _ = _ at this
        rw [this]
        cases Env.setMany (fun _ => none) d.args vs with
        | none => rfl
        | some ρ => simp only [Option.map_some]; rw [eval_erase ih, R.mapR_catch]
      | none =>
        simp only [Option.map_none]
        change (if p.foreign.contains g then _ else _) = _
        split
        · unfold callForeign
          rw [← eraseList_map, erase_obsList]
          have := erase_value (w.foreign l g (Value.obsList vs))
          simp only []
          rw [← R.mapR_ofOption, this]
        · rfl
    | _ => rfl

/-- A program without its clones and drops does the same. -/
theorem run_erase (w : World) (p : Program) (n : Nat) (g : Name) (args : List Obs) :
    p.erase.run w captureEnvironment n g args = (p.run w captureEnvironment n g args).mapR Value.erase := by
  unfold Program.run
  have := erase_valueList args
  cases h : Obs.valueList args with
  | none => rfl
  | some vs =>
    rw [h] at this
    simp only [Option.map_some, Option.some.injEq] at this
    simp only []
    rw [← apply_erase, ← eraseList_map, this]
    rfl

theorem outcome_mapR (r : R Value) : (r.mapR Value.erase).outcome = r.outcome := by
  cases r <;> simp [R.mapR, R.outcome, erase_obs]

/-! ### Reference counting adds clones and drops only -/

theorem erase_cloneVariables (D xs : List Name) (e : Expr) : erase (cloneVariables D xs e) = erase e := by
  unfold cloneVariables; split <;> simp [erase]

theorem erase_dropVariables (D xs : List Name) (e : Expr) : erase (dropVariables D xs e) = erase e := by
  unfold dropVariables; split <;> simp [erase]

mutual
theorem erase_rc : ∀ (D : List Name) (e : Expr) (M : List Name), uncounted e = true → erase (rc D e M).1 = e
  | D, .literal l, M, _ => rfl
  | D, .variable x, M, _ => by
    simp only [rc]; split <;> simp [erase_cloneVariables, erase]
  | D, .op o es, M, h => by
    simp only [uncounted] at h
    simp only [rc]
    split
    · simp [erase, erase_rcForward D es M h]
    · simp [erase, erase_rcBackward D es M h]
  | D, .case e as, M, h => by
    simp only [uncounted, Bool.and_eq_true] at h
    simp only [rc, erase, erase_rc D e _ h.1, erase_rcAlts D as M _ h.2]
  | D, .if_ c t e, M, h => by
    simp only [uncounted, Bool.and_eq_true] at h
    simp only [rc, erase, erase_dropVariables, erase_rc D c _ h.1.1, erase_rc D t _ h.1.2, erase_rc D e _ h.2]
  | D, .let_ x e b, M, h => by
    simp only [uncounted, Bool.and_eq_true] at h
    simp only [rc, erase, erase_rc D e _ h.1]
    split <;> simp only [erase_dropVariables, erase_rc _ b _ h.2]
  | D, .letRec f env args th body b, M, h => by
    simp only [uncounted, Bool.and_eq_true] at h
    simp only [rc, erase, erase_cloneVariables, erase_dropVariables, erase_rc _ body _ h.1]
    split <;> simp only [erase_dropVariables, erase_rc _ b _ h.2]
  | D, .try_ e x t b, M, h => by
    simp only [uncounted, Bool.and_eq_true] at h
    simp only [rc, erase, erase_dropVariables, erase_rc D e _ h.1, erase_rc D b _ h.2]
  | _, .clone _ _, _, h => by simp [uncounted] at h
  | _, .drop _ _, _, h => by simp [uncounted] at h
theorem erase_rcBackward : ∀ (D : List Name) (es : Exprs) (M : List Name), uncountedExprs es = true →
    eraseExprs (rcBackward D es M).1 = es
  | D, .nil, M, _ => rfl
  | D, .cons e es, M, h => by
    simp only [uncountedExprs, Bool.and_eq_true] at h
    simp only [rcBackward, eraseExprs, erase_rc D e _ h.1, erase_rcBackward D es _ h.2]
theorem erase_rcForward : ∀ (D : List Name) (es : Exprs) (M : List Name), uncountedExprs es = true →
    eraseExprs (rcForward D es M).1 = es
  | D, .nil, M, _ => rfl
  | D, .cons e es, M, h => by
    simp only [uncountedExprs, Bool.and_eq_true] at h
    simp only [rcForward, eraseExprs, erase_rc D e _ h.1, erase_rcForward D es _ h.2]
theorem erase_rcAlts : ∀ (D : List Name) (as : Alts) (M all : List Name), uncountedAlts as = true →
    eraseAlts (finishAlts D all (rcAlts D as M)) = as
  | D, .nil, M, all, _ => rfl
  | D, .cons ts x e as, M, all, h => by
    simp only [uncountedAlts, Bool.and_eq_true] at h
    simp only [rcAlts, finishAlts, eraseAlts, erase_dropVariables, erase_rc _ e _ h.1, erase_rcAlts D as M all h.2]
end

theorem erase_rcProgram {p q : Program} (h : rcProgram p = some q) : q.erase = p := by
  unfold rcProgram at h
  split at h
  · rename_i hu
    rw [List.all_eq_true] at hu
    cases h
    unfold Program.erase
    simp only [List.map_map]
    have : p.globals.map (Global.erase ∘ rcGlobal) = p.globals.map id := List.map_congr_left fun d hd => by
      simp only [Function.comp, Global.erase, rcGlobal, erase_dropVariables, erase_rc _ _ _ (hu d hd), id]
    rw [this, List.map_id]
  · cases h

mutual
theorem uncounted_ready : ∀ (D : List Name) (e : Expr), ready D e → uncounted e = true
  | D, .literal _, _ => rfl
  | D, .variable _, _ => rfl
  | D, .op o es, h => by simp only [uncounted]; exact uncountedExprs_ready D es h.2
  | D, .case e as, h => by simp [uncounted, uncounted_ready D e h.2.1, uncountedAlts_ready D as h.2.2]
  | D, .if_ c t e, h => by simp [uncounted, uncounted_ready D c h.1, uncounted_ready D t h.2.1, uncounted_ready D e h.2.2]
  | D, .let_ x e b, h => by simp [uncounted, uncounted_ready D e h.2.1, uncounted_ready _ b h.2.2]
  | D, .letRec f env args th body b, h => by
    simp [uncounted, uncounted_ready _ body h.2.2.2.1, uncounted_ready _ b h.2.2.2.2]
  | D, .try_ e x t b, h => by
    obtain ⟨_, h1, rfl⟩ := h
    simp [uncounted, uncounted_ready D e h1, uncountedExprs]
  | D, .clone _ _, h => h.elim
  | D, .drop _ _, h => h.elim
theorem uncountedExprs_ready : ∀ (D : List Name) (es : Exprs), readyExprs D es → uncountedExprs es = true
  | D, .nil, _ => rfl
  | D, .cons e es, h => by simp [uncountedExprs, uncounted_ready D e h.1, uncountedExprs_ready D es h.2]
theorem uncountedAlts_ready : ∀ (D : List Name) (as : Alts), readyAlts D as → uncountedAlts as = true
  | D, .nil, _ => rfl
  | D, .cons ts x e as, h => by simp [uncountedAlts, uncounted_ready _ e h.1.2, uncountedAlts_ready D as h.2]
end

theorem rcProgram_ready {p : Program} (h : p.ready) : ∃ q, rcProgram p = some q := by
  unfold rcProgram
  rw [if_pos]
  · exact ⟨_, rfl⟩
  · rw [List.all_eq_true]
    exact fun d hd => uncounted_ready d.args d.body (h d hd).2

end Verif.Mir
