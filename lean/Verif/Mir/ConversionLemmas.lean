import Verif.Mir.Conversion
import Verif.Mir.Congruence

namespace Verif.Mir

theorem find_map (p : Program) (f : Global → Global) (hf : ∀ d, (f d).name = d.name) (g : Name) :
    Program.find { p with globals := p.globals.map f } g = (p.find g).map f := by
  unfold Program.find
  simp only [List.find?_map]
  congr 1
  congr 1
  funext d
  simp [hf]

theorem isGlobal_map (p : Program) (f : Global → Global) (hf : ∀ d, (f d).name = d.name) (g : Name) :
    Program.isGlobal { p with globals := p.globals.map f } g = p.isGlobal g := by
  unfold Program.isGlobal
  rw [find_map p f hf]
  simp

/-- Results are the same unless the first one is stuck. -/
def Refines {α : Type} (r r' : R α) : Prop := r = .stuck ∨ r = r'

theorem RRel.refines {K : ClosureRel} {α β : Type} {A : α → β → Prop} {r : R α} {r' r'' : R β} (h : RRel K A r r')
    (hr : Refines r' r'') : RRel K A r r'' := by
  rcases hr with rfl | rfl
  · cases h; exact .stuck _
  · exact h

/-- A conversion that keeps the meaning of every expression. -/
def Converting (w : World) (p : Program) (convert : Expr → Expr) : Prop :=
  ∀ capture call ρ e log, Refines (eval w p capture call ρ e log) (eval w p capture call ρ (convert e) log)

def convertK (convert : Expr → Expr) (p : Program) : ClosureRel where
  source := p
  target := convertProgram convert p
  closure d d' ren live _ _ := d' = { d with body := convertExpr convert d.body } ∧ ren = id ∧ live = fun _ => True
  lifted _ _ _ := False

variable {S : Sim} {convert : Expr → Expr}

theorem SimE.converted {ren : Name → Name} {live : Name → Prop} {e e' : Expr} (hv : Converting S.w S.K.target convert)
    (h : SimE S ren live e e') : SimE S ren live e (convert e') :=
  fun ρ ρ' log hr => (h ρ ρ' log hr).refines (hv _ _ _ _ _)

mutual
theorem convert_sim (p : Program) (hK : S.K = convertK convert p) (hv : Converting S.w S.K.target convert)
    (hc : S.capture = captureAll) (hc' : S.capture' = captureAll) :
    ∀ e : Expr, SimE S id (fun _ => True) e (convertExpr convert e)
  | .literal l => by
    rw [convertExpr]
    exact .converted hv (.literal l)
  | .variable x => by
    rw [convertExpr]
    exact .converted hv (.variable trivial rfl)
  | .op o es => by
    rw [convertExpr]
    exact .converted hv (.op o (convertExprs_sim p hK hv hc hc' es))
  | .case e as => by
    rw [convertExpr]
    exact .converted hv (.case (convert_sim p hK hv hc hc' e) (convertAlts_sim p hK hv hc hc' as))
  | .if_ c t e => by
    rw [convertExpr]
    exact .converted hv (.if_ (convert_sim p hK hv hc hc' c) (convert_sim p hK hv hc hc' t) (convert_sim p hK hv hc hc' e))
  | .let_ x e b => by
    rw [convertExpr]
    exact .converted hv (.let_ (convert_sim p hK hv hc hc' e)
      (by rw [extend_self]; exact convert_sim p hK hv hc hc' b) fun y _ h => ⟨trivial, h⟩)
  | .letRec f env args th body b => by
    rw [convertExpr]
    refine .converted hv (SimE.letRec (d := ⟨f, env, args, th, body⟩)
      (d' := ⟨f, env, args, th, convertExpr convert body⟩) (renC := id) (liveC := fun _ => True)
      (live' := fun _ => True) ?_ ?_ ?_ ?_)
    · rw [hK]; exact fun _ _ => ⟨rfl, rfl, rfl⟩
    · intro ρ ρ' hr
      rw [hc, hc']
      exact hr
    · simp only
      rw [extend_self]
      exact convert_sim p hK hv hc hc' b
    · intro y _ h; exact ⟨trivial, h⟩
  | .try_ e x t b => by
    rw [convertExpr]
    exact .converted hv (.try_ (convert_sim p hK hv hc hc' e)
      (by rw [extend_self]; exact convert_sim p hK hv hc hc' b) fun y _ h => ⟨trivial, h⟩)
  | .clone xs e => by
    rw [convertExpr]
    exact .converted hv (.clone xs xs (convert_sim p hK hv hc hc' e))
  | .drop xs e => by
    rw [convertExpr]
    exact .converted hv (.drop xs xs (convert_sim p hK hv hc hc' e))
theorem convertExprs_sim (p : Program) (hK : S.K = convertK convert p) (hv : Converting S.w S.K.target convert)
    (hc : S.capture = captureAll) (hc' : S.capture' = captureAll) :
    ∀ es : Exprs, SimEs S id (fun _ => True) es (convertExprs convert es)
  | .nil => .nil
  | .cons e es => .cons (convert_sim p hK hv hc hc' e) (convertExprs_sim p hK hv hc hc' es)
theorem convertAlts_sim (p : Program) (hK : S.K = convertK convert p) (hv : Converting S.w S.K.target convert)
    (hc : S.capture = captureAll) (hc' : S.capture' = captureAll) :
    ∀ as : Alts, SimAs S id (fun _ => True) as (convertAlts convert as)
  | .nil => .nil
  | .cons ts x e as => .cons ts (by rw [extend_self]; exact convert_sim p hK hv hc hc' e) (fun y _ h => ⟨trivial, h⟩)
    (convertAlts_sim p hK hv hc hc' as)
end

theorem convert_calls (w : World) (p : Program) (hv : Converting w (convertProgram convert p) convert) (n : Nat) :
    CallRel (convertK convert p) (apply w p captureAll n) (apply w (convertProgram convert p) captureAll n) := by
  refine apply_rel (convertK convert p) w captureAll captureAll ?_ ?_ ?_ ?_ n
  · intro d d' ren live ρ ρ' hk call call' hcall vs vs' log hr hvs
    have hk' := hk
    obtain ⟨rfl, rfl, rfl⟩ := hk
    refine SimE.enter (S := ⟨convertK convert p, w, captureAll, captureAll, call, call', rfl, hcall⟩) (ren' := id)
      (live' := fun _ => True) (convert_sim p rfl hv rfl rfl d.body) (by simp) ?_ ?_ ?_ hk' log hr hvs
    · intro y _ hyf hya
      exact ⟨trivial, hyf, rfl⟩
    · intro y _ x _ h; exact h
    · intro _ _; rfl
  · intro d ρ g h; exact h.elim
  · intro g d hd
    refine ⟨{ d with body := convertExpr convert d.body }, ?_, ?_⟩
    · simp only [convertK, convertProgram] at hd ⊢
      rw [find_map p (fun d => { d with body := convertExpr convert d.body }) (fun _ => rfl), hd]
      rfl
    · intro call call' hcall vs vs' log hvs
      refine SimE.enterGlobal (S := ⟨convertK convert p, w, captureAll, captureAll, call, call', rfl, hcall⟩) (ren' := id)
        (live' := fun _ => True) (convert_sim p rfl hv rfl rfl d.body) (by simp)
        (fun _ _ _ => rfl) (fun y _ x _ h => h) (fun x h => ?_) log hvs
      simp only [convertK, convertProgram] at h ⊢
      rw [isGlobal_map p (fun d => { d with body := convertExpr convert d.body }) (fun _ => rfl)]
      exact h
  · intro g h1 h2
    refine ⟨?_, h2⟩
    simp only [convertK, convertProgram] at h1 ⊢
    rw [find_map p (fun d => { d with body := convertExpr convert d.body }) (fun _ => rfl), h1]
    rfl

/-! Flattening keeps the meaning of expressions. -/

theorem evals_append (w : World) (p : Program) (capture : List Name → Env → Env) (call : Caller) (ρ : Env) :
    ∀ (es fs : Exprs) (log : Log), evals w p capture call false ρ (es.append fs) log =
      (evals w p capture call false ρ es log).bind fun vs log =>
        (evals w p capture call false ρ fs log).bind fun us log => .ok (vs ++ us) log
  | .nil, fs, log => by
    simp only [Exprs.append, evals, R.bind]
    cases evals w p capture call false ρ fs log <;> rfl
  | .cons e es, fs, log => by
    simp only [Exprs.append, evals, Bool.false_and, Bool.false_eq_true, if_false, evals_append w p capture call ρ es fs]
    cases eval w p capture call ρ e log with
    | ok v l =>
      simp only [R.bind]
      cases evals w p capture call false ρ es l with
      | ok vs l =>
        simp only
        cases evals w p capture call false ρ fs l <;> rfl
      | _ => rfl
    | _ => rfl

theorem concatenate_append : ∀ (vs us : List Value) (s : List UInt8), concatenate vs = some s →
    concatenate (vs ++ us) = (concatenate us).map (s ++ ·)
  | [], us, s, h => by
    simp only [concatenate, Option.some.injEq] at h
    subst h
    simp only [List.nil_append]
    cases concatenate us <;> rfl
  | v :: vs, us, s, h => by
    cases v with
    | string t =>
      simp only [concatenate, Option.map_eq_some_iff, List.cons_append] at h ⊢
      obtain ⟨r, hr, rfl⟩ := h
      rw [concatenate_append vs us r hr]
      cases concatenate us <;> simp
    | _ => simp [concatenate] at h

theorem concatenationOperands_some {e : Expr} {es : Exprs} (h : concatenationOperands e = some es) :
    e = .op .concatenation es := by
  unfold concatenationOperands at h
  split at h
  · cases h; rfl
  · cases h

/-- Results of operands before and after splicing. -/
inductive SpliceRel : R (List Value) → R (List Value) → Prop
  | stuck (r : R (List Value)) : SpliceRel .stuck r
  | timeout : SpliceRel .timeout .timeout
  | ret (v : Value) (l : Log) : SpliceRel (.ret v l) (.ret v l)
  | ok (vs us : List Value) (l : Log) : concatenate us = concatenate vs → SpliceRel (.ok vs l) (.ok us l)

theorem splice_rel (w : World) (p : Program) (capture : List Name → Env → Env) (call : Caller) (ρ : Env) :
    ∀ (es : Exprs) (log : Log), SpliceRel (evals w p capture call false ρ es log) (evals w p capture call false ρ (splice es) log)
  | .nil, log => by simp only [splice, evals]; exact .ok _ _ _ rfl
  | .cons e es, log => by
    simp only [splice]
    split
    · rename_i fs h
      rw [concatenationOperands_some h, evals_append, evals, eval_op]
      simp only [Op.scalar, Bool.false_and, Bool.false_eq_true, if_false]
      cases evals w p capture call false ρ fs log with
      | stuck => exact .stuck _
      | timeout => exact .timeout
      | ret v l => exact .ret v l
      | ok vs l =>
        simp only [R.bind, applyOperation, applyOp]
        cases hs : concatenate vs with
        | none => simp only [Option.map_none, R.ofOption]; exact .stuck _
        | some s =>
          simp only [Option.map_some, R.ofOption]
          have ih := splice_rel w p capture call ρ es l
          revert ih
          generalize evals w p capture call false ρ es l = r
          generalize evals w p capture call false ρ (splice es) l = r'
          intro ih
          cases ih with
          | stuck => exact .stuck _
          | timeout => exact .timeout
          | ret v l => exact .ret v l
          | ok us us' l h =>
            refine .ok _ _ _ ?_
            rw [concatenate_append vs us' s hs, h]
            rfl
    · simp only [evals, Bool.false_and, Bool.false_eq_true, if_false]
      cases eval w p capture call ρ e log with
      | stuck => exact .stuck _
      | timeout => exact .timeout
      | ret v l => exact .ret v l
      | ok v l =>
        simp only [R.bind]
        have ih := splice_rel w p capture call ρ es l
        revert ih
        generalize evals w p capture call false ρ es l = r
        generalize evals w p capture call false ρ (splice es) l = r'
        intro ih
        cases ih with
        | stuck => exact .stuck _
        | timeout => exact .timeout
        | ret v l => exact .ret v l
        | ok us us' l h =>
          refine .ok _ _ _ ?_
          cases v with
          | string s => simp only [concatenate, h]
          | _ => rfl

theorem flatten_converting (w : World) (p : Program) : Converting w p flattenConcatenation := by
  intro capture call ρ e log
  unfold flattenConcatenation
  split
  · rename_i es h
    rw [concatenationOperands_some h, eval_op, eval_op]
    simp only [Op.scalar]
    have ih := splice_rel w p capture call ρ es log
    revert ih
    generalize evals w p capture call false ρ es log = r
    generalize evals w p capture call false ρ (splice es) log = r'
    intro ih
    cases ih with
    | stuck => exact Or.inl rfl
    | timeout => exact Or.inr rfl
    | ret v l => exact Or.inr rfl
    | ok us us' l h => exact Or.inr (by simp only [R.bind, applyOperation, applyOp, h])
  · exact Or.inr rfl

end Verif.Mir
