import Verif.Mir.Semantics

/-
Evaluation in which a variant no alternative matches stops the run, and is not a type error: the code generator emits
an `unreachable` instruction for it (/repo/lib/mir-fmm/src/expression.rs:380-397). It is the evaluation of
`Verif.Mir.Semantics` in everything else, and without the flag `u` it is that evaluation (`applyU_false`).
-/
namespace Verif.Mir

mutual
/-- `eval`, but for alternatives. -/
def evalU (u : Bool) (w : World) (p : Program) (capture : List Name → Env → Env) (call : Caller) : Env → Expr → Log → R Value
  | _, .literal l, log => .ok l.value log
  | ρ, .variable x, log => R.ofOption (lookup p ρ x) log
  | ρ, .op o es, log => (evalsU u w p capture call o.scalar ρ es log).bind fun vs log =>
      match o, vs with
      | .call, f :: args => call f args log
      | o, vs => R.ofOption (applyOp w p o vs) log
  | ρ, .case e as, log => (evalU u w p capture call ρ e log).bind fun v log =>
      match v with
      | .variant t v => evalAltsU u w p capture call ρ t v as log
      | _ => .stuck
  | ρ, .if_ c t e, log => (evalU u w p capture call ρ c log).bind fun v log =>
      match v with
      | .boolean true => evalU u w p capture call ρ t log
      | .boolean false => evalU u w p capture call ρ e log
      | _ => .stuck
  | ρ, .let_ x e b, log => (evalU u w p capture call ρ e log).bind fun v log =>
      evalU u w p capture call (ρ.set x v) b log
  | ρ, .letRec f env args th body b, log =>
      evalU u w p capture call (ρ.set f (.closure f env args th body (capture env ρ))) b log
  | ρ, .try_ e x t then_, log => (evalU u w p capture call ρ e log).bind fun v log =>
      match v with
      | .variant t' v' =>
        if t' = t then (evalU u w p capture call (ρ.set x v') then_ log).bind fun r log => .ret r log
        else .ok v log
      | _ => .stuck
  | ρ, .clone _ e, log => evalU u w p capture call ρ e log
  | ρ, .drop _ e, log => evalU u w p capture call ρ e log
def evalsU (u : Bool) (w : World) (p : Program) (capture : List Name → Env → Env) (call : Caller) (scalar : Bool) :
    Env → Exprs → Log → R (List Value)
  | _, .nil, log => .ok [] log
  | ρ, .cons e es, log => (evalU u w p capture call ρ e log).bind fun v log =>
      if scalar && !v.isNumber then .stuck
      else (evalsU u w p capture call scalar ρ es log).bind fun vs log => .ok (v :: vs) log
def evalAltsU (u : Bool) (w : World) (p : Program) (capture : List Name → Env → Env) (call : Caller) :
    Env → TypeId → Value → Alts → Log → R Value
  | _, _, _, .nil, _ => if u then .timeout else .stuck
  | ρ, t, v, .cons ts x e as, log => match matchAlternative ts t v with
    | some v => evalU u w p capture call (ρ.set x v) e log
    | none => evalAltsU u w p capture call ρ t v as log
end

/-- `apply`, but for alternatives. -/
def applyU (u : Bool) (w : World) (p : Program) (capture : List Name → Env → Env) : Nat → Caller
  | 0, _, _, _ => .timeout
  | n + 1, .closure f env args th body ρ, vs, log =>
    match (Env.set ρ f (.closure f env args th body ρ)).setMany args vs with
    | some ρ => (evalU u w p capture (applyU u w p capture n) ρ body log).catch
    | none => .stuck
  | n + 1, .global g, vs, log =>
    match p.find g with
    | some d =>
      match Env.setMany (fun _ => none) d.args vs with
      | some ρ => (evalU u w p capture (applyU u w p capture n) ρ d.body log).catch
      | none => .stuck
    | none => if p.foreign.contains g then callForeign w g vs log else .stuck
  | _ + 1, _, _, _ => .stuck

/-- The second result is the first one, unless the first one stopped because no alternative matched. -/
inductive Reached {α : Type} (u : Bool) : R α → R α → Prop
  | same (r : R α) : Reached u r r
  | unreachable (h : u = true) : Reached u .timeout .stuck

theorem Reached.bind {u : Bool} {α β : Type} {a b : R α} {f g : α → Log → R β} (h : Reached u a b)
    (hf : ∀ v l, Reached u (f v l) (g v l)) : Reached u (a.bind f) (b.bind g) := by
  cases h with
  | same => cases a <;> simp only [R.bind] <;> first | exact hf _ _ | exact .same _
  | unreachable h => exact .unreachable h

theorem Reached.catch {u : Bool} {a b : R Value} (h : Reached u a b) : Reached u a.catch b.catch := by
  cases h with
  | same => exact .same _
  | unreachable h => exact .unreachable h

section
variable (u : Bool) (w : World) (p : Program) (capture : List Name → Env → Env) (c d : Caller)
  (hc : ∀ f vs l, Reached u (c f vs l) (d f vs l))
include hc

mutual
theorem evalU_reached : (e : Expr) → (ρ : Env) → (log : Log) →
    Reached u (evalU u w p capture c ρ e log) (eval w p capture d ρ e log)
  | .literal l, ρ, log => by simp only [evalU, eval]; exact .same _
  | .variable x, ρ, log => by simp only [evalU, eval]; exact .same _
  | .op o es, ρ, log => by
      simp only [evalU, eval]
      refine (evalsU_reached o.scalar es ρ log).bind fun vs l => ?_
      cases o <;> cases vs <;> first | exact hc _ _ _ | exact .same _
  | .case e as, ρ, log => by
      simp only [evalU, eval]
      refine (evalU_reached e ρ log).bind fun v l => ?_
      cases v <;> first | exact .same _ | exact evalAltsU_reached as ρ _ _ l
  | .if_ e t f, ρ, log => by
      simp only [evalU, eval]
      refine (evalU_reached e ρ log).bind fun v l => ?_
      cases v <;> first | exact .same _ | skip
      rename_i b
      cases b
      · exact evalU_reached f ρ l
      · exact evalU_reached t ρ l
  | .let_ x e b, ρ, log => by
      simp only [evalU, eval]
      exact (evalU_reached e ρ log).bind fun v l => evalU_reached b _ l
  | .letRec f env args th body b, ρ, log => by
      simp only [evalU, eval]
      exact evalU_reached b _ log
  | .try_ e x t b, ρ, log => by
      simp only [evalU, eval]
      refine (evalU_reached e ρ log).bind fun v l => ?_
      cases v <;> first | exact .same _ | skip
      simp only
      split
      · exact (evalU_reached b _ l).bind fun _ _ => .same _
      · exact .same _
  | .clone xs e, ρ, log => by simp only [evalU, eval]; exact evalU_reached e ρ log
  | .drop xs e, ρ, log => by simp only [evalU, eval]; exact evalU_reached e ρ log
theorem evalsU_reached (s : Bool) : (es : Exprs) → (ρ : Env) → (log : Log) →
    Reached u (evalsU u w p capture c s ρ es log) (evals w p capture d s ρ es log)
  | .nil, ρ, log => by simp only [evalsU, evals]; exact .same _
  | .cons e es, ρ, log => by
      simp only [evalsU, evals]
      refine (evalU_reached e ρ log).bind fun v l => ?_
      split
      · exact .same _
      · exact (evalsU_reached s es ρ l).bind fun _ _ => .same _
theorem evalAltsU_reached : (as : Alts) → (ρ : Env) → (t : TypeId) → (v : Value) → (log : Log) →
    Reached u (evalAltsU u w p capture c ρ t v as log) (evalAlts w p capture d ρ t v as log)
  | .nil, ρ, t, v, log => by simp only [evalAltsU, evalAlts]; cases u <;> first | exact .same _ | exact .unreachable rfl
  | .cons ts x e as, ρ, t, v, log => by
      simp only [evalAltsU, evalAlts]
      cases matchAlternative ts t v with
      | some u => exact evalU_reached e _ log
      | none => exact evalAltsU_reached as ρ t v log
end
end

/-- The two evaluations agree, unless one stops because no alternative matches; the other one is stuck then. -/
theorem applyU_reached (u : Bool) (w : World) (p : Program) (capture : List Name → Env → Env) (n : Nat) (f : Value) (vs : List Value)
    (log : Log) : Reached u (applyU u w p capture n f vs log) (apply w p capture n f vs log) := by
  induction n generalizing f vs log with
  | zero => simp only [applyU, apply]; exact .same _
  | succ n ih =>
    cases f <;> simp only [applyU, apply] <;> first | exact .same _ | skip
    · rename_i f env args th body ρ
      cases (Env.set ρ f (.closure f env args th body ρ)).setMany args vs with
      | some ρ => exact (evalU_reached u w p capture _ _ ih _ _ _).catch
      | none => exact .same _
    · rename_i g
      cases p.find g with
      | some d =>
        simp only
        cases Env.setMany (fun _ => none) d.args vs with
        | some ρ => exact (evalU_reached u w p capture _ _ ih _ _ _).catch
        | none => exact .same _
      | none => exact .same _

theorem applyU_false (w : World) (p : Program) (capture : List Name → Env → Env) (n : Nat) (f : Value) (vs : List Value)
    (log : Log) : applyU false w p capture n f vs log = apply w p capture n f vs log := by
  have h := applyU_reached false w p capture n f vs log
  generalize applyU false w p capture n f vs log = a at h
  generalize apply w p capture n f vs log = b at h
  cases h with
  | same => rfl
  | unreachable h => cases h

mutual
/-- Whether every case has a default alternative. -/
def Expr.total : Expr → Bool
  | .literal _ => true
  | .variable _ => true
  | .op _ es => es.total
  | .case e as => e.total && as.total
  | .if_ c t e => c.total && t.total && e.total
  | .let_ _ e b => e.total && b.total
  | .letRec _ _ _ _ body b => body.total && b.total
  | .try_ e _ _ t => e.total && t.total
  | .clone _ e => e.total
  | .drop _ e => e.total
def Exprs.total : Exprs → Bool
  | .nil => true
  | .cons e es => e.total && es.total
def Alts.total : Alts → Bool
  | .nil => false
  | .cons none _ e _ => e.total
  | .cons (some _) _ e as => e.total && as.total
end

end Verif.Mir
