import Verif.Mir.Congruence

/- Simulation of expressions in two given environments. -/
namespace Verif.Mir

variable (S : Sim)

/-- `e'` in `ρ'` does what `e` does in `ρ`. -/
def SimAt (ρ ρ' : Env) (e e' : Expr) : Prop := ∀ log, RRel S.K (VRel S.K) (S.ev ρ e log) (S.ev' ρ' e' log)

def SimsAt (ρ ρ' : Env) (e e' : Exprs) : Prop := ∀ scalar log,
  RRel S.K (VsRel S.K) (S.evs scalar ρ e log) (S.evs' scalar ρ' e' log)

def SimAltsAt (ρ ρ' : Env) (e e' : Alts) : Prop := ∀ log t v v', VRel S.K v v' →
  RRel S.K (VRel S.K) (evalAlts S.w S.K.source S.capture S.call ρ t v e log)
    (evalAlts S.w S.K.target S.capture' S.call' ρ' t v' e' log)

variable {S : Sim} {ρ ρ' : Env}

theorem SimAt.literal (l : Literal) : SimAt S ρ ρ' (.literal l) (.literal l) := by
  intro log
  simp only [Sim.ev, Sim.ev', eval]
  exact .ok (l.value_rel S.K)

theorem SimAt.variable {x x' : Name}
    (h : ∀ v, lookup S.K.source ρ x = some v → ∃ v', lookup S.K.target ρ' x' = some v' ∧ VRel S.K v v') :
    SimAt S ρ ρ' (.variable x) (.variable x') := by
  intro log
  simp only [Sim.ev, Sim.ev', eval]
  exact .ofOption h

theorem SimsAt.nil : SimsAt S ρ ρ' .nil .nil := by
  intro scalar log
  simp only [Sim.evs, Sim.evs', evals]
  exact .ok .nil

theorem SimsAt.cons {e e' : Expr} {es es' : Exprs} (h : SimAt S ρ ρ' e e') (hs : SimsAt S ρ ρ' es es') :
    SimsAt S ρ ρ' (.cons e es) (.cons e' es') := by
  intro scalar log
  simp only [Sim.evs, Sim.evs', evals]
  exact (h log).bind fun v v' l hv => hv.operand scalar ((hs scalar l).bind fun vs vs' l hvs => .ok (.cons hv hvs))

theorem SimAt.op (o : Op) {es es' : Exprs} (h : SimsAt S ρ ρ' es es') : SimAt S ρ ρ' (.op o es) (.op o es') := by
  intro log
  simp only [Sim.ev, Sim.ev', eval_op]
  exact (h o.scalar log).bind fun vs vs' l hvs => applyOperation_rel o hvs l

theorem SimAt.if_ {c c' t t' e e' : Expr} (hc : SimAt S ρ ρ' c c') (ht : SimAt S ρ ρ' t t') (he : SimAt S ρ ρ' e e') :
    SimAt S ρ ρ' (.if_ c t e) (.if_ c' t' e') := by
  intro log
  simp only [Sim.ev, Sim.ev', eval]
  refine (hc log).bind fun v v' l hv => ?_
  cases hv with
  | boolean b => cases b <;> simp only <;> first | exact he l | exact ht l
  | _ => exact .stuck _

theorem SimAt.case {e e' : Expr} {as as' : Alts} (he : SimAt S ρ ρ' e e') (ha : SimAltsAt S ρ ρ' as as') :
    SimAt S ρ ρ' (.case e as) (.case e' as') := by
  intro log
  simp only [Sim.ev, Sim.ev', eval]
  refine (he log).bind fun v v' l hv => ?_
  cases hv with
  | variant t h => exact ha l t _ _ h
  | _ => exact .stuck _

theorem SimAltsAt.nil : SimAltsAt S ρ ρ' .nil .nil := by
  intro log t v v' _
  simp only [evalAlts]
  exact .stuck _

theorem SimAltsAt.cons (ts : Option (List TypeId)) {x x' : Name} {e e' : Expr} {as as' : Alts}
    (he : ∀ v v', VRel S.K v v' → SimAt S (ρ.set x v) (ρ'.set x' v') e e') (ha : SimAltsAt S ρ ρ' as as') :
    SimAltsAt S ρ ρ' (.cons ts x e as) (.cons ts x' e' as') := by
  intro log t v v' hv
  simp only [evalAlts]
  rcases matchAlternative_rel ts t hv with ⟨h1, h2⟩ | ⟨u, u', h1, h2, h3⟩
  · rw [h1, h2]; exact ha log t v v' hv
  · rw [h1, h2]; exact he _ _ h3 log

theorem SimAt.let_ {x x' : Name} {e e' b b' : Expr} (he : SimAt S ρ ρ' e e')
    (hb : ∀ v v', VRel S.K v v' → SimAt S (ρ.set x v) (ρ'.set x' v') b b') :
    SimAt S ρ ρ' (.let_ x e b) (.let_ x' e' b') := by
  intro log
  simp only [Sim.ev, Sim.ev', eval]
  exact (he log).bind fun v v' l hv => hb v v' hv l

theorem SimAt.try_ {e e' : Expr} {x x' : Name} {t : TypeId} {b b' : Expr} (he : SimAt S ρ ρ' e e')
    (hb : ∀ v v', VRel S.K v v' → SimAt S (ρ.set x v) (ρ'.set x' v') b b') :
    SimAt S ρ ρ' (.try_ e x t b) (.try_ e' x' t b') := by
  intro log
  simp only [Sim.ev, Sim.ev', eval]
  refine (he log).bind fun v v' l hv => ?_
  cases hv with
  | variant t' h =>
    by_cases ht : t' = t
    · simp only [if_pos ht]
      exact (hb _ _ h l).bind fun a b l h => .ret h
    · simp only [if_neg ht]
      exact .ok (.variant t' h)
  | _ => exact .stuck _

theorem SimAt.letRec {f f' : Name} {env env' args args' : List Name} {th th' : Bool} {body body' b b' : Expr}
    (hb : SimAt S (ρ.set f (.closure f env args th body (S.capture env ρ)))
      (ρ'.set f' (.closure f' env' args' th' body' (S.capture' env' ρ'))) b b') :
    SimAt S ρ ρ' (.letRec f env args th body b) (.letRec f' env' args' th' body' b') := by
  intro log
  simp only [Sim.ev, Sim.ev', eval]
  exact hb log

theorem SimAt.clone (xs xs' : List Name) {e e' : Expr} (h : SimAt S ρ ρ' e e') :
    SimAt S ρ ρ' (.clone xs e) (.clone xs' e') := by
  intro log
  simp only [Sim.ev, Sim.ev', eval]
  exact h log

theorem SimAt.drop (xs xs' : List Name) {e e' : Expr} (h : SimAt S ρ ρ' e e') :
    SimAt S ρ ρ' (.drop xs e) (.drop xs' e') := by
  intro log
  simp only [Sim.ev, Sim.ev', eval]
  exact h log

end Verif.Mir
