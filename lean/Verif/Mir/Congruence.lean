import Verif.Mir.Relation

/-
Simulations of expressions from simulations of their parts.
-/
namespace Verif.Mir

/-- A transformation in progress: how functions are treated, and related ways to call functions. -/
structure Sim where
  K : ClosureRel
  w : World
  capture : List Name → Env → Env
  capture' : List Name → Env → Env
  call : Caller
  call' : Caller
  compatible : K.Compatible
  calls : CallRel K call call'

variable (S : Sim)

abbrev Sim.ev (ρ : Env) (e : Expr) (log : Log) : R Value := eval S.w S.K.source S.capture S.call ρ e log
abbrev Sim.ev' (ρ : Env) (e : Expr) (log : Log) : R Value := eval S.w S.K.target S.capture' S.call' ρ e log
abbrev Sim.evs (scalar : Bool) (ρ : Env) (e : Exprs) (log : Log) : R (List Value) :=
  evals S.w S.K.source S.capture S.call scalar ρ e log
abbrev Sim.evs' (scalar : Bool) (ρ : Env) (e : Exprs) (log : Log) : R (List Value) :=
  evals S.w S.K.target S.capture' S.call' scalar ρ e log

/-- `e'` does what `e` does in all environments related by a renaming of live names. -/
def SimE (ren : Name → Name) (live : Name → Prop) (e e' : Expr) : Prop :=
  ∀ ρ ρ' log, EnvRel S.K ren live ρ ρ' → RRel S.K (VRel S.K) (S.ev ρ e log) (S.ev' ρ' e' log)

def SimEs (ren : Name → Name) (live : Name → Prop) (e e' : Exprs) : Prop :=
  ∀ scalar ρ ρ' log, EnvRel S.K ren live ρ ρ' → RRel S.K (VsRel S.K) (S.evs scalar ρ e log) (S.evs' scalar ρ' e' log)

def SimAs (ren : Name → Name) (live : Name → Prop) (e e' : Alts) : Prop :=
  ∀ ρ ρ' log t v v', EnvRel S.K ren live ρ ρ' → VRel S.K v v' →
    RRel S.K (VRel S.K) (evalAlts S.w S.K.source S.capture S.call ρ t v e log)
      (evalAlts S.w S.K.target S.capture' S.call' ρ' t v' e' log)

variable {S : Sim} {ren : Name → Name} {live : Name → Prop}

theorem SimE.mono {ren' : Name → Name} {live' : Name → Prop} {e e' : Expr} (h : SimE S ren live e e')
    (hl : ∀ x, live x → live' x ∧ ren x = ren' x) : SimE S ren' live' e e' :=
  fun ρ ρ' log hr => h ρ ρ' log (hr.mono hl)

theorem SimEs.mono {ren' : Name → Name} {live' : Name → Prop} {e e' : Exprs} (h : SimEs S ren live e e')
    (hl : ∀ x, live x → live' x ∧ ren x = ren' x) : SimEs S ren' live' e e' :=
  fun scalar ρ ρ' log hr => h scalar ρ ρ' log (hr.mono hl)

theorem SimAs.mono {ren' : Name → Name} {live' : Name → Prop} {e e' : Alts} (h : SimAs S ren live e e')
    (hl : ∀ x, live x → live' x ∧ ren x = ren' x) : SimAs S ren' live' e e' :=
  fun ρ ρ' log t v v' hr => h ρ ρ' log t v v' (hr.mono hl)

theorem Literal.value_rel (K : ClosureRel) (l : Literal) : VRel K l.value l.value := by
  cases l <;> simp only [Literal.value]
  · exact .none
  · exact .boolean _
  · exact .number _
  · exact .string _

theorem SimE.literal (l : Literal) : SimE S ren live (.literal l) (.literal l) := by
  intro ρ ρ' log _
  simp only [Sim.ev, Sim.ev', eval]
  exact .ok (l.value_rel S.K)

theorem SimE.variable {x x' : Name} (hx : live x) (hr : ren x = x') :
    SimE S ren live (.variable x) (.variable x') := by
  intro ρ ρ' log h
  simp only [Sim.ev, Sim.ev', eval]
  refine .ofOption fun v hv => ?_
  subst hr
  exact h x hx v hv

theorem SimEs.nil : SimEs S ren live .nil .nil := by
  intro scalar ρ ρ' log _
  simp only [Sim.evs, Sim.evs', evals]
  exact .ok .nil

theorem VRel.isNumber {K : ClosureRel} {v v' : Value} (h : VRel K v v') : v'.isNumber = v.isNumber := by
  cases h <;> rfl

theorem VRel.operand {K : ClosureRel} {α β : Type} {B : α → β → Prop} {v v' : Value} (h : VRel K v v') (scalar : Bool)
    {r : R α} {r' : R β} (hr : RRel K B r r') :
    RRel K B (if scalar && !v.isNumber then .stuck else r) (if scalar && !v'.isNumber then .stuck else r') := by
  rw [h.isNumber]
  split
  · exact .stuck _
  · exact hr

theorem SimEs.cons {e e' : Expr} {es es' : Exprs} (h : SimE S ren live e e') (hs : SimEs S ren live es es') :
    SimEs S ren live (.cons e es) (.cons e' es') := by
  intro scalar ρ ρ' log hr
  simp only [Sim.evs, Sim.evs', evals]
  refine (h ρ ρ' log hr).bind fun v v' l hv => hv.operand scalar ?_
  refine (hs scalar ρ ρ' l hr).bind fun vs vs' l hvs => ?_
  exact .ok (.cons hv hvs)

/-- What an operation does with its operands. -/
def applyOperation (w : World) (p : Program) (call : Caller) (o : Op) (vs : List Value) (log : Log) : R Value :=
  match o, vs with
  | .call, f :: args => call f args log
  | o, vs => R.ofOption (applyOp w p o vs) log

theorem eval_op (w : World) (p : Program) (capture : List Name → Env → Env) (call : Caller) (ρ : Env) (o : Op)
    (es : Exprs) (log : Log) : eval w p capture call ρ (.op o es) log =
      (evals w p capture call o.scalar ρ es log).bind fun vs log => applyOperation w p call o vs log := by
  rw [eval]; rfl

theorem applyOperation_rel (o : Op) {vs vs' : List Value} (h : VsRel S.K vs vs') (log : Log) :
    RRel S.K (VRel S.K) (applyOperation S.w S.K.source S.call o vs log)
      (applyOperation S.w S.K.target S.call' o vs' log) := by
  have hop : RRel S.K (VRel S.K) (R.ofOption (applyOp S.w S.K.source o vs) log)
      (R.ofOption (applyOp S.w S.K.target o vs') log) :=
    .ofOption fun v hv => applyOp_rel S.w S.compatible o h v hv
  cases o with
  | call =>
    cases h with
    | nil => exact .stuck _
    | cons h hs => exact S.calls _ _ _ _ log h hs
  | _ => exact hop

theorem SimE.op (o : Op) {es es' : Exprs} (h : SimEs S ren live es es') : SimE S ren live (.op o es) (.op o es') := by
  intro ρ ρ' log hr
  simp only [Sim.ev, Sim.ev', eval_op]
  exact (h o.scalar ρ ρ' log hr).bind fun vs vs' l hvs => applyOperation_rel o hvs l

theorem SimE.if_ {c c' t t' e e' : Expr} (hc : SimE S ren live c c') (ht : SimE S ren live t t')
    (he : SimE S ren live e e') : SimE S ren live (.if_ c t e) (.if_ c' t' e') := by
  intro ρ ρ' log hr
  simp only [Sim.ev, Sim.ev', eval]
  refine (hc ρ ρ' log hr).bind fun v v' l hv => ?_
  cases hv with
  | boolean b =>
    cases b with
    | false => exact he ρ ρ' l hr
    | true => exact ht ρ ρ' l hr
  | _ => exact .stuck _

theorem SimE.case {e e' : Expr} {as as' : Alts} (he : SimE S ren live e e') (ha : SimAs S ren live as as') :
    SimE S ren live (.case e as) (.case e' as') := by
  intro ρ ρ' log hr
  simp only [Sim.ev, Sim.ev', eval]
  refine (he ρ ρ' log hr).bind fun v v' l hv => ?_
  cases hv with
  | variant t h => exact ha ρ ρ' l t _ _ hr h
  | _ => exact .stuck _

theorem SimAs.nil : SimAs S ren live .nil .nil := by
  intro ρ ρ' log t v v' _ _
  simp only [evalAlts]
  exact .stuck _

theorem matchAlternative_rel {K : ClosureRel} (ts : Option (List TypeId)) (t : TypeId) {v v' : Value} (h : VRel K v v') :
    (matchAlternative ts t v = none ∧ matchAlternative ts t v' = none) ∨
      ∃ u u', matchAlternative ts t v = some u ∧ matchAlternative ts t v' = some u' ∧ VRel K u u' := by
  unfold matchAlternative
  split
  · exact Or.inr ⟨_, _, rfl, rfl, .variant t h⟩
  · split
    · exact Or.inr ⟨_, _, rfl, rfl, h⟩
    · exact Or.inl ⟨rfl, rfl⟩
  · split
    · exact Or.inr ⟨_, _, rfl, rfl, .variant t h⟩
    · exact Or.inl ⟨rfl, rfl⟩

theorem SimAs.cons (ts : Option (List TypeId)) {x x' : Name} {e e' : Expr} {as as' : Alts} {live' : Name → Prop}
    (he : SimE S (extend ren x x') live' e e') (hl : ∀ y, live' y → y ≠ x → live y ∧ ren y ≠ x')
    (ha : SimAs S ren live as as') : SimAs S ren live (.cons ts x e as) (.cons ts x' e' as') := by
  intro ρ ρ' log t v v' hr hv
  simp only [evalAlts]
  rcases matchAlternative_rel ts t hv with ⟨h1, h2⟩ | ⟨u, u', h1, h2, h3⟩
  · rw [h1, h2]; exact ha ρ ρ' log t v v' hr hv
  · rw [h1, h2]; exact he _ _ log (hr.set h3 hl)

theorem SimE.let_ {x x' : Name} {e e' b b' : Expr} {live' : Name → Prop} (he : SimE S ren live e e')
    (hb : SimE S (extend ren x x') live' b b') (hl : ∀ y, live' y → y ≠ x → live y ∧ ren y ≠ x') :
    SimE S ren live (.let_ x e b) (.let_ x' e' b') := by
  intro ρ ρ' log hr
  simp only [Sim.ev, Sim.ev', eval]
  exact (he ρ ρ' log hr).bind fun v v' l hv => hb _ _ l (hr.set hv hl)

theorem SimE.try_ {e e' : Expr} {x x' : Name} {t : TypeId} {b b' : Expr} {live' : Name → Prop}
    (he : SimE S ren live e e') (hb : SimE S (extend ren x x') live' b b')
    (hl : ∀ y, live' y → y ≠ x → live y ∧ ren y ≠ x') :
    SimE S ren live (.try_ e x t b) (.try_ e' x' t b') := by
  intro ρ ρ' log hr
  simp only [Sim.ev, Sim.ev', eval]
  refine (he ρ ρ' log hr).bind fun v v' l hv => ?_
  cases hv with
  | variant t' h =>
    by_cases ht : t' = t
    · simp only [if_pos ht]
      exact (hb _ _ l (hr.set h hl)).bind fun a b l h => .ret h
    · simp only [if_neg ht]
      exact .ok (.variant t' h)
  | _ => exact .stuck _

theorem SimE.letRec {d d' : Def} {b b' : Expr} {live' : Name → Prop} {renC : Name → Name} {liveC : Name → Prop}
    (hd : ∀ ρ ρ', S.K.closure d d' renC liveC ρ ρ')
    (hc : ∀ ρ ρ', EnvRel S.K ren live ρ ρ' → EnvRel S.K renC liveC (S.capture d.env ρ) (S.capture' d'.env ρ'))
    (hb : SimE S (extend ren d.f d'.f) live' b b') (hl : ∀ y, live' y → y ≠ d.f → live y ∧ ren y ≠ d'.f) :
    SimE S ren live (.letRec d.f d.env d.args d.thunk d.body b) (.letRec d'.f d'.env d'.args d'.thunk d'.body b') := by
  intro ρ ρ' log hr
  simp only [Sim.ev, Sim.ev', eval]
  exact hb _ _ log (hr.set (VRel.close (hd _ _) (hc ρ ρ' hr)) hl)

theorem SimE.clone (xs xs' : List Name) {e e' : Expr} (h : SimE S ren live e e') :
    SimE S ren live (.clone xs e) (.clone xs' e') := by
  intro ρ ρ' log hr
  simp only [Sim.ev, Sim.ev', eval]
  exact h ρ ρ' log hr

theorem SimE.drop (xs xs' : List Name) {e e' : Expr} (h : SimE S ren live e e') :
    SimE S ren live (.drop xs e) (.drop xs' e') := by
  intro ρ ρ' log hr
  simp only [Sim.ev, Sim.ev', eval]
  exact h ρ ρ' log hr

theorem SimE.cloneRight (xs' : List Name) {e e' : Expr} (h : SimE S ren live e e') :
    SimE S ren live e (.clone xs' e') := by
  intro ρ ρ' log hr
  simp only [Sim.ev']
  rw [eval]
  exact h ρ ρ' log hr

theorem SimE.dropRight (xs' : List Name) {e e' : Expr} (h : SimE S ren live e e') :
    SimE S ren live e (.drop xs' e') := by
  intro ρ ρ' log hr
  simp only [Sim.ev']
  rw [eval]
  exact h ρ ρ' log hr

/-- Entering a function whose body is simulated. -/
theorem SimE.enter {d d' : Def} {live' : Name → Prop} {ren' : Name → Name}
    (hb : SimE S ren' live' d.body d'.body)
    (hargs : d'.args = d.args.map ren')
    (hl : ∀ y, live' y → y ≠ d.f → y ∉ d.args → live y ∧ ren y ≠ d'.f ∧ ren' y = ren y)
    (hi : ∀ y, live' y → ∀ x ∈ d.args, y ≠ x → ren' y ≠ ren' x)
    (hf : live' d.f → d.f ∉ d.args → d'.f = ren' d.f)
    {ρ ρ' : Env} (hk : S.K.closure d d' ren live ρ ρ') {vs vs' : List Value} (log : Log)
    (hr : EnvRel S.K ren live ρ ρ') (hvs : VsRel S.K vs vs') :
    RRel S.K (VRel S.K) (d.enter S.w S.K.source S.capture S.call ρ vs log)
      (d'.enter S.w S.K.target S.capture' S.call' ρ' vs' log) := by
  unfold Def.enter
  cases h : (ρ.set d.f (d.close ρ)).setMany d.args vs with
  | none => exact .stuck _
  | some ρ1 =>
    have h2 : EnvRel S.K (extend ren d.f d'.f) (fun y => y = d.f ∨ (live y ∧ ren y ≠ d'.f)) (ρ.set d.f (d.close ρ))
        (ρ'.set d'.f (d'.close ρ')) := by
      refine hr.set (VRel.close hk hr) ?_
      rintro y (hy | hy) hyf
      · exact absurd hy hyf
      · exact hy
    have h3 : ∀ y, live' y → y ∉ d.args → (y = d.f ∨ (live y ∧ ren y ≠ d'.f)) ∧ ren' y = extend ren d.f d'.f y := by
      intro y hy hya
      by_cases hyf : y = d.f
      · subst hyf
        exact ⟨Or.inl rfl, by simp only [extend, if_true]; exact (hf hy hya).symm⟩
      · obtain ⟨h3, h4, h5⟩ := hl y hy hyf hya
        exact ⟨Or.inr ⟨h3, h4⟩, by simp only [extend, if_neg hyf]; exact h5⟩
    obtain ⟨ρ1', h5, h6⟩ := h2.setMany (live' := live') (xs := d.args) hvs h3 hi h
    rw [hargs]
    simp only [h5]
    exact (hb _ _ log h6).catch

theorem lookup_empty {p p' : Program} {x : Name} {v : Value} (h : lookup p (fun _ => none) x = some v)
    (hp : p.isGlobal x = true → p'.isGlobal x = true) :
    v = .global x ∧ lookup p' (fun _ => none) x = some (.global x) := by
  unfold lookup at h ⊢
  simp only at h ⊢
  split at h
  · rename_i hg
    rw [if_pos (hp hg)]
    exact ⟨by cases h; rfl, rfl⟩
  · cases h

/-- Entering a global function whose body is simulated. -/
theorem SimE.enterGlobal {d d' : Global} {live' : Name → Prop} {ren' : Name → Name}
    (hb : SimE S ren' live' d.body d'.body)
    (hargs : d'.args = d.args.map ren')
    (hl : ∀ y, live' y → y ∉ d.args → ren' y = y)
    (hi : ∀ y, live' y → ∀ x ∈ d.args, y ≠ x → ren' y ≠ ren' x)
    (hg : ∀ x, S.K.source.isGlobal x = true → S.K.target.isGlobal x = true)
    {vs vs' : List Value} (log : Log) (hvs : VsRel S.K vs vs') :
    RRel S.K (VRel S.K) (d.enter S.w S.K.source S.capture S.call vs log)
      (d'.enter S.w S.K.target S.capture' S.call' vs' log) := by
  unfold Global.enter
  cases h : Env.setMany (fun _ => none) d.args vs with
  | none => exact .stuck _
  | some ρ1 =>
    have h2 : EnvRel S.K id (fun _ => True) (fun _ => none) (fun _ => none) := by
      intro x _ v hv
      obtain ⟨rfl, h2⟩ := lookup_empty hv (hg x)
      exact ⟨_, h2, .global x⟩
    obtain ⟨ρ1', h3, h4⟩ := h2.setMany (live' := live') (xs := d.args) hvs
      (fun y hy hya => ⟨trivial, hl y hy hya⟩) hi h
    rw [hargs]
    simp only [h3]
    exact (hb _ _ log h4).catch

end Verif.Mir
