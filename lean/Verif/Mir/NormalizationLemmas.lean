import Verif.Mir.SplitBinders
import Verif.Mir.FreeVariablesLemmas
import Verif.Mir.ConversionLemmas

namespace Verif.Mir

/-- Evaluates bindings. -/
def evalFrames (w : World) (p : Program) (capture : List Name → Env → Env) (call : Caller) :
    Env → List Frame → Log → R Env
  | ρ, [], log => .ok ρ log
  | ρ, .let_ x e :: fs, log => (eval w p capture call ρ e log).bind fun v log =>
      evalFrames w p capture call (ρ.set x v) fs log
  | ρ, .letRec f env args th body :: fs, log =>
      evalFrames w p capture call (ρ.set f (.closure f env args th body (capture env ρ))) fs log

theorem eval_plug (w : World) (p : Program) (capture : List Name → Env → Env) (call : Caller) (fs : List Frame)
    (t : Expr) : ∀ (ρ : Env) (log : Log), eval w p capture call ρ (plug fs t) log =
      (evalFrames w p capture call ρ fs log).bind fun ρ log => eval w p capture call ρ t log := by
  induction fs with
  | nil => intro ρ log; rfl
  | cons f fs ih =>
    intro ρ log
    cases f with
    | let_ x e =>
      simp only [plug, eval, evalFrames]
      cases eval w p capture call ρ e log with
      | ok v l => simp only [R.bind]; exact ih _ _
      | _ => rfl
    | letRec f env args th body =>
      simp only [plug, eval, evalFrames]
      exact ih _ _

theorem evalFrames_append (w : World) (p : Program) (capture : List Name → Env → Env) (call : Caller)
    (fs gs : List Frame) : ∀ (ρ : Env) (log : Log), evalFrames w p capture call ρ (fs ++ gs) log =
      (evalFrames w p capture call ρ fs log).bind fun ρ log => evalFrames w p capture call ρ gs log := by
  induction fs with
  | nil => intro ρ log; rfl
  | cons f fs ih =>
    intro ρ log
    cases f with
    | let_ x e =>
      simp only [List.cons_append, evalFrames]
      cases eval w p capture call ρ e log with
      | ok v l => simp only [R.bind]; exact ih _ _
      | _ => rfl
    | letRec f env args th body =>
      simp only [List.cons_append, evalFrames]
      exact ih _ _

theorem evalFrames_agree (w : World) (p : Program) (capture : List Name → Env → Env) (call : Caller)
    (fs : List Frame) : ∀ (ρ : Env) (log : Log) (ρ' : Env) (log' : Log),
      evalFrames w p capture call ρ fs log = .ok ρ' log' → ∀ x, x ∉ boundBy fs → ρ' x = ρ x := by
  induction fs with
  | nil => intro ρ log ρ' log' h x _; simp only [evalFrames, R.ok.injEq] at h; rw [h.1]
  | cons f fs ih =>
    intro ρ log ρ' log' h x hx
    cases f with
    | let_ y e =>
      simp only [evalFrames] at h
      simp only [boundBy, List.mem_cons, not_or] at hx
      cases he : eval w p capture call ρ e log with
      | ok v l =>
        simp only [he, R.bind] at h
        rw [ih _ _ _ _ h x hx.2]
        simp [Env.set, hx.1]
      | ret v l => simp only [he, R.bind] at h; cases h
      | timeout => simp only [he, R.bind] at h; cases h
      | stuck => simp only [he, R.bind] at h; cases h
    | letRec f env args th body =>
      simp only [evalFrames] at h
      simp only [boundBy, List.mem_cons, not_or] at hx
      rw [ih _ _ _ _ h x hx.2]
      simp [Env.set, hx.1]

/-- Bound and free names of an expression are different, no name is bound twice, and none is generated by
normalization. -/
structure Hygienic (bs fs : List Name) : Prop where
  nodup : bs.Nodup
  disjoint : ∀ x ∈ bs, x ∉ fs
  plain : ∀ x, x ∈ bs ∨ x ∈ fs → ¬ IsAnfName x

theorem Hygienic.sub {bs fs bs' fs' : List Name} (h : Hygienic bs fs) (hb : bs'.Sublist bs)
    (hf : ∀ x ∈ fs', x ∈ fs ∨ (x ∈ bs ∧ x ∉ bs')) : Hygienic bs' fs' := by
  refine ⟨h.nodup.sublist hb, ?_, ?_⟩
  · intro x hx hx'
    rcases hf x hx' with h1 | h1
    · exact h.disjoint x (hb.subset hx) h1
    · exact h1.2 hx
  · rintro x (hx | hx)
    · exact h.plain x (Or.inl (hb.subset hx))
    · rcases hf x hx with h1 | h1
      · exact h.plain x (Or.inr h1)
      · exact h.plain x (Or.inl h1.1)

abbrev HygienicE (e : Expr) : Prop := Hygienic (binders e) (free e)

/-- A function after normalization. -/
def anfDef (d : Def) (n : Nat) : Def := { d with body := (split id d.body n).plug }

def anfK (p : Program) : ClosureRel where
  source := p
  target := anfProgram p
  closure d d' ren live _ _ := ren = id ∧ (∀ x ∈ free d.body, x ≠ d.f → x ∉ d.args → live x) ∧ HygienicE d.body ∧
    ∃ n, d' = anfDef d n
  lifted _ _ _ := False

variable {S : Sim}

abbrev Sim.frames (S : Sim) (ρ : Env) (fs : List Frame) (log : Log) : R Env :=
  evalFrames S.w S.K.target S.capture' S.call' ρ fs log

/-- The result of bindings and what is left. -/
abbrev Sim.run (S : Sim) (ρ : Env) (s : Split Expr) (log : Log) : R Value :=
  (S.frames ρ s.frames log).bind fun ρ log => S.ev' ρ s.tail log

abbrev Sim.runs (S : Sim) (scalar : Bool) (ρ : Env) (s : Split (List Expr)) (log : Log) : R (List Value) :=
  (S.frames ρ s.frames log).bind fun ρ log => S.evs' scalar ρ (Exprs.ofList s.tail) log

theorem Sim.ev'_plug (S : Sim) (ρ : Env) (s : Split Expr) (log : Log) : S.ev' ρ s.plug log = S.run ρ s log := by
  simp only [Sim.ev', Split.plug, eval_plug]

theorem R.bind_assoc {α β γ : Type} (r : R α) (f : α → Log → R β) (g : β → Log → R γ) :
    (r.bind f).bind g = r.bind fun a l => (f a l).bind g := by
  cases r <;> rfl

/-- Binding an expression to a name does not change results. -/
theorem run_bound (ρ : Env) (s : Split Expr) (log : Log) (b : Bool) : S.run ρ (s.boundIf b) log = S.run ρ s log := by
  unfold Split.boundIf Split.bound
  split
  · split
    · rfl
    · simp only [Sim.run, Sim.frames, Sim.ev', evalFrames_append, R.bind_assoc, evalFrames, eval]
      cases evalFrames S.w S.K.target S.capture' S.call' ρ s.frames log with
      | ok ρ1 l =>
        simp only [R.bind]
        cases eval S.w S.K.target S.capture' S.call' ρ1 s.tail l with
        | ok v l =>
          simp only
          rw [lookup_set, if_pos rfl]
          rfl
        | _ => rfl
      | _ => rfl
  · rfl

/-- The value of an atom. -/
def atomValue (p : Program) (ρ : Env) : Expr → Option Value
  | .literal l => some l.value
  | .variable x => lookup p ρ x
  | _ => none

theorem eval_atom (w : World) (p : Program) (capture : List Name → Env → Env) (call : Caller) (ρ : Env) (e : Expr)
    (log : Log) (h : isAtom e = true) : eval w p capture call ρ e log = R.ofOption (atomValue p ρ e) log := by
  cases e <;> first | (simp [isAtom] at h; done) | rfl

theorem atomValue_agree (p : Program) {ρ ρ' : Env} {e : Expr} (h : ∀ x ∈ free e, ρ x = ρ' x) :
    atomValue p ρ e = atomValue p ρ' e := by
  cases e with
  | «variable» x =>
    have := h x (by simp [free])
    simp only [atomValue, lookup, this]
  | _ => rfl

theorem boundIf_atom (s : Split Expr) : isAtom (s.boundIf true).tail = true := by
  unfold Split.boundIf Split.bound
  simp only [if_true]
  split
  · assumption
  · rfl

theorem EnvRel.agree {K : ClosureRel} {live : Name → Prop} {ρ ρ' ρ'' : Env} (h : EnvRel K id live ρ ρ')
    (ha : ∀ x, live x → ρ'' x = ρ' x) : EnvRel K id live ρ ρ'' := by
  intro x hx v hv
  obtain ⟨v', h1, h2⟩ := h x hx v hv
  refine ⟨v', ?_, h2⟩
  unfold lookup at h1 ⊢
  simp only [id] at h1 ⊢
  rw [ha x hx]
  exact h1

/-- The tail of an operand list after its first operand was bound. -/
theorem RRel.operands {t : Expr} {ts : List Expr} {C1 C2 : List Frame} {ρ' : Env} {log : Log}
    {r : R Value} {rs : Log → R (List Value)} (scalar : Bool) (hatom : isAtom t = true)
    (h1 : RRel S.K (VRel S.K) r ((S.frames ρ' C1 log).bind fun ρ1 l => S.ev' ρ1 t l))
    (h2 : ∀ ρ1 l, S.frames ρ' C1 log = .ok ρ1 l →
      RRel S.K (VsRel S.K) (rs l) ((S.frames ρ1 C2 l).bind fun ρ2 l => S.evs' scalar ρ2 (Exprs.ofList ts) l))
    (h3 : ∀ x ∈ free t, x ∉ boundBy C2) :
    RRel S.K (VsRel S.K) (r.bind fun v l => if scalar && !v.isNumber then .stuck else (rs l).bind fun vs l => .ok (v :: vs) l)
      ((S.frames ρ' (C1 ++ C2) log).bind fun ρ2 l => S.evs' scalar ρ2 (Exprs.ofList (t :: ts)) l) := by
  simp only [Sim.frames, evalFrames_append] at h1 h2 ⊢
  cases hC1 : evalFrames S.w S.K.target S.capture' S.call' ρ' C1 log with
  | ok ρ1 l1 =>
    simp only [hC1, R.bind, Sim.ev', eval_atom _ _ _ _ _ _ _ hatom] at h1 ⊢
    have h2 := h2 ρ1 l1 hC1
    cases hv : atomValue S.K.target ρ1 t with
    | none =>
      simp only [hv, R.ofOption] at h1
      cases h1
      exact .stuck _
    | some v' =>
      simp only [hv, R.ofOption] at h1
      cases h1 with
      | stuck => exact .stuck _
      | @ok v _ _ hvv =>
        simp only
        cases hC2 : evalFrames S.w S.K.target S.capture' S.call' ρ1 C2 l1 with
        | ok ρ2 l2 =>
          simp only [hC2, R.bind] at h2 ⊢
          have ha : atomValue S.K.target ρ2 t = some v' := by
            rw [← hv]
            exact atomValue_agree _ fun x hx => evalFrames_agree _ _ _ _ C2 _ _ _ _ hC2 x (h3 x hx)
          simp only [Sim.evs', Exprs.ofList, evals, eval_atom _ _ _ _ _ _ _ hatom, ha, R.ofOption, R.bind]
          exact hvv.operand scalar (h2.bind fun vs vs' l hvs => .ok (.cons hvv hvs))
        | ret v l =>
          simp only [hC2, R.bind] at h2 ⊢
          split
          · exact .stuck _
          generalize rs l1 = q at h2
          cases h2 with
          | stuck => exact .stuck _
          | ret h => exact .ret h
        | timeout =>
          simp only [hC2, R.bind] at h2 ⊢
          split
          · exact .stuck _
          generalize rs l1 = q at h2
          cases h2 with
          | stuck => exact .stuck _
          | timeout => exact .timeout
        | stuck =>
          simp only [hC2, R.bind] at h2 ⊢
          split
          · exact .stuck _
          generalize rs l1 = q at h2
          cases h2
          exact .stuck _
  | ret v l => simp only [hC1, R.bind] at h1 ⊢; cases h1 with
    | stuck => exact .stuck _
    | ret h => exact .ret h
  | timeout => simp only [hC1, R.bind] at h1 ⊢; cases h1 with
    | stuck => exact .stuck _
    | timeout => exact .timeout
  | stuck => simp only [hC1, R.bind] at h1 ⊢; cases h1; exact .stuck _

theorem free_of_tail {s : Split Expr} {e : Expr}
    (h : ∀ x, x ∈ freeAfter s.frames (free s.tail) → x ∈ free e) {x : Name} (hx : x ∈ free s.tail) :
    x ∈ free e ∨ x ∈ boundBy s.frames := by
  by_cases hb : x ∈ boundBy s.frames
  · exact Or.inr hb
  · exact Or.inl (h x ((mem_freeAfter _ _ _).mpr (Or.inr ⟨hx, hb⟩)))

theorem idPost : ∀ (e : Expr) (x : Name), x ∈ free (id e) → x ∈ free e := fun _ _ h => h

theorem bound_free_tail {e : Expr} {n : Nat} {b : Bool} {x : Name} (hx : x ∈ free ((split id e n).boundIf b).tail) :
    x ∈ free e ∨ x ∈ boundBy ((split id e n).boundIf b).frames := by
  refine free_of_tail (s := (split id e n).boundIf b) (fun y hy => ?_) hx
  have := bound_free (split id e n) b (ys := []) (by rw [List.append_nil]; exact hy)
  rw [List.append_nil] at this
  exact split_free id idPost e n y this

theorem bound_boundBy_split {e : Expr} {n : Nat} {b : Bool} {x : Name}
    (hx : x ∈ boundBy ((split id e n).boundIf b).frames) :
    x ∈ binders e ∨ x ∈ anfNames n ((split id e n).boundIf b).next := by
  rcases bound_boundBy _ _ hx with h | h
  · rcases split_boundBy id e n x h with h | h
    · exact Or.inl h
    · exact Or.inr (anfNames_mono (Nat.le_refl _) (boundIf_next_le _ _) h)
  · exact Or.inr (anfNames_mono (split_next_le id e n) (Nat.le_refl _) h)

theorem isAnfName_of_mem {n m : Nat} {x : Name} (h : x ∈ anfNames n m) : IsAnfName x := by
  obtain ⟨i, _, _, rfl⟩ := mem_anfNames.mp h
  exact ⟨i, rfl⟩

/-- Names generated later are different. -/
theorem anfNames_disjoint {n m k : Nat} {x : Name} (h1 : x ∈ anfNames n m) (h2 : x ∈ anfNames m k) : False := by
  obtain ⟨i, _, h3, rfl⟩ := mem_anfNames.mp h1
  obtain ⟨j, h4, _, h5⟩ := mem_anfNames.mp h2
  have := anfName_inj h5
  omega

theorem RRel.frames {α β : Type} {B : α → β → Prop} {C : List Frame} {t : Expr} {ρ' : Env} {log : Log} {r : R Value}
    {f : Value → Log → R α} {g : Env → Value → Log → R β}
    (h : RRel S.K (VRel S.K) r ((S.frames ρ' C log).bind fun ρ1 l => S.ev' ρ1 t l))
    (hf : ∀ ρ1 l0, S.frames ρ' C log = .ok ρ1 l0 → ∀ v v' l, VRel S.K v v' → RRel S.K B (f v l) (g ρ1 v' l)) :
    RRel S.K B (r.bind f) ((S.frames ρ' C log).bind fun ρ1 l => (S.ev' ρ1 t l).bind (g ρ1)) := by
  cases hC : S.frames ρ' C log with
  | ok ρ1 l1 =>
    simp only [hC, R.bind] at h ⊢
    exact h.bind (hf ρ1 l1 hC)
  | ret v l =>
    simp only [hC, R.bind] at h ⊢
    cases h with
    | stuck => exact .stuck _
    | ret h => exact .ret h
  | timeout =>
    simp only [hC, R.bind] at h ⊢
    cases h with
    | stuck => exact .stuck _
    | timeout => exact .timeout
  | stuck =>
    simp only [hC, R.bind] at h ⊢
    cases h
    exact .stuck _

/-- Bindings before an expression do not change variables of what follows. -/
theorem EnvRel.afterFrames {e : Expr} {n : Nat} {ρ ρ' ρ1 : Env} {log l : Log} {live live' : Name → Prop}
    (hr : EnvRel S.K id live ρ ρ') (hC : S.frames ρ' (split id e n).frames log = .ok ρ1 l)
    (hl : ∀ x, live' x → live x ∧ x ∉ binders e ∧ ¬ IsAnfName x) : EnvRel S.K id live' ρ ρ1 := by
  refine (hr.mono (live' := live') (ren' := id) fun x hx => ⟨(hl x hx).1, rfl⟩).agree ?_
  intro x hx
  refine evalFrames_agree _ _ _ _ _ _ _ _ _ hC x ?_
  intro hb
  rcases split_boundBy id e n x hb with h | h
  · exact (hl x hx).2.1 h
  · exact (hl x hx).2.2 (isAnfName_of_mem h)

mutual
theorem split_sim (p : Program) (hK : S.K = anfK p) (hc : S.capture = captureAll) (hc' : S.capture' = captureAll) :
    ∀ (e : Expr) (n : Nat) (ρ ρ' : Env) (log : Log), HygienicE e → EnvRel S.K id (· ∈ free e) ρ ρ' →
      RRel S.K (VRel S.K) (S.ev ρ e log) (S.run ρ' (split id e n) log)
  | .literal l, n, ρ, ρ', log, _, hr => SimE.literal l ρ ρ' log hr
  | .variable x, n, ρ, ρ', log, _, hr => SimE.variable (by simp [free]) rfl ρ ρ' log hr
  | .op o es, n, ρ, ρ', log, hy, hr => by
    have ih := splitExprs_sim p hK hc hc' (bindsLast o) es n o.scalar ρ ρ' log hy hr
    simp only [Sim.run, split, Sim.ev, Sim.ev', eval_op, Sim.runs, Sim.evs, Sim.evs'] at ih ⊢
    rw [← R.bind_assoc]
    exact ih.bind fun vs vs' l hvs => applyOperation_rel o hvs l
  | .case e as, n, ρ, ρ', log, hy, hr => by
    have he : HygienicE e := hy.sub (by simp [binders]) (fun x hx => Or.inl (by simp [free, hx]))
    have has : Hygienic (bindersAlts as) (freeAlts as) :=
      hy.sub (by simp [binders]) (fun x hx => Or.inl (by simp [free, hx]))
    have ih := split_sim p hK hc hc' e n ρ ρ' log he (hr.mono fun x hx => ⟨by simp [free, hx], rfl⟩)
    simp only [Sim.run, split, Sim.ev, Sim.ev', eval] at ih ⊢
    refine RRel.frames ih fun ρ1 l0 hC v v' l hv => ?_
    have hr1 : EnvRel S.K id (· ∈ freeAlts as) ρ ρ1 := hr.afterFrames hC fun x hx =>
      have hx' : x ∈ free (.case e as) := by simp [free, hx]
      ⟨hx', fun hb => hy.disjoint x (by simp [binders, hb]) hx', hy.plain x (Or.inr hx')⟩
    cases hv with
    | variant t h => exact splitAlts_sim p hK hc hc' as _ has ρ ρ1 l t _ _ hr1 h
    | _ => exact .stuck _
  | .if_ c t e, n, ρ, ρ', log, hy, hr => by
    have hcy : HygienicE c := hy.sub (by simp [binders]) (fun x hx => Or.inl (by simp [free, hx]))
    have hty : HygienicE t := hy.sub (by simp [binders]) (fun x hx => Or.inl (by simp [free, hx]))
    have hey : HygienicE e := hy.sub (by simp [binders]) (fun x hx => Or.inl (by simp [free, hx]))
    have ih := split_sim p hK hc hc' c n ρ ρ' log hcy (hr.mono fun x hx => ⟨by simp [free, hx], rfl⟩)
    simp only [Sim.run, split, Sim.ev, Sim.ev', eval] at ih ⊢
    refine RRel.frames ih fun ρ1 l0 hC v v' l hv => ?_
    have hr1 : EnvRel S.K id (fun x => x ∈ free t ∨ x ∈ free e) ρ ρ1 := hr.afterFrames hC fun x hx =>
      have hx' : x ∈ free (.if_ c t e) := by rcases hx with hx | hx <;> simp [free, hx]
      ⟨hx', fun hb => hy.disjoint x (by simp [binders, hb]) hx', hy.plain x (Or.inr hx')⟩
    cases hv with
    | boolean b =>
      cases b with
      | false =>
        have := split_sim p hK hc hc' e (split id t (split id c n).next).next ρ ρ1 l hey (hr1.mono fun x hx => ⟨Or.inr hx, rfl⟩)
        rw [← Sim.ev'_plug] at this
        exact this
      | true =>
        have := split_sim p hK hc hc' t (split id c n).next ρ ρ1 l hty (hr1.mono fun x hx => ⟨Or.inl hx, rfl⟩)
        rw [← Sim.ev'_plug] at this
        exact this
    | _ => exact .stuck _
  | .let_ x e b, n, ρ, ρ', log, hy, hr => by
    have hn := hy.nodup
    simp only [binders, List.nodup_cons, List.nodup_append, List.mem_append, not_or] at hn
    have hey : HygienicE e := hy.sub (by simp [binders]) (fun x hx => Or.inl (by simp [free, hx]))
    have hby : HygienicE b := hy.sub (by simp [binders]) (fun y hy' => by
      by_cases hyx : y = x
      · exact Or.inr ⟨by simp [binders, hyx], hyx ▸ hn.1.2⟩
      · exact Or.inl (by simp only [free, List.mem_append]; exact Or.inr (mem_filter_ne hy' hyx)))
    have ih := split_sim p hK hc hc' e n ρ ρ' log hey (hr.mono fun x hx => ⟨by simp [free, hx], rfl⟩)
    simp only [Sim.run, split, Sim.ev, Sim.ev', eval, evalFrames_append, evalFrames, R.bind_assoc, Sim.frames] at ih ⊢
    refine RRel.frames ih fun ρ1 l0 hC v v' l hv => ?_
    have hr1 : EnvRel S.K id (fun y => y ∈ free b ∧ y ≠ x) ρ ρ1 := hr.afterFrames hC fun y hy' =>
      have hx' : y ∈ free (.let_ x e b) := by
        simp only [free, List.mem_append]; exact Or.inr (mem_filter_ne hy'.1 hy'.2)
      ⟨hx', fun hb => hy.disjoint y (by simp [binders, hb]) hx', hy.plain y (Or.inr hx')⟩
    have hr2 : EnvRel S.K id (· ∈ free b) (ρ.set x v) (ρ1.set x v') := by
      have := hr1.set (x := x) (x' := x) (live' := (· ∈ free b)) hv fun y h1 h2 => ⟨⟨h1, h2⟩, h2⟩
      rwa [extend_self] at this
    exact split_sim p hK hc hc' b _ _ _ l hby hr2
  | .letRec f env args th body b, n, ρ, ρ', log, hy, hr => by
    have hn := hy.nodup
    simp only [binders, List.nodup_cons, List.nodup_append, List.mem_append, not_or] at hn
    have hbody : HygienicE body := hy.sub (by
        simp only [binders]
        exact ((List.sublist_append_left _ _).trans (List.sublist_append_right _ _)).cons _) (fun y hy' => by
      by_cases hyf : y = f
      · exact Or.inr ⟨by simp [binders, hyf], hyf ▸ hn.1.2.1⟩
      by_cases hya : y ∈ args
      · exact Or.inr ⟨by simp [binders, hya], fun hb => hn.2.2.2 y hya y (Or.inl hb) rfl⟩
      · refine Or.inl ?_
        simp only [free, List.mem_filter, List.mem_append, bne_iff_ne, ne_eq, Bool.and_eq_true, List.all_eq_true]
        exact ⟨Or.inl ⟨hy', hyf, fun z hz h => hya (h ▸ hz)⟩, hyf⟩)
    have hby : HygienicE b := hy.sub (by
        simp only [binders]
        exact ((List.sublist_append_right _ _).trans (List.sublist_append_right _ _)).cons _) (fun y hy' => by
      by_cases hyf : y = f
      · exact Or.inr ⟨by simp [binders, hyf], hyf ▸ hn.1.2.2⟩
      · refine Or.inl ?_
        simp only [free, List.mem_filter, List.mem_append, bne_iff_ne, ne_eq]
        exact ⟨Or.inr hy', hyf⟩)
    simp only [Sim.run, split, Sim.ev, eval, Sim.frames, evalFrames, id]
    refine split_sim p hK hc hc' b _ _ _ log hby ?_
    have hk : S.K.closure ⟨f, env, args, th, body⟩ (anfDef ⟨f, env, args, th, body⟩ n) id
        (fun x => x ∈ free (.letRec f env args th body b)) ρ ρ' := by
      rw [hK]
      refine ⟨rfl, ?_, hbody, n, rfl⟩
      intro y hy' hyf hya
      simp only [free, List.mem_filter, List.mem_append, bne_iff_ne, ne_eq, Bool.and_eq_true, List.all_eq_true]
      exact ⟨Or.inl ⟨hy', hyf, fun z hz h => hya (h ▸ hz)⟩, hyf⟩
    have hv := VRel.close hk hr
    have hr1 := hr.set (x := f) (x' := f) (live' := (· ∈ free b)) hv (by
      intro y h1 h2
      refine ⟨?_, h2⟩
      simp only [free, List.mem_filter, List.mem_append, bne_iff_ne, ne_eq]
      exact ⟨Or.inr h1, h2⟩)
    rw [extend_self] at hr1
    rw [hc, hc']
    exact hr1
  | .try_ e x t b, n, ρ, ρ', log, hy, hr => by
    have hn := hy.nodup
    simp only [binders, List.nodup_cons, List.nodup_append, List.mem_append, not_or] at hn
    have hey : HygienicE e := hy.sub (by simp [binders]) (fun x hx => Or.inl (by simp [free, hx]))
    have hby : HygienicE b := hy.sub (by simp [binders]) (fun y hy' => by
      by_cases hyx : y = x
      · exact Or.inr ⟨by simp [binders, hyx], hyx ▸ hn.1.2⟩
      · exact Or.inl (by simp only [free, List.mem_append]; exact Or.inr (mem_filter_ne hy' hyx)))
    have ih := split_sim p hK hc hc' e n ρ ρ' log hey (hr.mono fun x hx => ⟨by simp [free, hx], rfl⟩)
    simp only [Sim.run, split, Sim.ev, Sim.ev', eval] at ih ⊢
    refine RRel.frames ih fun ρ1 l0 hC v v' l hv => ?_
    have hr1 : EnvRel S.K id (fun y => y ∈ free b ∧ y ≠ x) ρ ρ1 := hr.afterFrames hC fun y hy' =>
      have hx' : y ∈ free (.try_ e x t b) := by
        simp only [free, List.mem_append]; exact Or.inr (mem_filter_ne hy'.1 hy'.2)
      ⟨hx', fun hb => hy.disjoint y (by simp [binders, hb]) hx', hy.plain y (Or.inr hx')⟩
    cases hv with
    | variant t' h =>
      by_cases ht : t' = t
      · simp only [if_pos ht]
        have hr2 := hr1.set (x := x) (x' := x) (live' := (· ∈ free b)) h fun y h1 h2 => ⟨⟨h1, h2⟩, h2⟩
        rw [extend_self] at hr2
        have := split_sim p hK hc hc' b (split id e n).next _ _ l hby hr2
        rw [← Sim.ev'_plug] at this
        exact this.bind fun a b l h => .ret h
      · simp only [if_neg ht]
        exact .ok (.variant t' h)
    | _ => exact .stuck _
  | .clone xs e, n, ρ, ρ', log, hy, hr => by
    have ih := split_sim p hK hc hc' e n ρ ρ' log hy hr
    simp only [Sim.run, split, Sim.ev, Sim.ev', eval] at ih ⊢
    exact ih
  | .drop xs e, n, ρ, ρ', log, hy, hr => by
    have ih := split_sim p hK hc hc' e n ρ ρ' log hy hr
    simp only [Sim.run, split, Sim.ev, Sim.ev', eval] at ih ⊢
    exact ih
theorem splitExprs_sim (p : Program) (hK : S.K = anfK p) (hc : S.capture = captureAll) (hc' : S.capture' = captureAll)
    (last : Bool) : ∀ (es : Exprs) (n : Nat) (scalar : Bool) (ρ ρ' : Env) (log : Log),
      Hygienic (bindersExprs es) (freeExprs es) →
      EnvRel S.K id (· ∈ freeExprs es) ρ ρ' →
      RRel S.K (VsRel S.K) (S.evs scalar ρ es log) (S.runs scalar ρ' (splitExprs id last es n) log)
  | .nil, n, scalar, ρ, ρ', log, _, hr => by
    simp only [Sim.runs, splitExprs, Sim.frames, evalFrames, R.bind, Sim.evs, Sim.evs', Exprs.ofList, evals]
    exact .ok .nil
  | .cons e es, n, scalar, ρ, ρ', log, hy, hr => by
    have hn := hy.nodup
    simp only [bindersExprs, List.nodup_append] at hn
    have hey : HygienicE e := hy.sub (by simp [bindersExprs]) (fun x hx => Or.inl (by simp [freeExprs, hx]))
    have hesy : Hygienic (bindersExprs es) (freeExprs es) :=
      hy.sub (by simp [bindersExprs]) (fun x hx => Or.inl (by simp [freeExprs, hx]))
    have ih := split_sim p hK hc hc' e n ρ ρ' log hey (hr.mono fun x hx => ⟨by simp [freeExprs, hx], rfl⟩)
    simp only [Sim.runs, splitExprs, Sim.evs, evals]
    cases hb : last || !es.isNil with
    | true =>
      rw [← run_bound ρ' (split id e n) log true] at ih
      refine RRel.operands scalar (boundIf_atom _) ih ?_ ?_
      · intro ρ1 l hC
        refine splitExprs_sim p hK hc hc' last es _ scalar ρ ρ1 l hesy ?_
        refine (hr.mono (live' := (· ∈ freeExprs es)) (ren' := id) fun x hx => ⟨by simp [freeExprs, hx], rfl⟩).agree ?_
        intro x hx
        have hx' : x ∈ freeExprs (.cons e es) := by simp [freeExprs, hx]
        refine evalFrames_agree _ _ _ _ _ _ _ _ _ hC x fun hb => ?_
        rcases bound_boundBy_split hb with h | h
        · exact hy.disjoint x (by simp [bindersExprs, h]) hx'
        · exact hy.plain x (Or.inr hx') (isAnfName_of_mem h)
      · intro x hx hb
        rcases splitExprs_boundBy id last es _ x hb with h | h
        · have hxs : x ∈ bindersExprs (.cons e es) := by simp [bindersExprs, h]
          rcases bound_free_tail hx with h1 | h1
          · exact hy.disjoint x hxs (by simp [freeExprs, h1])
          · rcases bound_boundBy_split h1 with h2 | h2
            · exact hn.2.2 x h2 x h rfl
            · exact hy.plain x (Or.inl hxs) (isAnfName_of_mem h2)
        · rcases bound_free_tail hx with h1 | h1
          · exact hy.plain x (Or.inr (by simp [freeExprs, h1])) (isAnfName_of_mem h)
          · rcases bound_boundBy_split h1 with h2 | h2
            · exact hy.plain x (Or.inl (by simp [bindersExprs, h2])) (isAnfName_of_mem h)
            · exact anfNames_disjoint h2 h
    | false =>
      have hes : es = .nil := by
        cases es with
        | nil => rfl
        | cons => simp [Exprs.isNil] at hb
      subst hes
      simp only [Split.boundIf, Bool.false_eq_true, if_false, splitExprs, List.append_nil, Exprs.ofList, Sim.evs', evals]
      refine RRel.frames ih fun ρ1 l0 hC v v' l hv => ?_
      exact hv.operand scalar (.ok (.cons hv .nil))
theorem splitAlts_sim (p : Program) (hK : S.K = anfK p) (hc : S.capture = captureAll) (hc' : S.capture' = captureAll) :
    ∀ (as : Alts) (n : Nat), Hygienic (bindersAlts as) (freeAlts as) →
      SimAs S id (· ∈ freeAlts as) as (splitAlts id as n).1
  | .nil, n, hy => .nil
  | .cons ts x e as, n, hy => by
    have hn := hy.nodup
    simp only [bindersAlts, List.nodup_cons, List.nodup_append, List.mem_append, not_or] at hn
    have hey : HygienicE e := hy.sub (by simp [bindersAlts]) (fun y hy' => by
      by_cases hyx : y = x
      · exact Or.inr ⟨by simp [bindersAlts, hyx], hyx ▸ hn.1.1⟩
      · exact Or.inl (by simp only [freeAlts, List.mem_append]; exact Or.inl (mem_filter_ne hy' hyx)))
    have hasy : Hygienic (bindersAlts as) (freeAlts as) :=
      hy.sub (by simp [bindersAlts]) (fun x hx => Or.inl (by simp [freeAlts, hx]))
    simp only [splitAlts]
    refine .cons ts (live' := (· ∈ free e)) ?_ ?_
      ((splitAlts_sim p hK hc hc' as _ hasy).mono fun x hx => ⟨by simp [freeAlts, hx], rfl⟩)
    · rw [extend_self]
      intro ρ ρ' log hr
      rw [Sim.ev'_plug]
      exact split_sim p hK hc hc' e n ρ ρ' log hey hr
    · intro y h1 h2
      exact ⟨by simp only [freeAlts, List.mem_append]; exact Or.inl (mem_filter_ne h1 h2), h2⟩
end

end Verif.Mir
