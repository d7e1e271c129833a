import Verif.Mir.LiftingStatic

/- Lifted expressions do what their sources do. -/
namespace Verif.Mir

/-! ### Environments -/

theorem setMany_other : ∀ {xs : List Name} {vs : List Value} {ρ ρ1 : Env}, ρ.setMany xs vs = some ρ1 →
    ∀ y, y ∉ xs → ρ1 y = ρ y
  | [], [], ρ, ρ1, h, y, _ => by simp only [Env.setMany, Option.some.injEq] at h; rw [h]
  | x :: xs, v :: vs, ρ, ρ1, h, y, hy => by
    simp only [List.mem_cons, not_or] at hy
    simp only [Env.setMany] at h
    rw [setMany_other h y hy.2]
    simp [Env.set, hy.1]
  | [], _ :: _, _, _, h, _, _ => by simp [Env.setMany] at h
  | _ :: _, [], _, _, h, _, _ => by simp [Env.setMany] at h

theorem setMany_exists : ∀ (xs : List Name) (vs : List Value) (ρ : Env), xs.length = vs.length →
    ∃ ρ1, ρ.setMany xs vs = some ρ1
  | [], [], ρ, _ => ⟨ρ, rfl⟩
  | x :: xs, v :: vs, ρ, h => by simp only [Env.setMany]; exact setMany_exists xs vs _ (by simpa using h)
  | [], _ :: _, _, h => by simp at h
  | _ :: _, [], _, h => by simp at h

theorem setMany_map : ∀ {xs : List Name} {vs : List Value} {ρ ρ1 : Env}, xs.Nodup → ρ.setMany xs vs = some ρ1 →
    xs.map ρ1 = vs.map some
  | [], [], ρ, ρ1, _, _ => rfl
  | x :: xs, v :: vs, ρ, ρ1, hn, h => by
    simp only [List.nodup_cons] at hn
    simp only [Env.setMany] at h
    rw [List.map_cons, List.map_cons, setMany_map hn.2 h, setMany_other h x hn.1]
    simp [Env.set]
  | [], _ :: _, _, _, _, h => by simp [Env.setMany] at h
  | _ :: _, [], _, _, _, h => by simp [Env.setMany] at h

theorem setMany_append : ∀ {xs : List Name} {vs : List Value} {ρ ρ1 : Env} (ys : List Name) (us : List Value),
    ρ.setMany xs vs = some ρ1 → ρ.setMany (xs ++ ys) (vs ++ us) = ρ1.setMany ys us
  | [], [], ρ, ρ1, ys, us, h => by simp only [Env.setMany, Option.some.injEq] at h; rw [h]; rfl
  | x :: xs, v :: vs, ρ, ρ1, ys, us, h => by
    simp only [Env.setMany, List.cons_append] at h ⊢
    exact setMany_append ys us h
  | [], _ :: _, _, _, _, _, h => by simp [Env.setMany] at h
  | _ :: _, [], _, _, _, _, h => by simp [Env.setMany] at h

theorem setMany_bound : ∀ {xs : List Name} {vs : List Value} {ρ ρ1 : Env}, ρ.setMany xs vs = some ρ1 →
    ∀ x, x ∈ xs → ρ1 x ≠ none
  | [], [], ρ, ρ1, h, y, hy => by simp at hy
  | x :: xs, v :: vs, ρ, ρ1, h, y, hy => by
    simp only [Env.setMany] at h
    by_cases hx : y ∈ xs
    · exact setMany_bound h y hx
    · simp only [List.mem_cons, hx, or_false] at hy
      subst hy
      rw [setMany_other h _ hx]
      simp [Env.set]
  | [], _ :: _, _, _, h, _, _ => by simp [Env.setMany] at h
  | _ :: _, [], _, _, h, _, _ => by simp [Env.setMany] at h

/-- Saving variables binds new names to their values. -/
theorem eval_save (w : World) (p : Program) (capture : List Name → Env → Env) (call : Caller) (b : Expr) (log : Log) :
    ∀ {env xs : List Name} {ws : List Value} {ρ ρ1 : Env}, (∀ x ∈ env, x ∉ xs) →
      env.map (lookup p ρ) = ws.map some → ρ.setMany xs ws = some ρ1 →
      eval w p capture call ρ (save env xs b) log = eval w p capture call ρ1 b log
  | [], [], [], ρ, ρ1, _, _, h => by simp only [Env.setMany, Option.some.injEq] at h; rw [h]; rfl
  | x :: env, y :: xs, v :: ws, ρ, ρ1, hd, hm, h => by
    simp only [List.map_cons, List.cons.injEq] at hm
    simp only [Env.setMany] at h
    simp only [save, eval, hm.1, R.ofOption, R.bind]
    refine eval_save w p capture call b log (fun x hx hx' => hd x (by simp [hx]) (by simp [hx'])) ?_ h
    rw [← hm.2]
    refine List.map_congr_left fun z hz => ?_
    rw [lookup_set, if_neg fun h => hd z (by simp [hz]) (by simp [h])]
  | [], _ :: _, [], _, _, _, _, h => by simp [Env.setMany] at h
  | [], _, _ :: _, _, _, _, hm, _ => by simp at hm
  | _ :: _, _, [], _, _, _, hm, _ => by simp at hm
  | _ :: _, [], _ :: _, _, _, _, _, h => by simp [Env.setMany] at h

theorem evals_variables (w : World) (p : Program) (capture : List Name → Env → Env) (call : Caller) (log : Log) (ρ : Env) :
    ∀ {xs : List Name} {ws : List Value}, xs.map ρ = ws.map some →
      evals w p capture call false ρ (variables xs) log = .ok ws log
  | [], [], _ => rfl
  | x :: xs, v :: ws, h => by
    simp only [List.map_cons, List.cons.injEq] at h
    simp only [variables, evals, eval, lookup, h.1, R.ofOption, R.bind, Bool.false_and, Bool.false_eq_true, if_false, evals_variables w p capture call log ρ h.2]
  | [], _ :: _, h => by simp at h
  | _ :: _, [], h => by simp at h

/-! ### Relations -/

/-- Variables a closure of the source keeps. -/
def Kept (env : List Name) (ρ : Env) : Prop := (∀ x, x ∉ env → ρ x = none) ∧ ∀ x ∈ env, ρ x ≠ none

/-- No name of a lifted function is bound. -/
def Clean (ρ : Env) : Prop := ∀ i f, ρ (liftName i f) = none

def liftK (p : Program) : ClosureRel where
  source := p
  target := liftProgram p
  closure d d' ren live ρ ρ' := ren = id ∧ live = Plain ∧ d'.f = d.f ∧ d'.args = d.args ∧
    (∀ x ∈ d.f :: d.args ++ d.env, Plain x) ∧ Kept d.env ρ ∧ Clean ρ' ∧
    ∃ N, L (liftProgram p) N (d.f :: d.args ++ d.env) .empty d.body d'.body
  lifted d ρ g := ρ = (fun _ => none) ∧ (∀ x ∈ d.f :: d.args, Plain x) ∧ d.f ∉ d.args ∧
    ∃ i body' N, g = liftName i d.f ∧ (liftProgram p).find g = some ⟨g, d.args, d.thunk, .let_ d.f (.variable g) body'⟩ ∧
      L (liftProgram p) N (d.f :: d.args) .empty d.body body'

/-- A closure whose calls become calls of a global function with more arguments. -/
structure Lifted (p : Program) (d : Def) (ρ : Env) (g : Name) (ws : List Value) : Prop where
  plain : ∀ x ∈ d.f :: d.args ++ d.env, Plain x
  args : d.f ∉ d.args
  env : ∀ x ∈ d.env, x ≠ d.f ∧ x ∉ d.args
  nodup : d.env.Nodup
  kept : Kept d.env ρ
  values : ∃ us, d.env.map ρ = us.map some ∧ VsRel (liftK p) us ws
  target : ∃ i xs body' N, g = liftName i d.f ∧ xs.length = d.env.length ∧ xs.Nodup ∧ (∀ x ∈ xs, ∃ y i, x = fvName y i) ∧
    (liftProgram p).find g = some ⟨g, d.args ++ d.env, false, .let_ d.f (.variable g) (save d.env xs body')⟩ ∧
    L (liftProgram p) N (d.f :: d.args ++ d.env) (Lam.empty.put d.f xs) d.body body'

/-- Calls of such closures. -/
def LiftedCalls (p : Program) (call call' : Caller) : Prop :=
  ∀ d ρ g ws, Lifted p d ρ g ws → ∀ vs vs' log, VsRel (liftK p) vs vs' →
    RRel (liftK p) (VRel (liftK p)) (call (d.close ρ) vs log) (call' (.global g) (vs' ++ ws) log)

/-- Related environments. -/
structure EnvL (p : Program) (sc : List Name) (m : Lam) (ρ ρ' : Env) : Prop where
  rel : ∀ x, Plain x → m x = none → ∀ v, lookup p ρ x = some v →
    ∃ v', lookup (liftProgram p) ρ' x = some v' ∧ VRel (liftK p) v v'
  lifted : ∀ f xs, m f = some xs → Plain f ∧ (∀ x ∈ xs, ∃ y i, x = fvName y i) ∧ ∃ d ρc g ws, ρ f = some (d.close ρc) ∧
    ρ' f = some (.global g) ∧ Lifted p d ρc g ws ∧ xs.map ρ' = ws.map some
  clean : Clean ρ'
  scope : ∀ x ∈ sc, ρ x ≠ none

variable {p : Program} {sc : List Name} {m : Lam} {ρ ρ' : Env}

theorem Plain.ne_fv {x y : Name} (h : Plain x) (hy : ∃ z i, y = fvName z i) : y ≠ x := by
  obtain ⟨z, i, rfl⟩ := hy
  exact fun h' => h.1 z i h'.symm

theorem Clean.set (h : Clean ρ') {x : Name} (hx : Plain x) (v : Value) : Clean (ρ'.set x v) := by
  intro i f
  simp only [Env.set]
  rw [if_neg fun h' => hx.2 i f h'.symm]
  exact h i f

theorem Clean.setMany (h : Clean ρ') {xs : List Name} {vs : List Value} {ρ1 : Env} (h1 : ρ'.setMany xs vs = some ρ1)
    (hx : ∀ x ∈ xs, ∀ i f, x ≠ liftName i f) : Clean ρ1 := by
  intro i f
  rw [setMany_other h1 _ fun h' => hx _ h' i f rfl]
  exact h i f

theorem map_set_other {xs : List Name} {x : Name} {v : Value} (h : ∀ y ∈ xs, y ≠ x) :
    xs.map (ρ'.set x v) = xs.map ρ' :=
  List.map_congr_left fun y hy => by simp [Env.set, h y hy]

/-- Binding a variable. -/
theorem EnvL.set (h : EnvL p sc m ρ ρ') {x : Name} (hx : Plain x) {v v' : Value} (hv : VRel (liftK p) v v') :
    EnvL p (x :: sc) (m.erase x) (ρ.set x v) (ρ'.set x v') where
  rel y hy hm u hu := by
    rw [lookup_set] at hu ⊢
    by_cases hyx : y = x
    · simp only [hyx, if_true, Option.some.injEq] at hu ⊢
      subst hu
      exact ⟨v', rfl, hv⟩
    · simp only [hyx, if_false] at hu ⊢
      simp only [Lam.erase, if_neg hyx] at hm
      exact h.rel y hy hm u hu
  lifted f xs hf := by
    simp only [Lam.erase] at hf
    split at hf
    · cases hf
    · rename_i hfx
      obtain ⟨h1, h2, d, ρc, g, ws, h3, h4, h5, h6⟩ := h.lifted f xs hf
      refine ⟨h1, h2, d, ρc, g, ws, by simp [Env.set, hfx, h3], by simp [Env.set, hfx, h4], h5, ?_⟩
      rw [map_set_other fun y hy => hx.ne_fv (h2 y hy)]
      exact h6
  clean := h.clean.set hx v'
  scope y hy := by
    simp only [Env.set]
    split
    · simp
    · simp only [List.mem_cons] at hy
      exact h.scope y (hy.resolve_left (by assumption))

theorem lookup_some {p : Program} {ρ : Env} {x : Name} {v : Value} (h : ρ x = some v) : lookup p ρ x = some v := by
  simp [lookup, h]

/-- Values of a list of variables in both environments. -/
theorem EnvL.values (h : EnvL p sc m ρ ρ') : ∀ (env : List Name), (∀ x ∈ env, x ∈ sc ∧ Plain x ∧ m x = none) →
    ∃ us ws, env.map ρ = us.map some ∧ env.map (lookup (liftProgram p) ρ') = ws.map some ∧ VsRel (liftK p) us ws
  | [], _ => ⟨[], [], rfl, rfl, .nil⟩
  | x :: env, hx => by
    obtain ⟨us, ws, h1, h2, h3⟩ := h.values env fun y hy => hx y (by simp [hy])
    obtain ⟨h4, h5, h6⟩ := hx x (by simp)
    obtain ⟨u, hu⟩ := Option.ne_none_iff_exists'.mp (h.scope x h4)
    obtain ⟨w, h7, h8⟩ := h.rel x h5 h6 u (lookup_some hu)
    exact ⟨u :: us, w :: ws, by simp [hu, h1], by simp [h7, h2], .cons h8 h3⟩

theorem lookup_lifted {g : Name} {d : Global} (hc : ρ' g = none) (hg : (liftProgram p).find g = some d) :
    lookup (liftProgram p) ρ' g = some (.global g) := by
  simp [lookup, hc, Program.isGlobal, hg]

theorem captureEnvironment_kept {env : List Name} (h : ∀ x ∈ env, ρ x ≠ none) : Kept env (captureEnvironment env ρ) := by
  constructor
  · intro x hx; simp [captureEnvironment, hx]
  · intro x hx; simp only [captureEnvironment, if_pos hx]; exact h x hx

theorem lookup_plain_global (hp : LiftableProgram p) {x : Name} {v : Value} (hρ : ρ x = none)
    (hv : lookup p ρ x = some v) (hρ' : ρ' x = none) :
    ∃ v', lookup (liftProgram p) ρ' x = some v' ∧ VRel (liftK p) v v' := by
  simp only [lookup, hρ] at hv
  split at hv
  · rename_i hg
    cases hv
    refine ⟨.global x, ?_, .global x⟩
    simp [lookup, hρ', liftProgram_isGlobal p hp hg]
  · cases hv

/-- A closure that is kept. -/
theorem keep_rel (hp : LiftableProgram p) {N : Name → Prop} {d : Def} {body' : Expr} (h : EnvL p sc m ρ ρ')
    (h1 : ∀ x ∈ d.f :: d.args ++ d.env, Plain x) (h2 : ∀ x ∈ d.env, x ∈ sc ∧ m x = none)
    (hb : L (liftProgram p) N (d.f :: d.args ++ d.env) .empty d.body body') :
    VRel (liftK p) (d.close (captureEnvironment d.env ρ))
      (Def.close ⟨d.f, d.env, d.args, d.thunk, body'⟩ (captureEnvironment d.env ρ')) := by
  refine VRel.close (K := liftK p) (ren := id) (live := Plain)
    ⟨rfl, rfl, rfl, rfl, h1, captureEnvironment_kept fun x hx => h.scope x (h2 x hx).1, ?_, N, hb⟩ ?_
  · intro i f
    simp only [captureEnvironment]
    split
    · exact h.clean i f
    · rfl
  · intro x hx v hv
    have hv : lookup p (captureEnvironment d.env ρ) x = some v := hv
    show ∃ v', lookup (liftProgram p) (captureEnvironment d.env ρ') x = some v' ∧ _
    by_cases hm : x ∈ d.env
    · rw [lookup_captureEnvironment, if_pos hm] at hv ⊢
      exact h.rel x hx (h2 x hm).2 v hv
    · exact lookup_plain_global hp (by simp [captureEnvironment, hm]) hv (by simp [captureEnvironment, hm])

/-- The environment where a lifted function is called. -/
theorem EnvL.lift (h : EnvL p sc m ρ ρ') {N : Name → Prop} {d : Def} {xs : List Name} {body' : Expr} {i : Nat}
    (h1 : ∀ x ∈ d.f :: d.args ++ d.env, Plain x) (h2 : d.f ∉ d.args) (h3 : ∀ x ∈ d.env, x ≠ d.f ∧ x ∉ d.args)
    (h4 : d.env.Nodup) (h5 : ∀ x ∈ d.env, x ∈ sc ∧ m x = none)
    (h6 : xs.length = d.env.length) (h7 : xs.Nodup) (h8 : ∀ x ∈ xs, ∃ y i, x = fvName y i)
    (h9 : ∀ h ys, m h = some ys → ∀ y ∈ ys, y ∉ xs)
    (h10 : (liftProgram p).find (liftName i d.f) =
      some ⟨liftName i d.f, d.args ++ d.env, false, .let_ d.f (.variable (liftName i d.f)) (save d.env xs body')⟩)
    (h11 : L (liftProgram p) N (d.f :: d.args ++ d.env) (Lam.empty.put d.f xs) d.body body') :
    ∃ ws ρ1', d.env.map (lookup (liftProgram p) (ρ'.set d.f (.global (liftName i d.f)))) = ws.map some ∧
      (ρ'.set d.f (.global (liftName i d.f))).setMany xs ws = some ρ1' ∧
      EnvL p (d.f :: sc) (m.put d.f xs) (ρ.set d.f (d.close (captureEnvironment d.env ρ))) ρ1' := by
  have hf : Plain d.f := h1 _ (by simp)
  obtain ⟨us, ws, hu, hw, hr⟩ := h.values d.env fun x hx => ⟨(h5 x hx).1, h1 x (by simp [hx]), (h5 x hx).2⟩
  have hlen : xs.length = ws.length := by
    have := congrArg List.length hw
    simp only [List.length_map] at this
    omega
  obtain ⟨ρ1', hρ⟩ := setMany_exists xs ws (ρ'.set d.f (.global (liftName i d.f))) hlen
  have hlift : ∀ x ∈ xs, ∀ i f, x ≠ liftName i f := by
    intro x hx i f h'
    obtain ⟨y, j, rfl⟩ := h8 x hx
    exact fvName_ne_liftName _ _ _ _ h'
  refine ⟨ws, ρ1', ?_, hρ, ?_, ?_, (h.clean.set hf _).setMany hρ hlift, ?_⟩
  · rw [← hw]
    exact List.map_congr_left fun x hx => by rw [lookup_set, if_neg (h3 x hx).1]
  · intro x hx hm v hv
    by_cases hxf : x = d.f
    · simp [Lam.put, hxf] at hm
    · simp only [Lam.put, if_neg hxf] at hm
      rw [lookup_set, if_neg hxf] at hv
      obtain ⟨v', h12, h13⟩ := h.rel x hx hm v hv
      refine ⟨v', ?_, h13⟩
      have hxx : x ∉ xs := fun h' => hx.ne_fv (h8 x h') rfl
      have : ρ1' x = ρ' x := by rw [setMany_other hρ x hxx]; simp [Env.set, hxf]
      rw [← h12]
      simp only [lookup, this]
  · intro k ys hk
    have hout : ∀ y, Plain y → y ≠ d.f → ρ1' y = ρ' y := by
      intro y hy hyf
      rw [setMany_other hρ y fun h' => hy.ne_fv (h8 y h') rfl]
      simp [Env.set, hyf]
    simp only [Lam.put] at hk
    split at hk
    · subst_vars
      cases hk
      refine ⟨hf, h8, d, captureEnvironment d.env ρ, liftName i d.f, ws, by simp [Env.set], ?_, ?_, setMany_map h7 hρ⟩
      · rw [setMany_other hρ _ fun h' => hf.ne_fv (h8 _ h') rfl]
        simp [Env.set]
      · refine ⟨h1, h2, h3, h4, captureEnvironment_kept fun x hx => h.scope x (h5 x hx).1, ⟨us, ?_, hr⟩, i, xs, body', N, rfl, h6, h7,
          h8, h10, h11⟩
        rw [← hu]
        exact List.map_congr_left fun x hx => by simp [captureEnvironment, hx]
    · rename_i hkf
      obtain ⟨h12, h13, d1, ρc, g, ws1, h14, h15, h16, h17⟩ := h.lifted k ys hk
      refine ⟨h12, h13, d1, ρc, g, ws1, by simp [Env.set, hkf, h14], ?_, h16, ?_⟩
      · rw [hout k h12 hkf]; exact h15
      · rw [← h17]
        refine List.map_congr_left fun y hy => ?_
        rw [setMany_other hρ y (h9 k ys hk y hy)]
        simp [Env.set, hf.ne_fv (h13 y hy)]
  · intro x hx
    simp only [Env.set]
    split
    · simp
    · simp only [List.mem_cons] at hx
      exact h.scope x (hx.resolve_left (by assumption))

variable {S : Sim}

mutual
theorem L.sim (hp : LiftableProgram p) (hK : S.K = liftK p) (hc : S.capture = captureEnvironment)
    (hc' : S.capture' = captureEnvironment) (hq : LiftedCalls p S.call S.call') {N : Name → Prop} :
    ∀ {sc : List Name} {m : Lam} {e e' : Expr} {ρ ρ' : Env}, L (liftProgram p) N sc m e e' → EnvL p sc m ρ ρ' →
      SimAt S ρ ρ' e e'
  | _, _, _, _, _, _, .literal l, _ => .literal l
  | _, _, _, _, _, _, .variable h1 h2, h => .variable (by rw [hK]; exact h.rel _ h1 h2)
  | _, _, _, _, _, _, .op o h1, h => .op o (h1.sim hp hK hc hc' hq h)
  | _, _, _, _, ρ, ρ', .call (f := f) (xs := xs) (es := es) (es' := es') h1 h2, h => by
    intro log
    have hs := h2.sim hp hK hc hc' hq h
    obtain ⟨h3, h4, d, ρc, g, ws, h5, h6, h7, h8⟩ := h.lifted f xs h1
    simp only [Sim.ev, Sim.ev', eval_op, evals, eval, lookup_some h5, lookup_some h6, R.ofOption, R.bind,
      Op.scalar, Bool.false_and, Bool.false_eq_true, if_false]
    rw [evals_append]
    have hs := hs false log
    simp only [Sim.evs, Sim.evs'] at hs
    revert hs
    generalize evals S.w S.K.source S.capture S.call false ρ es log = r
    generalize evals S.w S.K.target S.capture' S.call' false ρ' es' log = r'
    intro hs
    cases hs with
    | stuck => exact .stuck _
    | timeout => exact .timeout
    | ret hv => exact .ret hv
    | ok hv =>
      simp only [R.bind, evals_variables _ _ _ _ _ _ h8, applyOperation]
      rw [hK] at hv ⊢
      exact hq d ρc g ws h7 _ _ _ hv
  | _, _, _, _, _, _, .case h1 h2, h => .case (h1.sim hp hK hc hc' hq h) (h2.sim hp hK hc hc' hq h)
  | _, _, _, _, _, _, .if_ h1 h2 h3, h =>
    .if_ (h1.sim hp hK hc hc' hq h) (h2.sim hp hK hc hc' hq h) (h3.sim hp hK hc hc' hq h)
  | _, _, _, _, _, _, .let_ h1 h2 h3, h =>
    .let_ (h2.sim hp hK hc hc' hq h) fun v v' hv => h3.sim hp hK hc hc' hq (h.set h1 (hK ▸ hv))
  | _, _, _, _, _, _, .try_ t h1 h2 h3, h =>
    .try_ (h2.sim hp hK hc hc' hq h) fun v v' hv => h3.sim hp hK hc hc' hq (h.set h1 (hK ▸ hv))
  | _, _, _, _, _, _, .clone xs h1, h => .clone xs xs (h1.sim hp hK hc hc' hq h)
  | _, _, _, _, _, _, .drop xs h1, h => .drop xs xs (h1.sim hp hK hc hc' hq h)
  | _, _, _, _, ρ, ρ', .keep (f := f) (env := env) (args := args) (th := th) (body := body) h1 h2 h3 h4, h => by
    refine .letRec (h4.sim hp hK hc hc' hq (h.set (h1 f (by simp)) ?_))
    rw [hc, hc']
    exact keep_rel hp (d := ⟨f, env, args, th, body⟩) h h1 h2 h3
  | _, _, _, _, ρ, ρ', .liftEmpty (f := f) (args := args) (th := th) (body := body) (b := b) (body' := body') (b' := b') (i := i) h1 h2 h3 h4 h5, h => by
    intro log
    have hl : lookup S.K.target ρ' (liftName i f) = some (.global (liftName i f)) := by
      rw [hK]; exact lookup_lifted (h.clean i f) h3
    simp only [Sim.ev, Sim.ev', eval, hl, R.ofOption, R.bind]
    refine h5.sim hp hK hc hc' hq (h.set (h1 f (by simp)) ?_) log
    rw [hc]
    refine .lifted (K := liftK p) ⟨?_, h1, h2, i, body', N, rfl, h3, h4⟩
    funext x
    simp [captureEnvironment]
  | _, _, _, _, ρ, ρ', .lift (f := f) (env := env) (args := args) (body := body) (xs := xs) (b' := b') (i := i)
      h1 h2 h3 h4 h5 h6 h7 h8 h9 h10 h11 h12, h => by
    intro log
    obtain ⟨ws, ρ1', h13, h14, h15⟩ := h.lift (d := ⟨f, env, args, false, body⟩) h1 h2 h3 h4 h5 h6 h7
      (fun x hx => (h8 x hx).1) h9 h10 h11
    have hl : lookup S.K.target ρ' (liftName i f) = some (.global (liftName i f)) := by
      rw [hK]; exact lookup_lifted (h.clean i f) h10
    simp only [Sim.ev, Sim.ev', eval, hl, R.ofOption, R.bind]
    rw [eval_save (ρ1 := ρ1') (ws := ws) _ _ _ _ _ _ ?_ (by rw [hK]; exact h13) h14, hc]
    · have := h12.sim hp hK hc hc' hq h15 log
      simp only [Sim.ev, Sim.ev', hc] at this
      exact this
    · intro x hx hx'
      exact (h1 x (by simp [hx])).ne_fv (h8 x hx').1 rfl
theorem Ls.sim (hp : LiftableProgram p) (hK : S.K = liftK p) (hc : S.capture = captureEnvironment)
    (hc' : S.capture' = captureEnvironment) (hq : LiftedCalls p S.call S.call') {N : Name → Prop} :
    ∀ {sc : List Name} {m : Lam} {e e' : Exprs} {ρ ρ' : Env}, Ls (liftProgram p) N sc m e e' → EnvL p sc m ρ ρ' →
      SimsAt S ρ ρ' e e'
  | _, _, _, _, _, _, .nil, _ => .nil
  | _, _, _, _, _, _, .cons h1 h2, h => .cons (h1.sim hp hK hc hc' hq h) (h2.sim hp hK hc hc' hq h)
theorem LAlts.sim (hp : LiftableProgram p) (hK : S.K = liftK p) (hc : S.capture = captureEnvironment)
    (hc' : S.capture' = captureEnvironment) (hq : LiftedCalls p S.call S.call') {N : Name → Prop} :
    ∀ {sc : List Name} {m : Lam} {e e' : Alts} {ρ ρ' : Env}, LAlts (liftProgram p) N sc m e e' → EnvL p sc m ρ ρ' →
      SimAltsAt S ρ ρ' e e'
  | _, _, _, _, _, _, .nil, _ => .nil
  | _, _, _, _, _, _, .cons ts h1 h2 h3, h =>
    .cons ts (fun v v' hv => h2.sim hp hK hc hc' hq (h.set h1 (hK ▸ hv))) (h3.sim hp hK hc hc' hq h)
end

end Verif.Mir
