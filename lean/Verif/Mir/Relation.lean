import Verif.Mir.Semantics

/-
Simulation between a program and its transformed version, for any transformation given by how it treats function
bodies.
-/
namespace Verif.Mir

/-- A local function without its captured variables. -/
structure Def where
  f : Name
  env : List Name
  args : List Name
  thunk : Bool
  body : Expr

def Def.close (d : Def) (ρ : Env) : Value := .closure d.f d.env d.args d.thunk d.body ρ

/-- How a transformation treats functions. `closure d d' ren live ρ ρ'`: the function `d` of the source, with captured
variables `ρ`, becomes `d'` with captured variables `ρ'`, whose variable `ren x` is the source's `x` for each name `x` in `live`. `lifted d ρ g`: the function `d` with captured
variables `ρ` becomes the global function `g`. -/
structure ClosureRel where
  source : Program
  target : Program
  closure : Def → Def → (Name → Name) → (Name → Prop) → Env → Env → Prop
  lifted : Def → Env → Name → Prop

mutual
/-- Related values: equal up to the functions in them. -/
inductive VRel (K : ClosureRel) : Value → Value → Prop
  | none : VRel K .none .none
  | boolean (b : Bool) : VRel K (.boolean b) (.boolean b)
  | number (n : UInt64) : VRel K (.number n) (.number n)
  | string (s : List UInt8) : VRel K (.string s) (.string s)
  | record (t : TypeId) {vs vs' : List Value} : VsRel K vs vs' → VRel K (.record t vs) (.record t vs')
  | variant (t : TypeId) {v v' : Value} : VRel K v v' → VRel K (.variant t v) (.variant t v')
  | global (g : Name) : VRel K (.global g) (.global g)
  | closure {f f' : Name} {env env' args args' : List Name} {th th' : Bool} {body body' : Expr} {ρ ρ' : Env}
      {ren : Name → Name} {live : Name → Prop}
      (w : Name → Value) :
      K.closure ⟨f, env, args, th, body⟩ ⟨f', env', args', th', body'⟩ ren live ρ ρ' →
      (∀ x v, live x → lookup K.source ρ x = some v → lookup K.target ρ' (ren x) = some (w x)) →
      (∀ x v, live x → lookup K.source ρ x = some v → VRel K v (w x)) →
      VRel K (.closure f env args th body ρ) (.closure f' env' args' th' body' ρ')
  | lifted {f : Name} {env args : List Name} {th : Bool} {body : Expr} {ρ : Env} {g : Name} :
      K.lifted ⟨f, env, args, th, body⟩ ρ g → VRel K (.closure f env args th body ρ) (.global g)
inductive VsRel (K : ClosureRel) : List Value → List Value → Prop
  | nil : VsRel K [] []
  | cons {v v' : Value} {vs vs' : List Value} : VRel K v v' → VsRel K vs vs' → VsRel K (v :: vs) (v' :: vs')
end

/-- Related environments. -/
def EnvRel (K : ClosureRel) (ren : Name → Name) (live : Name → Prop) (ρ ρ' : Env) : Prop :=
  ∀ x, live x → ∀ v, lookup K.source ρ x = some v → ∃ v', lookup K.target ρ' (ren x) = some v' ∧ VRel K v v'

theorem VRel.close {K : ClosureRel} {d d' : Def} {ren : Name → Name} {live : Name → Prop} {ρ ρ' : Env}
    (hk : K.closure d d' ren live ρ ρ') (h : EnvRel K ren live ρ ρ') : VRel K (d.close ρ) (d'.close ρ') := by
  refine .closure (fun x => (lookup K.target ρ' (ren x)).getD .none) hk ?_ ?_
  · intro x v hx hv
    obtain ⟨v', h1, _⟩ := h x hx v hv
    rw [h1]; rfl
  · intro x v hx hv
    obtain ⟨v', h1, h2⟩ := h x hx v hv
    rw [h1]; exact h2

theorem VRel.closure_inv {K : ClosureRel} {d : Def} {ρ : Env} {v' : Value} (h : VRel K (d.close ρ) v') :
    (∃ d' ρ' ren live, v' = Def.close d' ρ' ∧ K.closure d d' ren live ρ ρ' ∧ EnvRel K ren live ρ ρ') ∨
      ∃ g, v' = .global g ∧ K.lifted d ρ g := by
  obtain ⟨f, env, args, th, body⟩ := d
  simp only [Def.close] at h
  cases h with
  | @closure _ f' _ env' _ args' _ th' _ body' _ ρ' ren live w hk h1 h2 =>
    refine Or.inl ⟨⟨f', env', args', th', body'⟩, ρ', ren, live, rfl, hk, ?_⟩
    intro x hx v hv
    exact ⟨_, h1 x v hx hv, h2 x v hx hv⟩
  | @lifted _ _ _ _ _ _ g hg => exact Or.inr ⟨g, rfl, hg⟩

/-- Related results. If the source is stuck, nothing is claimed. -/
inductive RRel (K : ClosureRel) {α β : Type} (A : α → β → Prop) : R α → R β → Prop
  | stuck (r : R β) : RRel K A .stuck r
  | timeout : RRel K A .timeout .timeout
  | ok {a : α} {b : β} {l : Log} : A a b → RRel K A (.ok a l) (.ok b l)
  | ret {v v' : Value} {l : Log} : VRel K v v' → RRel K A (.ret v l) (.ret v' l)

theorem RRel.bind {K : ClosureRel} {α β γ δ : Type} {A : α → β → Prop} {B : γ → δ → Prop} {r : R α} {r' : R β}
    {f : α → Log → R γ} {g : β → Log → R δ} (h : RRel K A r r')
    (hf : ∀ a b l, A a b → RRel K B (f a l) (g b l)) : RRel K B (r.bind f) (r'.bind g) := by
  cases h with
  | stuck => exact .stuck _
  | timeout => exact .timeout
  | ok h => exact hf _ _ _ h
  | ret h => exact .ret h

theorem RRel.catch {K : ClosureRel} {r r' : R Value} (h : RRel K (VRel K) r r') : RRel K (VRel K) r.catch r'.catch := by
  cases h with
  | stuck => exact .stuck _
  | timeout => exact .timeout
  | ok h => exact .ok h
  | ret h => exact .ok h

theorem RRel.ofOption {K : ClosureRel} {α β : Type} {A : α → β → Prop} {o : Option α} {o' : Option β} {l : Log}
    (h : ∀ a, o = some a → ∃ b, o' = some b ∧ A a b) : RRel K A (R.ofOption o l) (R.ofOption o' l) := by
  cases o with
  | none => exact .stuck _
  | some a =>
    obtain ⟨b, rfl, hb⟩ := h a rfl
    exact .ok hb

/-- Related ways to call. -/
def CallRel (K : ClosureRel) (call call' : Caller) : Prop :=
  ∀ f f' vs vs' log, VRel K f f' → VsRel K vs vs' → RRel K (VRel K) (call f vs log) (call' f' vs' log)

/-- Transformations keep type information. -/
def ClosureRel.Compatible (K : ClosureRel) : Prop := K.source.typeInformation = K.target.typeInformation

theorem VsRel.get {K : ClosureRel} {vs vs' : List Value} (h : VsRel K vs vs') (i : Nat) (v : Value)
    (hv : vs[i]? = some v) : ∃ v', vs'[i]? = some v' ∧ VRel K v v' := by
  induction vs generalizing vs' i with
  | nil => simp at hv
  | cons u us ih =>
    cases h with
    | cons h1 h2 =>
      cases i with
      | zero => simp only [List.getElem?_cons_zero, Option.some.injEq] at hv; subst hv; exact ⟨_, rfl, h1⟩
      | succ i => simp only [List.getElem?_cons_succ] at hv ⊢; exact ih h2 i hv

theorem VsRel.length {K : ClosureRel} {vs vs' : List Value} (h : VsRel K vs vs') : vs.length = vs'.length := by
  induction vs generalizing vs' with
  | nil => cases h; rfl
  | cons u us ih => cases h with
    | cons _ h2 => simp [ih h2]

theorem VsRel.set {K : ClosureRel} {vs vs' : List Value} (h : VsRel K vs vs') (i : Nat) {v v' : Value}
    (hv : VRel K v v') : VsRel K (vs.set i v) (vs'.set i v') := by
  induction vs generalizing vs' i with
  | nil => cases h; exact .nil
  | cons u us ih =>
    cases h with
    | cons h1 h2 =>
      cases i with
      | zero => exact .cons hv h2
      | succ i => exact .cons h1 (ih h2 i)

theorem updateFields_rel {K : ClosureRel} {vs vs' ws ws' : List Value} (is : List Nat) (h : VsRel K vs vs')
    (hw : VsRel K ws ws') (us : List Value) (hu : updateFields vs is ws = some us) :
    ∃ us', updateFields vs' is ws' = some us' ∧ VsRel K us us' := by
  induction is generalizing vs vs' ws ws' with
  | nil =>
    cases hw with
    | nil => simp only [updateFields, Option.some.injEq] at hu ⊢; subst hu; exact ⟨_, rfl, h⟩
    | cons => simp [updateFields] at hu
  | cons i is ih =>
    cases hw with
    | nil => simp [updateFields] at hu
    | cons h1 h2 =>
      simp only [updateFields] at hu ⊢
      split at hu
      · rename_i hlt
        rw [if_pos (h.length ▸ hlt)]
        exact ih (h.set i h1) h2 hu
      · cases hu

theorem concatenate_rel {K : ClosureRel} {vs vs' : List Value} (h : VsRel K vs vs') (s : List UInt8)
    (hs : concatenate vs = some s) : concatenate vs' = some s := by
  induction vs generalizing vs' s with
  | nil => cases h; exact hs
  | cons v vs ih =>
    cases h with
    | @cons _ v' _ us h1 h2 =>
      cases v with
      | string t =>
        cases h1
        simp only [concatenate, Option.map_eq_some_iff] at hs ⊢
        obtain ⟨r, hr, rfl⟩ := hs
        exact ⟨r, ih h2 r hr, rfl⟩
      | _ => simp [concatenate] at hs

theorem applyOp_rel {K : ClosureRel} (w : World) (hp : K.Compatible) (o : Op) {vs vs' : List Value}
    (h : VsRel K vs vs') (v : Value) (hv : applyOp w K.source o vs = some v) :
    ∃ v', applyOp w K.target o vs' = some v' ∧ VRel K v v' := by
  cases o with
  | arithmetic o =>
    unfold applyOp at hv
    split at hv <;> simp_all
    subst hv
    cases h with | cons h1 h2 => cases h2 with | cons h2 h3 => cases h1; cases h2; cases h3; exact ⟨_, rfl, .number _⟩
  | comparison o => 
    unfold applyOp at hv
    split at hv <;> simp_all
    subst hv
    cases h with | cons h1 h2 => cases h2 with | cons h2 h3 => cases h1; cases h2; cases h3; exact ⟨_, rfl, .boolean _⟩
  | call => simp [applyOp] at hv
  | record t =>
    simp only [applyOp, Option.some.injEq] at hv ⊢
    subst hv
    exact ⟨_, rfl, .record t h⟩
  | field i =>
    unfold applyOp at hv
    split at hv <;> simp_all
    cases h with | cons h1 h2 => cases h1 with | record t h1 => cases h2; exact h1.get _ v hv
  | update is =>
    unfold applyOp at hv
    split at hv <;> simp_all
    obtain ⟨us, hu, rfl⟩ := hv
    cases h with | cons h1 h2 => cases h1 with | record t h1 =>
      obtain ⟨us', hu', hr⟩ := updateFields_rel _ h1 h2 us hu
      simp only [applyOp, Option.map_eq_some_iff]
      exact ⟨_, ⟨us', hu', rfl⟩, .record _ hr⟩
  | concatenation =>
    simp only [applyOp, Option.map_eq_some_iff] at hv ⊢
    obtain ⟨s, hs, rfl⟩ := hv
    exact ⟨_, ⟨s, concatenate_rel h s hs, rfl⟩, .string s⟩
  | synchronize =>
    unfold applyOp at hv
    split at hv <;> simp_all
    cases h with | cons h1 h2 => cases h2; exact ⟨_, rfl, h1⟩
  | typeInformation =>
    unfold applyOp at hv
    split at hv <;> simp_all
    subst hv
    cases h with | cons h1 h2 => cases h1 with | variant t h1 =>
      cases h2; exact ⟨_, rfl, hp ▸ .global _⟩
  | variant t =>
    unfold applyOp at hv
    split at hv <;> simp_all
    subst hv
    cases h with | cons h1 h2 => cases h2; exact ⟨_, rfl, .variant _ h1⟩

theorem lookup_set (p : Program) (ρ : Env) (x : Name) (v : Value) (y : Name) :
    lookup p (ρ.set x v) y = if y = x then some v else lookup p ρ y := by
  unfold lookup Env.set
  split <;> rename_i h <;> split at h <;> simp_all

/-- A renaming that is changed at a name. -/
def extend (ren : Name → Name) (x x' : Name) : Name → Name := fun y => if y = x then x' else ren y

theorem extend_self (x : Name) : extend id x x = id := by
  funext y; simp only [extend, id]; split <;> simp_all

theorem EnvRel.set {K : ClosureRel} {ren : Name → Name} {live live' : Name → Prop} {ρ ρ' : Env} {x x' : Name}
    {v v' : Value} (h : EnvRel K ren live ρ ρ') (hv : VRel K v v')
    (hl : ∀ y, live' y → y ≠ x → live y ∧ ren y ≠ x') :
    EnvRel K (extend ren x x') live' (ρ.set x v) (ρ'.set x' v') := by
  intro y hy u hu
  rw [lookup_set] at hu
  rw [lookup_set]
  unfold extend
  by_cases hyx : y = x
  · simp only [hyx, if_true, Option.some.injEq] at hu ⊢
    subst hu
    exact ⟨v', rfl, hv⟩
  · simp only [hyx, if_false] at hu ⊢
    obtain ⟨h1, h2⟩ := hl y hy hyx
    rw [if_neg h2]
    exact h y h1 u hu

theorem EnvRel.mono {K : ClosureRel} {ren ren' : Name → Name} {live live' : Name → Prop} {ρ ρ' : Env}
    (h : EnvRel K ren live ρ ρ') (hl : ∀ x, live' x → live x ∧ ren' x = ren x) : EnvRel K ren' live' ρ ρ' := by
  intro x hx
  obtain ⟨h1, h2⟩ := hl x hx
  rw [h2]
  exact h x h1

/-- Binding arguments: the new names of different live variables are different from the new names of arguments. -/
theorem EnvRel.setMany {K : ClosureRel} {ren ren' : Name → Name} {live live' : Name → Prop} {xs : List Name}
    {vs vs' : List Value} {ρ ρ' ρ1 : Env} (hvs : VsRel K vs vs') (h : EnvRel K ren live ρ ρ')
    (hl : ∀ y, live' y → y ∉ xs → live y ∧ ren' y = ren y)
    (hi : ∀ y, live' y → ∀ x ∈ xs, y ≠ x → ren' y ≠ ren' x)
    (h1 : ρ.setMany xs vs = some ρ1) :
    ∃ ρ1', ρ'.setMany (xs.map ren') vs' = some ρ1' ∧ EnvRel K ren' live' ρ1 ρ1' := by
  induction xs generalizing vs vs' ρ ρ' ren live with
  | nil =>
    cases hvs with
    | nil =>
      simp only [Env.setMany, Option.some.injEq] at h1; subst h1
      exact ⟨ρ', rfl, h.mono fun x hx => hl x hx (by simp)⟩
    | cons => simp [Env.setMany] at h1
  | cons x xs ih =>
    cases hvs with
    | nil => simp [Env.setMany] at h1
    | cons hv hvs =>
      simp only [Env.setMany, List.map_cons] at h1 ⊢
      refine ih (live := fun y => y = x ∨ (live y ∧ ren y ≠ ren' x)) hvs
        (EnvRel.set (x := x) (x' := ren' x) h hv ?_) ?_ (fun y hy z hz => hi y hy z (by simp [hz])) h1
      · rintro y (hy | hy) hyx
        · exact absurd hy hyx
        · exact hy
      · intro y hy hyx
        by_cases hx : y = x
        · subst hx
          exact ⟨Or.inl rfl, by simp only [extend, if_true]⟩
        · obtain ⟨h2, h3⟩ := hl y hy (by simp [hx, hyx])
          refine ⟨Or.inr ⟨h2, ?_⟩, by simp only [extend, if_neg hx]; exact h3⟩
          rw [← h3]
          exact hi y hy x (by simp) hx

mutual
theorem VRel.obs {K : ClosureRel} : ∀ {v v' : Value}, VRel K v v' → v.obs = v'.obs
  | _, _, .none => rfl
  | _, _, .boolean _ => rfl
  | _, _, .number _ => rfl
  | _, _, .string _ => rfl
  | _, _, .record _ h => by simp only [Value.obs, h.obsList]
  | _, _, .variant _ h => by simp only [Value.obs, h.obs]
  | _, _, .global _ => rfl
  | _, _, .closure .. => rfl
  | _, _, .lifted .. => rfl
theorem VsRel.obsList {K : ClosureRel} : ∀ {vs vs' : List Value}, VsRel K vs vs' → Value.obsList vs = Value.obsList vs'
  | _, _, .nil => rfl
  | _, _, .cons h hs => by simp only [Value.obsList, h.obs, hs.obsList]
end

mutual
/-- Values from native code are related to themselves. -/
theorem Obs.value_rel (K : ClosureRel) : ∀ (o : Obs) (v : Value), o.value = some v → VRel K v v
  | .none, v, h => by simp only [Obs.value, Option.some.injEq] at h; subst h; exact .none
  | .boolean b, v, h => by simp only [Obs.value, Option.some.injEq] at h; subst h; exact .boolean b
  | .number b, v, h => by simp only [Obs.value, Option.some.injEq] at h; subst h; exact .number b
  | .string b, v, h => by simp only [Obs.value, Option.some.injEq] at h; subst h; exact .string b
  | .record t os, v, h => by
    simp only [Obs.value, Option.map_eq_some_iff] at h
    obtain ⟨vs, hv, rfl⟩ := h
    exact .record t (Obs.valueList_rel K os vs hv)
  | .variant t o, v, h => by
    simp only [Obs.value, Option.map_eq_some_iff] at h
    obtain ⟨u, hv, rfl⟩ := h
    exact .variant t (Obs.value_rel K o u hv)
  | .function, v, h => by simp [Obs.value] at h
theorem Obs.valueList_rel (K : ClosureRel) : ∀ (os : List Obs) (vs : List Value), Obs.valueList os = some vs → VsRel K vs vs
  | [], vs, h => by simp only [Obs.valueList, Option.some.injEq] at h; subst h; exact .nil
  | o :: os, vs, h => by
    simp only [Obs.valueList, Option.bind_eq_some_iff, Option.map_eq_some_iff] at h
    obtain ⟨u, hu, us, hus, rfl⟩ := h
    exact .cons (Obs.value_rel K o u hu) (Obs.valueList_rel K os us hus)
end

/-- Calling a local function with captured variables `ρ`. -/
def Def.enter (w : World) (p : Program) (capture : List Name → Env → Env) (call : Caller) (d : Def) (ρ : Env)
    (vs : List Value) (log : Log) : R Value :=
  match (ρ.set d.f (d.close ρ)).setMany d.args vs with
  | some ρ => (eval w p capture call ρ d.body log).catch
  | none => .stuck

/-- Calling a global function. -/
def Global.enter (w : World) (p : Program) (capture : List Name → Env → Env) (call : Caller) (d : Global)
    (vs : List Value) (log : Log) : R Value :=
  match Env.setMany (fun _ => none) d.args vs with
  | some ρ => (eval w p capture call ρ d.body log).catch
  | none => .stuck

theorem apply_closure (w : World) (p : Program) (capture : List Name → Env → Env) (n : Nat) (d : Def) (ρ : Env)
    (vs : List Value) (log : Log) :
    apply w p capture (n + 1) (d.close ρ) vs log = d.enter w p capture (apply w p capture n) ρ vs log := by
  rfl

theorem apply_global (w : World) (p : Program) (capture : List Name → Env → Env) (n : Nat) {g : Name} {d : Global}
    (h : p.find g = some d) (vs : List Value) (log : Log) :
    apply w p capture (n + 1) (.global g) vs log = d.enter w p capture (apply w p capture n) vs log := by
  simp only [apply, h]; rfl

/-- If the bodies of functions are simulated, so are calls. `Q` is another property of calls. -/
theorem apply_rel_with (K : ClosureRel) (w : World) (capture capture' : List Name → Env → Env)
    (Q : Caller → Caller → Prop)
    (hc : ∀ d d' ren live ρ ρ', K.closure d d' ren live ρ ρ' → ∀ call call', CallRel K call call' → Q call call' → ∀ vs vs' log,
      EnvRel K ren live ρ ρ' → VsRel K vs vs' →
      RRel K (VRel K) (d.enter w K.source capture call ρ vs log) (d'.enter w K.target capture' call' ρ' vs' log))
    (hl : ∀ d ρ g, K.lifted d ρ g → ∃ d', K.target.find g = some d' ∧ ∀ call call', CallRel K call call' → Q call call' → ∀ vs vs' log,
      VsRel K vs vs' → RRel K (VRel K) (d.enter w K.source capture call ρ vs log) (d'.enter w K.target capture' call' vs' log))
    (hg : ∀ g d, K.source.find g = some d → ∃ d', K.target.find g = some d' ∧ ∀ call call', CallRel K call call' → Q call call' → ∀ vs vs' log,
      VsRel K vs vs' → RRel K (VRel K) (d.enter w K.source capture call vs log) (d'.enter w K.target capture' call' vs' log))
    (hf : ∀ g, K.source.find g = none → K.source.foreign.contains g = true → K.target.find g = none ∧ K.target.foreign.contains g = true)
    (hq0 : Q (apply w K.source capture 0) (apply w K.target capture' 0))
    (hq : ∀ n, CallRel K (apply w K.source capture n) (apply w K.target capture' n) →
      Q (apply w K.source capture n) (apply w K.target capture' n) →
      Q (apply w K.source capture (n + 1)) (apply w K.target capture' (n + 1))) :
    ∀ n, CallRel K (apply w K.source capture n) (apply w K.target capture' n) ∧
      Q (apply w K.source capture n) (apply w K.target capture' n) := by
  intro n
  induction n with
  | zero =>
    refine ⟨?_, hq0⟩
    intro f f' vs vs' log _ _
    simp only [apply]
    exact .timeout
  | succ n ih =>
    refine ⟨?_, hq n ih.1 ih.2⟩
    obtain ⟨ih, ihq⟩ := ih
    intro f f' vs vs' log hff hvs
    cases f with
    | closure f env args th body ρ =>
      rcases VRel.closure_inv (d := ⟨f, env, args, th, body⟩) hff with ⟨d', ρ', ren, live, rfl, hk, he⟩ | ⟨g, rfl, hk⟩
      · have := hc _ _ _ _ _ _ hk _ _ ih ihq vs vs' log he hvs
        rw [← apply_closure, ← apply_closure] at this
        exact this
      · obtain ⟨d', hd', hs⟩ := hl _ _ _ hk
        have := hs _ _ ih ihq vs vs' log hvs
        rw [← apply_closure, ← apply_global w K.target capture' n hd'] at this
        exact this
    | global g =>
      cases hff
      cases hd : K.source.find g with
      | some d =>
        obtain ⟨d', hd', hs⟩ := hg g d hd
        have := hs _ _ ih ihq vs vs' log hvs
        rw [← apply_global w K.source capture n hd, ← apply_global w K.target capture' n hd'] at this
        exact this
      | none =>
        simp only [apply, hd]
        cases hfo : K.source.foreign.contains g with
        | false => simp only [Bool.false_eq_true, if_false]; exact .stuck _
        | true =>
          obtain ⟨h1, h2⟩ := hf g hd hfo
          simp only [h1, h2, if_true, callForeign, hvs.obsList]
          exact .ofOption fun a ha => ⟨a, ha, Obs.value_rel K _ a ha⟩
    | _ => simp only [apply]; exact .stuck _

/-- The same without another property of calls. -/
theorem apply_rel (K : ClosureRel) (w : World) (capture capture' : List Name → Env → Env)
    (hc : ∀ d d' ren live ρ ρ', K.closure d d' ren live ρ ρ' → ∀ call call', CallRel K call call' → ∀ vs vs' log,
      EnvRel K ren live ρ ρ' → VsRel K vs vs' →
      RRel K (VRel K) (d.enter w K.source capture call ρ vs log) (d'.enter w K.target capture' call' ρ' vs' log))
    (hl : ∀ d ρ g, K.lifted d ρ g → ∃ d', K.target.find g = some d' ∧ ∀ call call', CallRel K call call' → ∀ vs vs' log,
      VsRel K vs vs' → RRel K (VRel K) (d.enter w K.source capture call ρ vs log) (d'.enter w K.target capture' call' vs' log))
    (hg : ∀ g d, K.source.find g = some d → ∃ d', K.target.find g = some d' ∧ ∀ call call', CallRel K call call' → ∀ vs vs' log,
      VsRel K vs vs' → RRel K (VRel K) (d.enter w K.source capture call vs log) (d'.enter w K.target capture' call' vs' log))
    (hf : ∀ g, K.source.find g = none → K.source.foreign.contains g = true → K.target.find g = none ∧ K.target.foreign.contains g = true) :
    ∀ n, CallRel K (apply w K.source capture n) (apply w K.target capture' n) :=
  fun n => (apply_rel_with K w capture capture' (fun _ _ => True)
    (fun d d' ren live ρ ρ' hk call call' hcall _ => hc d d' ren live ρ ρ' hk call call' hcall)
    (fun d ρ g h => by
      obtain ⟨d', h1, h2⟩ := hl d ρ g h
      exact ⟨d', h1, fun call call' hcall _ => h2 call call' hcall⟩)
    (fun g d h => by
      obtain ⟨d', h1, h2⟩ := hg g d h
      exact ⟨d', h1, fun call call' hcall _ => h2 call call' hcall⟩)
    hf trivial (fun _ _ _ => trivial) n).1

/-- So programs behave the same, unless the source has a type error at run time. -/
theorem run_eq (K : ClosureRel) (w : World) (capture capture' : List Name → Env → Env) (n : Nat)
    (h : CallRel K (apply w K.source capture n) (apply w K.target capture' n)) (g : Name) (args : List Obs)
    (hs : K.source.run w capture n g args ≠ .stuck) :
    (K.target.run w capture' n g args).outcome = (K.source.run w capture n g args).outcome := by
  unfold Program.run at hs ⊢
  cases ha : Obs.valueList args with
  | none => rfl
  | some vs =>
    simp only [ha] at hs ⊢
    have := h (.global g) (.global g) vs vs [] (.global g) (Obs.valueList_rel K args vs ha)
    revert this hs
    generalize apply w K.source capture n (.global g) vs [] = r
    generalize apply w K.target capture' n (.global g) vs [] = r'
    intro hs h
    cases h with
    | stuck => exact absurd rfl hs
    | timeout => rfl
    | ok h => simp only [R.outcome, h.obs]
    | ret h => simp only [R.outcome, h.obs]


end Verif.Mir
