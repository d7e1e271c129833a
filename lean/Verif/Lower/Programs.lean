import Verif.Lower.Expressions

/-! # Simulation of programs -/

namespace Verif.Lower

open Verif.Hir (Ty Ctx Expr Module Definition RecordField Val Out)
open Verif

variable {K : Config} {a : Nat} {S : List Ty} {m : Module} {q : Bool} {W : Hir.World} {w : Mir.World} {p : Mir.Program}

/-! ## Globals -/

/-- What is known about the compiled program. -/
structure Compiled (K : Config) (a d : Nat) (m : Module) (p : Mir.Program) : Prop where
  foreign : p.foreign = m.declarations.map (·.1)
  globals : List.Forall₂ (fun x g => compileDefinition K a m.ctx d x = some g) m.definitions p.globals

theorem compiled_of_module {d : Nat} (h : compileModule K a d m = some p) : Compiled K a d m p := by
  unfold compileModule at h
  obtain ⟨gs, h1, h2⟩ := some_bind h
  simp only [Option.some.injEq] at h2
  subst h2
  exact ⟨rfl, mapM_forall₂ h1⟩

theorem lastLookup_find {x : String} : ∀ {ds : List Definition}, (ds.map (·.name)).Nodup →
    Hir.lastLookup (ds.map fun f => (f.name, f)) x = ds.find? (fun f => f.name == x) := by
  intro ds hn
  unfold Hir.lastLookup
  rw [← List.map_reverse]
  rw [List.find?_map, Option.map_map]
  have : ((fun x => x.2) ∘ fun f : Definition => (f.name, f)) = id := rfl
  rw [this, Option.map_id_fun, id]
  have key : ∀ y, ds.find? (fun f => f.name == x) = some y → ds.reverse.find? (fun f => f.name == x) = some y := by
    intro y hy
    have h1 := List.find?_some hy
    have h2 := List.mem_of_find?_eq_some hy
    cases hz : ds.reverse.find? (fun f => f.name == x) with
    | none =>
      rw [List.find?_eq_none] at hz
      exact (hz y (by simpa using h2) h1).elim
    | some z =>
      have h3 := List.find?_some hz
      have h4 := List.mem_of_find?_eq_some hz
      simp only [List.mem_reverse] at h4
      simp only [beq_iff_eq] at h1 h3
      rw [List.inj_on_of_nodup_map hn h4 h2 (h3.trans h1.symm)]
  show ds.reverse.find? (fun f => f.name == x) = _
  cases hy : ds.find? (fun f => f.name == x) with
  | some y => exact key y hy
  | none =>
    rw [List.find?_eq_none] at hy ⊢
    intro z hz
    exact hy z (by simpa using hz)

theorem find_globals {C : Ctx} {d : Nat} {x : String} : ∀ {ds : List Definition} {gs : List Mir.Global},
    List.Forall₂ (fun x g => compileDefinition K a C d x = some g) ds gs →
    match ds.find? (fun f => f.name == x), gs.find? (fun g => g.name == x) with
    | some f, some g => compileDefinition K a C d f = some g
    | none, none => True
    | _, _ => False
  | _, _, .nil => trivial
  | _, _, @List.Forall₂.cons _ _ _ f g ds gs h hs => by
    have hn : g.name = f.name := by
      simp only [compileDefinition, Option.map_eq_some_iff] at h
      obtain ⟨_, _, rfl⟩ := h
      rfl
    rw [List.find?_cons, List.find?_cons, hn]
    by_cases hx : (f.name == x) = true
    · simp only [hx]
      exact h
    · simp only [Bool.not_eq_true] at hx
      simp only [hx]
      exact find_globals hs

section
variable {d0 : Nat} (hm : PlainModule K a d0 S m) (hp : Compiled K a d0 m p)
include hm hp

theorem definition_global {x : String} {f : Definition}
    (h : Hir.lastLookup (m.definitions.map fun f => (f.name, f)) x = some f) :
    ∃ g, p.find x = some g ∧ compileDefinition K a m.ctx d0 f = some g := by
  rw [lastLookup_find hm.nodup] at h
  have := find_globals (x := x) hp.globals
  rw [h] at this
  unfold Mir.Program.find
  cases hg : p.globals.find? (fun g => g.name == x) with
  | none => rw [hg] at this; exact this.elim
  | some g => rw [hg] at this; exact ⟨g, rfl, this⟩

theorem no_definition_global {x : String}
    (h : Hir.lastLookup (m.definitions.map fun f => (f.name, f)) x = none) : p.find x = none := by
  rw [lastLookup_find hm.nodup] at h
  have := find_globals (x := x) hp.globals
  rw [h] at this
  unfold Mir.Program.find
  cases hg : p.globals.find? (fun g => g.name == x) with
  | none => rfl
  | some g => rw [hg] at this; exact this.elim

theorem definition_isGlobal {x : String} (f : Definition)
    (h : Hir.lastLookup (m.definitions.map fun f => (f.name, f)) x = some f) : p.isGlobal x = true := by
  obtain ⟨g, h1, _⟩ := definition_global hm hp h
  simp [Mir.Program.isGlobal, h1]

omit hm in
theorem declaration_isGlobal : ∀ x ∈ m.declarations.map (·.1), p.isGlobal x = true := by
  intro x hx
  simp only [Mir.Program.isGlobal, hp.foreign, Bool.or_eq_true]
  left
  simpa using hx

theorem stringEqual_find : p.find K.stringEqual = none := by
  refine no_definition_global hm hp ?_
  rw [lastLookup_find hm.nodup, List.find?_eq_none]
  intro f hf h
  have h1 := plainName_ne (hm.names f hf)
  simp at h
  exact h1 h

end

/-! ## Values from native code -/

mutual
theorem value_obs : ∀ {o : Mir.Obs} {u : Mir.Value}, o.value = some u → u.obs = o
  | .none, u, h => by simp [Mir.Obs.value] at h; subst h; rfl
  | .boolean b, u, h => by simp [Mir.Obs.value] at h; subst h; rfl
  | .number b, u, h => by simp [Mir.Obs.value] at h; subst h; rfl
  | .string b, u, h => by simp [Mir.Obs.value] at h; subst h; rfl
  | .record t vs, u, h => by
    simp only [Mir.Obs.value, Option.map_eq_some_iff] at h
    obtain ⟨us, h1, rfl⟩ := h
    simp only [Mir.Value.obs, valueList_obs h1]
  | .variant t v, u, h => by
    simp only [Mir.Obs.value, Option.map_eq_some_iff] at h
    obtain ⟨us, h1, rfl⟩ := h
    simp only [Mir.Value.obs, value_obs h1]
  | .function, u, h => by simp [Mir.Obs.value] at h
theorem valueList_obs : ∀ {os : List Mir.Obs} {us : List Mir.Value}, Mir.Obs.valueList os = some us →
    Mir.Value.obsList us = os
  | [], us, h => by simp [Mir.Obs.valueList] at h; subst h; rfl
  | o :: os, us, h => by
    simp only [Mir.Obs.valueList, Option.bind_eq_some_iff, Option.map_eq_some_iff] at h
    obtain ⟨v, h1, vs, h2, rfl⟩ := h
    simp only [Mir.Value.obsList, value_obs h1, valueList_obs h2]
end

theorem obsRel_list : ∀ {vs : List Val} {us : List Mir.Value}, List.Forall₂ (Rel K a S m) vs us →
    List.Forall₂ (ObsRel K a S m) vs (Mir.Value.obsList us)
  | _, _, .nil => .nil
  | _, _, .cons h hs => .cons ⟨_, h, rfl⟩ (obsRel_list hs)

/-! ## Expressions -/

theorem forall₂_mem {α β : Type} {R : α → β → Prop} {P : α → Prop} : ∀ {xs : List α} {ys : List β}, List.Forall₂ R xs ys →
    (∀ x ∈ xs, P x) → List.Forall₂ (fun x y => R x y ∧ P x) xs ys
  | _, _, .nil, _ => .nil
  | _, _, .cons h hs, hp => .cons ⟨h, hp _ (by simp)⟩ (forall₂_mem hs fun x hx => hp x (by simp [hx]))

theorem Sim.congr {α β : Type} {R : α → β → Prop} {x x' : Out α} {y : Mir.Log → Mir.R β} (h : Sim K a S m q R x y)
    (hx : x' = x) : Sim K a S m q R x' y := by
  rwa [hx]

theorem R_bind_assoc {α β γ : Type} (x : Mir.R α) (f : α → Mir.Log → Mir.R β) (g : β → Mir.Log → Mir.R γ) :
    (x.bind f).bind g = x.bind fun u l => (f u l).bind g := by
  cases x <;> rfl

theorem resolveFields_eq {C : Ctx} {t : Ty} {ts : List RecordField} (h : Hir.resolveFields a C t = .ok ts) :
    ∃ y, Hir.canonicalize a C.types t = .ok (.record y) ∧ C.records y = some ts := by
  unfold Hir.resolveFields at h
  cases hc : Hir.canonicalize a C.types t with
  | err e => rw [hc] at h; cases h
  | more => rw [hc] at h; cases h
  | ok c =>
  rw [hc] at h
  have h2 : (match c with | .record r => Hir.resolveRecord C.records r | _ => .err .recordExpected) = .ok ts := h
  have h1 := hc
  clear hc h
  cases c <;> simp only [reduceCtorEq] at h2
  rename_i y
  refine ⟨y, rfl, ?_⟩
  unfold Hir.resolveRecord at h2
  split at h2 <;> simp_all

theorem sim_asRecord {γ δ : Type} {Q : γ → δ → Prop} {b : Nat} {t : Ty} {ts : List RecordField}
    (h : Hir.resolveFields a m.ctx t = .ok ts) (hb : b = a) {v : Val} {u : Mir.Value} (hv : Rel K a S m v u)
    {f : String × List (String × Val) → Out γ} {g : Mir.Value → Mir.Log → Mir.R δ}
    (hf : ∀ y fs us, m.ctx.records y = some ts → RelFields K a S m fs ts us →
      Sim K a S m q Q (f (y, fs)) (g (.record (typeId K (.record y)) us))) :
    Sim K a S m q Q (v.asRecord b m.ctx.types t >>= f) (g u) := by
  obtain ⟨y, h1, h2⟩ := resolveFields_eq h
  subst hb
  cases hv with
  | @record z fs ts' us g1 g2 =>
    intro l l' hl
    show ResRel K b S m q Q (Out.bind (Val.asRecord b m.ctx.types t (.record z fs)) f l) _
    unfold Val.asRecord
    rw [h1]
    show ResRel K b S m q Q (Out.bind (if z = y then _ else _) f l) _
    by_cases hz : z = y
    · subst hz
      rw [h2] at g1
      cases g1
      rw [if_pos rfl]
      exact hf z fs us h2 g2 l l' hl
    · rw [if_neg hz]
      trivial
  | _ =>
    intro l l' hl
    trivial

theorem sim_concatenation {k : Nat} {ρ : Mir.Env} {x y : Out Val} {e e' : Mir.Expr}
    (h : Sim K a S m q (Rel K a S m) x (meval w p k ρ e)) (h' : Sim K a S m q (Rel K a S m) y (meval w p k ρ e')) :
    Sim K a S m q (Rel K a S m) (do
      let v ← x
      let w ← y
      let s ← v.asString
      let t ← w.asString
      Out.val (.string (s ++ t)))
      (meval w p k ρ (.op .concatenation (.cons e (.cons e' .nil)))) := by
  have e1 : meval w p k ρ (.op .concatenation (.cons e (.cons e' .nil))) = fun log => (meval w p k ρ e log).bind
      fun u log => (meval w p k ρ e' log).bind fun v log => Mir.R.ofOption (Mir.applyOp w p .concatenation [u, v]) log := by
    funext log
    simp only [meval, Mir.eval, Mir.evals, Mir.Op.scalar, Bool.false_and, Bool.false_eq_true, if_false, R_bind_assoc]
    rfl
  rw [e1]
  refine Sim.bind h fun v u hv => Sim.bind h' fun v' u' hv' => ?_
  cases hv with
  | string s =>
    cases hv' with
    | string t =>
      simp only [Mir.applyOp, Mir.concatenate, Option.map_some, List.append_nil]
      exact Sim.val (.string _)
    | _ => intro _ _ _; trivial
  | _ => intro _ _ _; trivial

theorem sim_updates {α : Type} {k : Nat} {ρ : Mir.Env} {f : α → Out Val} :
    ∀ {es : List (String × α)} {es' : List Mir.Expr},
    List.Forall₂ (fun e e' => Sim K a S m q (Rel K a S m) (f e.2) (meval w p k ρ e')) es es' →
    Sim K a S m q (fun gs ws => gs.map (·.1) = es.map (·.1) ∧ FieldsRel K a S m gs ws)
      (Out.mapList (fun g : String × α => do
        let v ← f g.2
        Out.val (g.1, v)) es) (mevals w p k false ρ (operands es'))
  | [], [], _ => by
    unfold Out.mapList
    simp only [operands, Mir.Exprs.ofList, mevals, Mir.evals]
    exact Sim.val ⟨rfl, .nil⟩
  | (x, e) :: es, e' :: es', .cons h1 h2 => by
    have := Sim.bind (Q := fun gs ws => gs.map (·.1) = ((x, e) :: es).map (·.1) ∧ FieldsRel K a S m gs ws) h1
      fun u v huv => Sim.bind (sim_updates (f := f) h2) fun us vs hs =>
        Sim.val (u := (x, u) :: us) (v := v :: vs) ⟨by simp [hs.1], .cons huv hs.2⟩
    simp only [operands, Mir.Exprs.ofList, mevals, Mir.evals, Bool.false_and, Bool.false_eq_true, if_false]
    refine this.congr ?_
    funext l
    rw [Out.mapList]
    simp only [bind, Out.bind]
    cases f e l <;> rfl

theorem sim_not {k : Nat} {ρ : Mir.Env} {x : Out Val} {e : Mir.Expr} (h : Sim K a S m q (Rel K a S m) x (meval w p k ρ e)) :
    Sim K a S m q (Rel K a S m) (do
      let v ← x
      let b ← v.asBoolean
      Out.val (.boolean (!b)))
      (meval w p k ρ (.if_ e (.literal (.boolean false)) (.literal (.boolean true)))) := by
  have := sim_if h
    (sim_literal (w := w) (p := p) (n := k) (ρ := ρ) (l := .boolean false) (Rel.boolean (K := K) (a := a) (S := S) (m := m) false))
    (sim_literal (w := w) (p := p) (n := k) (ρ := ρ) (l := .boolean true) (Rel.boolean (K := K) (a := a) (S := S) (m := m) true))
  refine this.congr ?_
  congr 1
  funext v
  congr 1
  funext b
  cases b <;> rfl

theorem meval_op {k : Nat} {ρ : Mir.Env} {o : Mir.Op} {es : Mir.Exprs} : meval w p k ρ (.op o es) =
    fun l => (mevals w p k o.scalar ρ es l).bind fun vs log =>
      match o, vs with
      | .call, f :: args => Mir.apply w p Mir.captureAll k f args log
      | o, vs => Mir.R.ofOption (Mir.applyOp w p o vs) log := by
  funext l
  simp only [meval, Mir.eval]
  rfl

section
variable {d0 : Nat} (hm : PlainModule K a d0 S m) (hp : Compiled K a d0 m p) (hW : Agree K a S m W w)
include hm hp hW

theorem sim_stringEqual {k : Nat} (hk : q = true → k ≠ 0) {ρ : Mir.Env} (hρ : ρ K.stringEqual = none) {x y : Out Val}
    {l r : Mir.Expr} (h1 : Sim K a S m q (Rel K a S m) x (meval w p k ρ l))
    (h2 : Sim K a S m q (Rel K a S m) y (meval w p k ρ r)) :
    Sim K a S m q (fun b u => u = .boolean b) (do
      let v ← x
      let w ← y
      let s ← v.asString
      let t ← w.asString
      Out.val (s == t))
      (meval w p k ρ (.op .call (.cons (.variable K.stringEqual) (.cons l (.cons r .nil))))) := by
  have hg := declaration_isGlobal hp K.stringEqual hm.stringEqual
  have e1 : meval w p k ρ (.op .call (.cons (.variable K.stringEqual) (.cons l (.cons r .nil)))) =
      fun log => (meval w p k ρ l log).bind fun u log => (meval w p k ρ r log).bind fun v log =>
        Mir.apply w p Mir.captureAll k (.global K.stringEqual) [u, v] log := by
    funext log
    simp only [meval, Mir.eval, Mir.evals, Mir.Op.scalar, Bool.false_and, Bool.false_eq_true, if_false, Mir.lookup, hρ, hg,
      if_true, Mir.R.ofOption, Mir.R.bind]
    cases Mir.eval w p Mir.captureAll (Mir.apply w p Mir.captureAll k) ρ l log with
    | ok u log =>
      simp only
      cases Mir.eval w p Mir.captureAll (Mir.apply w p Mir.captureAll k) ρ r log <;> rfl
    | _ => rfl
  rw [e1]
  refine Sim.bind h1 fun v u hv => Sim.bind h2 fun v' u' hv' => ?_
  intro log log' hl
  cases hv with
  | string s =>
    cases hv' with
    | string t =>
      cases k with
      | zero =>
        refine resRel_timeout ?_ _
        cases q
        · rfl
        · exact (hk rfl rfl).elim
      | succ k =>
        have hc : p.foreign.contains K.stringEqual = true := by
          rw [hp.foreign]
          simpa using hm.stringEqual
        simp only [Mir.apply, stringEqual_find hm hp, hc, if_true, Mir.callForeign, Mir.Value.obsList, Mir.Value.obs,
          hW.stringEqual, Mir.Obs.value, Mir.R.ofOption]
        refine ⟨rfl, ?_⟩
        simpa [LogRel] using hl
    | _ => trivial
  | _ => trivial

theorem exprSim {n k : Nat} (hk : q = true → k ≠ 0) (hcall : CallSim K a S m q W w p n k) :
    ∀ d, ExprSim K a S m q W w p n k d
  | 0, _, _, _, _, _, h, _, _ => by simp [compile] at h
  | _ + 1, 0, _, _, _, _, _, hpl, _ => by simp [plain] at hpl
  | d + 1, d' + 1, e, e', env, ρ, h, hpl, he => by
    have hs := exprSim hk hcall d
    have htypes : (Hir.evaluator W m a n).types = a := by cases n <;> rfl
    unfold compile at h
    unfold plain at hpl
    rw [Hir.evaluator_eval]
    cases e with
    | boolean b =>
      simp only [compileStep, Option.some.injEq] at h
      subst h
      exact sim_literal (.boolean b)
    | none =>
      simp only [compileStep, Option.some.injEq] at h
      subst h
      exact sim_literal .none
    | number b =>
      simp only [compileStep, Option.some.injEq] at h
      subst h
      exact sim_literal (.number b)
    | string b =>
      simp only [compileStep, Option.some.injEq] at h
      subst h
      exact sim_literal (.string b)
    | «variable» x =>
      simp only [compileStep, Option.some.injEq] at h
      subst h
      exact sim_variable hpl he (definition_isGlobal hm hp) (declaration_isGlobal hp)
    | call t f args =>
      cases t with
      | none => simp [compileStep] at h
      | some t =>
        simp only [plainStep, Bool.and_eq_true] at hpl
        simp only [compileStep] at h
        obtain ⟨_, _, h⟩ := some_bind h
        obtain ⟨f', h1, h⟩ := some_bind h
        obtain ⟨args', h2, h⟩ := some_bind h
        simp only [Option.some.injEq] at h
        subst h
        have e1 : meval w p k ρ (.op .call (.cons f' (operands args'))) = fun log => (meval w p k ρ f' log).bind
            fun u log => (mevals w p k false ρ (operands args') log).bind fun us log =>
              Mir.apply w p Mir.captureAll k u us log := by
          funext log
          simp only [meval, mevals, Mir.eval, Mir.evals, Mir.Op.scalar, Bool.false_and, Bool.false_eq_true, if_false,
            Mir.R.bind]
          cases Mir.eval w p Mir.captureAll (Mir.apply w p Mir.captureAll k) ρ f' log with
          | ok u log =>
            simp only
            cases Mir.evals w p Mir.captureAll (Mir.apply w p Mir.captureAll k) false ρ (operands args') log <;> rfl
          | _ => rfl
        rw [e1]
        simp only [Hir.stepEval]
        refine Sim.bind (hs d' f f' env ρ h1 hpl.1 he) fun v u hv => ?_
        refine Sim.bind (sim_operands ?_) fun vs us hvs => (hcall v u vs us hv hvs).noReturn
        exact (forall₂_mem (mapM_forall₂ h2) (all_mem hpl.2)).imp fun e e' h => hs d' e e' env ρ h.1 h.2 he
    | builtInCall t f args =>
      simp only [plainStep, Bool.and_eq_true, List.contains_iff_mem] at hpl
      obtain ⟨hS, hpl⟩ := hpl
      match t, f, args, h, hpl with
      | some t, .error, [e], h, hpl =>
        simp only [compileStep] at h
        obtain ⟨_, _, h⟩ := some_bind h
        obtain ⟨e', h1, h⟩ := some_bind h
        simp only [Option.some.injEq] at h
        subst h
        simp only [List.all_cons, List.all_nil, Bool.and_true] at hpl
        simp only [Hir.stepEval, Hir.stepBuiltIn, compileError, meval, Mir.eval]
        refine Sim.bind (hs d' e e' env ρ h1 hpl he) fun v u hv => ?_
        cases hv with
        | @variant tag v u ht hv =>
          simp only [Mir.eval, Mir.lookup, Mir.Env.set, if_true, Mir.R.ofOption, Mir.R.bind, Mir.evalAlts,
            Mir.matchAlternative]
          by_cases h2 : tag = .error
          · subst h2
            simp only [if_true, Mir.eval, Mir.lookup, Mir.R.ofOption, box_eq, boxed, Bool.false_eq_true, if_false]
            exact Sim.val hv
          · have h3 : ¬ typeId K .error = typeId K tag := fun h => h2 (hm.ids _ ht _ hS h.symm)
            simp only [h2, h3, if_false, Mir.eval, Mir.lookup, Mir.R.ofOption, Mir.evals, if_true, Mir.R.bind, Mir.Op.scalar,
              Bool.false_and, Bool.false_eq_true, Mir.applyOp]
            exact Sim.val (Rel.error (.variant ht hv))
        | _ => exact Sim.stuck
      | some t, .source, [e], h, hpl =>
        simp only [compileStep] at h
        obtain ⟨_, _, h⟩ := some_bind h
        obtain ⟨e', h1, h⟩ := some_bind h
        simp only [Option.some.injEq] at h
        subst h
        simp only [List.all_cons, List.all_nil, Bool.and_true] at hpl
        simp only [Hir.stepEval, Hir.stepBuiltIn, meval_op, Mir.Op.scalar]
        refine Sim.bind (sim_one (hs d' e e' env ρ h1 hpl he)) fun v us hv => ?_
        obtain ⟨u, rfl, hv⟩ := hv
        cases hv with
        | error hv => exact Sim.val hv
        | _ => exact Sim.stuck
    | if_ c t e =>
      simp only [plainStep, Bool.and_eq_true] at hpl
      simp only [compileStep] at h
      obtain ⟨c', h1, h⟩ := some_bind h
      obtain ⟨t', h2, h⟩ := some_bind h
      obtain ⟨e', h3, h⟩ := some_bind h
      simp only [Option.some.injEq] at h
      subst h
      exact sim_if (hs d' _ _ env ρ h1 hpl.1.1 he) (hs d' _ _ env ρ h2 hpl.1.2 he) (hs d' _ _ env ρ h3 hpl.2 he)
    | ifType x e bs else_ =>
      simp only [plainStep, Bool.and_eq_true] at hpl
      simp only [compileStep] at h
      obtain ⟨e', h1, h⟩ := some_bind h
      obtain ⟨alts, h2, h⟩ := some_bind h
      simp only [Option.some.injEq] at h
      subst h
      simp only [Hir.stepEval, meval, Mir.eval]
      refine Sim.bind (hs d' _ _ env ρ h1 hpl.1.1.2 he) fun v u hv => ?_
      cases hv with
      | variant ht hv => exact sim_alternatives hm.ids hs hpl.1.1.1 ht hv he hpl.2 h2 (all_mem hpl.1.2)
      | _ => exact Sim.stuck
    | lambda params t body =>
      simp only [plainStep, Bool.and_eq_true] at hpl
      simp only [compileStep] at h
      obtain ⟨body', h1, h⟩ := some_bind h
      simp only [Option.some.injEq] at h
      subst h
      simp only [Hir.stepEval, meval, Mir.eval, Mir.lookup, Mir.Env.set, if_true, Mir.R.ofOption]
      obtain ⟨g0, g1, g2, g3⟩ := envRel_closure.mp he
      refine Sim.val (.closure h1 hpl.2 ?_ g0 g1 g2 g3)
      intro x hx
      obtain ⟨y, hy, rfl⟩ := List.mem_map.mp hx
      exact all_mem hpl.1 y hy
    | let_ x t e b =>
      cases t with
      | none => simp [compileStep] at h
      | some t =>
        simp only [plainStep, Bool.and_eq_true] at hpl
        simp only [compileStep] at h
        obtain ⟨e', h1, h⟩ := some_bind h
        obtain ⟨b', h2, h⟩ := some_bind h
        simp only [Option.some.injEq] at h
        subst h
        simp only [Hir.stepEval, meval, Mir.eval]
        refine Sim.bind (hs d' _ _ env ρ h1 hpl.1.2 he) fun v u hv => ?_
        cases x with
        | none => exact hs d' _ _ env _ h2 hpl.2 (he.skip hm.proper internal_empty u)
        | some x => exact hs d' _ _ _ _ h2 hpl.2 (he.set hv (by simpa using hpl.1.1))
    | addition t l r =>
      simp only [plainStep, Bool.and_eq_true] at hpl
      match t, h with
      | some .number, h =>
        simp only [compileStep] at h
        obtain ⟨l', h1, h⟩ := some_bind h
        obtain ⟨r', h2, h⟩ := some_bind h
        simp only [Option.some.injEq] at h
        subst h
        simp only [Hir.stepEval, meval_op, Mir.Op.scalar]
        refine sim_numbers (hs d' _ _ env ρ h1 hpl.1 he) (hs d' _ _ env ρ h2 hpl.2 he) fun i j => ?_
        refine Sim.val ?_
        rw [hW.add]
        exact .number _
      | some .string, h =>
        simp only [compileStep] at h
        obtain ⟨l', h1, h⟩ := some_bind h
        obtain ⟨r', h2, h⟩ := some_bind h
        simp only [Option.some.injEq] at h
        subst h
        exact sim_concatenation (hs d' _ _ env ρ h1 hpl.1 he) (hs d' _ _ env ρ h2 hpl.2 he)
    | arithmetic o l r =>
      simp only [plainStep, Bool.and_eq_true] at hpl
      simp only [compileStep] at h
      obtain ⟨l', h1, h⟩ := some_bind h
      obtain ⟨r', h2, h⟩ := some_bind h
      simp only [Option.some.injEq] at h
      subst h
      simp only [Hir.stepEval, meval_op, Mir.Op.scalar]
      refine sim_numbers (hs d' _ _ env ρ h1 hpl.1 he) (hs d' _ _ env ρ h2 hpl.2 he) fun i j => ?_
      refine Sim.val ?_
      rw [hW.arithmetic.eq]
      exact .number _
    | booleanOp o l r =>
      simp only [plainStep, Bool.and_eq_true] at hpl
      cases o with
      | and =>
        simp only [compileStep] at h
        obtain ⟨l', h1, h⟩ := some_bind h
        obtain ⟨r', h2, h⟩ := some_bind h
        simp only [Option.some.injEq] at h
        subst h
        have := sim_if (hs d' _ _ env ρ h1 hpl.1 he) (hs d' _ _ env ρ h2 hpl.2 he)
          (sim_literal (w := w) (p := p) (n := k) (ρ := ρ) (l := .boolean false) (Rel.boolean (K := K) (a := a) (S := S) (m := m) false))
        refine this.congr ?_
        simp only [Hir.stepEval]
        congr 1
        funext v
        congr 1
        funext b
        cases b <;> rfl
      | or =>
        simp only [compileStep] at h
        obtain ⟨l', h1, h⟩ := some_bind h
        obtain ⟨r', h2, h⟩ := some_bind h
        simp only [Option.some.injEq] at h
        subst h
        have := sim_if (hs d' _ _ env ρ h1 hpl.1 he)
          (sim_literal (w := w) (p := p) (n := k) (ρ := ρ) (l := .boolean true) (Rel.boolean (K := K) (a := a) (S := S) (m := m) true))
          (hs d' _ _ env ρ h2 hpl.2 he)
        refine this.congr ?_
        simp only [Hir.stepEval]
        congr 1
        funext v
        congr 1
        funext b
        cases b <;> rfl
    | not e =>
      simp only [plainStep] at hpl
      simp only [compileStep] at h
      obtain ⟨e', h1, h⟩ := some_bind h
      simp only [Option.some.injEq] at h
      subst h
      exact sim_not (hs d' _ _ env ρ h1 hpl he)
    | order o l r =>
      simp only [plainStep, Bool.and_eq_true] at hpl
      simp only [compileStep] at h
      obtain ⟨l', h1, h⟩ := some_bind h
      obtain ⟨r', h2, h⟩ := some_bind h
      simp only [Option.some.injEq] at h
      subst h
      simp only [Hir.stepEval, meval_op, Mir.Op.scalar]
      refine sim_numbers (hs d' _ _ env ρ h1 hpl.1 he) (hs d' _ _ env ρ h2 hpl.2 he) fun i j => ?_
      refine Sim.val ?_
      rw [hW.compare.eq]
      exact .boolean _
    | coercion src dst e =>
      simp only [plainStep, Bool.and_eq_true] at hpl
      simp only [compileStep] at h
      obtain ⟨c, h1, h⟩ := some_bind h
      obtain ⟨dd, h2, h⟩ := some_bind h
      obtain ⟨e1, h3, h⟩ := some_bind h
      have h1 := ok?_eq h1
      have hs' : tagged S c = true := by simpa [taggedType, h1] using hpl.1
      simp only [Hir.stepEval, htypes]
      exact sim_coercion h1 (ok?_eq h2) hs' (hs d' _ _ env ρ h3 hpl.2 he) h
    | equality t o l r =>
      simp only [plainStep, Bool.and_eq_true] at hpl
      cases t with
      | none => simp [compileStep] at h
      | some t =>
        have key : ∀ e', compileEquality K a m.ctx (compile K a m.ctx d) t l r = some e' →
            Sim K a S m q (fun b u => u = .boolean b) (Hir.stepEqual W m (Hir.evaluator W m a n) env t l r)
              (meval w p k ρ e') := by
          intro e' h
          unfold compileEquality at h
          obtain ⟨c, h0, h⟩ := some_bind h
          have h0 := ok?_eq h0
          unfold Hir.stepEqual
          rw [htypes, h0]
          cases c <;> simp only [reduceCtorEq] at h
          · obtain ⟨l', h1, h⟩ := some_bind h
            obtain ⟨r', h2, h⟩ := some_bind h
            simp only [Option.some.injEq] at h
            subst h
            simp only [meval_op, Mir.Op.scalar]
            refine sim_numbers (hs d' _ _ env ρ h1 hpl.1 he) (hs d' _ _ env ρ h2 hpl.2 he) fun i j => ?_
            refine Sim.val ?_
            rw [hW.equalNumbers]
          · obtain ⟨l', h1, h⟩ := some_bind h
            obtain ⟨r', h2, h⟩ := some_bind h
            simp only [Option.some.injEq] at h
            subst h
            exact sim_stringEqual hm hp hW hk he.1 (hs d' _ _ env ρ h1 hpl.1 he) (hs d' _ _ env ρ h2 hpl.2 he)
        cases o with
        | equal =>
          simp only [compileStep] at h
          simp only [Hir.stepEval]
          have h1 := Sim.bind (key e' h) (Q := Rel K a S m) (f := fun b => Out.val (.boolean b)) (g := fun u l => .ok u l)
            fun b u hb => by subst hb; exact Sim.val (.boolean b)
          intro l l' hl
          have h2 := h1 l l' hl
          have h3 : (meval w p k ρ e' l').bind (fun u l => .ok u l) = meval w p k ρ e' l' := by
            cases meval w p k ρ e' l' <;> rfl
          simp only [h3] at h2
          exact h2
        | notEqual =>
          simp only [compileStep] at h
          obtain ⟨e1, h1, h⟩ := some_bind h
          simp only [Option.some.injEq] at h
          subst h
          simp only [Hir.stepEval, meval, Mir.eval]
          refine Sim.bind (key e1 h1) fun b u hb => ?_
          subst hb
          cases b <;> exact Sim.val (.boolean _)
    | try_ t e =>
      cases t with
      | none => simp [compileStep] at h
      | some t =>
        simp only [plainStep, Bool.and_eq_true, List.contains_iff_mem, Option.all_some] at hpl
        simp only [compileStep] at h
        obtain ⟨e1, h1, h⟩ := some_bind h
        obtain ⟨c, h2, h⟩ := some_bind h
        obtain ⟨alt, h3, h⟩ := some_bind h
        simp only [Option.some.injEq] at h
        subst h
        have h2 := ok?_eq h2
        have hs' : tagged S c = true := by simpa [taggedType, h2] using hpl.1.2
        simp only [Hir.stepEval, meval, Mir.eval, R_bind_assoc]
        refine Sim.bind (hs d' _ _ env ρ h1 hpl.2 he) fun v u hv => ?_
        cases hv with
        | @variant tag v u ht hv =>
          by_cases h4 : tag = .error
          · subst h4
            simp only [if_true, Mir.evals, Mir.eval, Mir.lookup, Mir.Env.set, Mir.R.ofOption, Mir.R.bind, Mir.Op.scalar,
              Bool.false_and, Bool.false_eq_true, if_false, Mir.applyOp, box_eq, boxed]
            intro l l' hl
            exact ⟨.variant ht hv, hl⟩
          · have h5 : ¬ typeId K tag = typeId K .error := fun h => h4 (hm.ids _ ht _ hpl.1.1 h)
            simp only [h4, h5, if_false, Mir.R.bind]
            intro l l' hl
            simp only [evalAlternative hm.ids (Hir.Canon.of_ok h2) hs' ht h3, htypes, h2]
            show ResRel K a S m q _ ((if Hir.alternativeMatches c tag = true then _ else _ : Out Val) l) _
            by_cases h6 : Hir.alternativeMatches c tag = true
            · rw [if_pos h6, if_pos h6]
              simp only [meval, Mir.eval, Mir.lookup, Mir.Env.set, if_true, Mir.R.ofOption]
              exact ⟨alternativeRep_rel ht hv, hl⟩
            · rw [if_neg h6]
              trivial
        | _ => exact Sim.stuck
    | deconstruct t e x =>
      simp only [plainStep] at hpl
      cases t with
      | none => simp [compileStep] at h
      | some t =>
        simp only [compileStep] at h
        obtain ⟨ts, h1, h⟩ := some_bind h
        obtain ⟨i, h2, h⟩ := some_bind h
        obtain ⟨e1, h3, h⟩ := some_bind h
        simp only [Option.some.injEq] at h
        subst h
        simp only [Hir.stepEval, meval_op, Mir.Op.scalar]
        refine Sim.bind (sim_one (hs d' _ _ env ρ h3 hpl he)) fun v us hv => ?_
        obtain ⟨u, rfl, hv⟩ := hv
        refine sim_asRecord (g := fun u log => Mir.R.ofOption (Mir.applyOp w p (Mir.Op.field i) [u]) log) (ok?_eq h1) htypes hv ?_
        intro y fs us _ hf
        obtain ⟨v, u, g1, g2, g3⟩ := RelFields.get hf h2
        simp only [g1, Mir.applyOp, g2]
        exact Sim.val g3
    | update t e fields =>
      simp only [plainStep, Bool.and_eq_true] at hpl
      simp only [compileStep] at h
      obtain ⟨ts, h1, h⟩ := some_bind h
      obtain ⟨e1, h2, h⟩ := some_bind h
      obtain ⟨is, h3, h⟩ := some_bind h
      obtain ⟨es, h4, h⟩ := some_bind h
      simp only [Option.some.injEq] at h
      subst h
      have e2 : meval w p k ρ (.op (.update is) (.cons e1 (operands es))) = fun log => (meval w p k ρ e1 log).bind
          fun u log => (mevals w p k false ρ (operands es) log).bind fun ws log =>
            Mir.R.ofOption (Mir.applyOp w p (.update is) (u :: ws)) log := by
        funext log
        simp only [meval, mevals, Mir.eval, Mir.evals, Mir.Op.scalar, Bool.false_and, Bool.false_eq_true, if_false,
          R_bind_assoc]
        rfl
      rw [e2]
      simp only [Hir.stepEval]
      refine Sim.bind (hs d' _ _ env ρ h2 hpl.1 he) fun v u hv => ?_
      refine sim_asRecord (g := fun u log => (mevals w p k false ρ (operands es) log).bind fun ws log =>
            Mir.R.ofOption (Mir.applyOp w p (.update is) (u :: ws)) log) (ok?_eq h1) htypes hv ?_
      intro y fs us hy hf
      refine Sim.bind (sim_updates ((forall₂_mem (mapM_forall₂ h4) (all_mem hpl.2)).imp
        fun f e' h => hs d' f.2 e' env ρ h.1 h.2 he)) fun gs ws hgs => ?_
      have h5 : gs.mapM (fun g => fieldIndex ts g.1) = some is := by
        have h6 : ∀ {xs : List (String × Val)} {ys : List (String × Expr)}, xs.map (·.1) = ys.map (·.1) →
            xs.mapM (fun g => fieldIndex ts g.1) = ys.mapM (fun g => fieldIndex ts g.1) := by
          intro xs
          induction xs with
          | nil => intro ys h; cases ys <;> simp at h; rfl
          | cons x xs ih =>
            intro ys h
            cases ys with
            | nil => simp at h
            | cons y ys =>
              simp only [List.map_cons, List.cons.injEq] at h
              simp only [List.mapM_cons, h.1, ih h.2]
        rw [h6 hgs.1]
        exact h3
      obtain ⟨us', h7, h8⟩ := RelFields.update (hm.fields y ts hy) hgs.2 hf h5
      simp only [Mir.applyOp, h7, Option.map_some, Mir.R.ofOption]
      exact Sim.val (.record hy h8)
    | record t fields =>
      simp only [plainStep] at hpl
      simp only [compileStep] at h
      obtain ⟨ts, h1, h⟩ := some_bind h
      obtain ⟨c, h2, h⟩ := some_bind h
      obtain ⟨es, h3, h⟩ := some_bind h
      split at h
      · rename_i hall
        simp only [Option.some.injEq] at h
        subst h
        obtain ⟨y, g1, g2⟩ := resolveFields_eq (ok?_eq h1)
        rw [ok?_eq h2] at g1
        cases g1
        simp only [Hir.stepEval]
        rw [htypes, ok?_eq h2]
        refine sim_fields hm.proper hs (gs := []) h3 (all_mem hpl) he (fun _ _ h => by simp [Hir.lookupField] at h) ?_
        intro fs ρ' hfs _ hg
        rw [List.append_nil] at hg
        intro l l' hl
        obtain ⟨us, g3, g4⟩ := relFields_of_env (w := w) (p := p) (n := k) hg (ts := ts) (fun t ht => by
          simp only [Bool.and_eq_true, List.all_eq_true] at hall
          have := hall.2 t ht
          rw [List.any_eq_true] at this
          obtain ⟨f, hf1, hf2⟩ := this
          apply Hir.lookupField_isSome
          rw [List.map_reverse, List.mem_reverse, hfs]
          exact List.mem_map.mpr ⟨f, hf1, by simpa using hf2⟩) l'
        rw [meval_op]
        simp only [Mir.Op.scalar, g3, Mir.R.bind, Mir.applyOp, Mir.R.ofOption]
        exact ⟨.record g2 g4, hl⟩
      · cases h
    | _ => simp [compileStep] at h

/-- Fuel of the MIR program. -/
def fuel (q : Bool) (n : Nat) : Nat := n + q.toNat

theorem callSim : ∀ n, CallSim K a S m q W w p n (fuel q n)
  | 0 => by
    intro f f' vs us _ _ l l' _
    cases q with
    | false => exact True.intro
    | true => exact resRel_more rfl _
  | n + 1 => by
    have hk : q = true → fuel q n ≠ 0 := by rintro rfl; simp [fuel]
    have hs := exprSim hm hp hW hk (callSim n)
    have e1 : fuel q (n + 1) = fuel q n + 1 := by unfold fuel; omega
    intro f f' vs us hf hvs
    rw [e1]
    show Sim K a S m q _ (Hir.stepApply W m (Hir.evaluator W m a n) f vs) _
    cases hf with
    | @closure env params body body' ρ d d' h1 h2 h3 g0 g1 g2 g3 =>
      unfold Hir.stepApply
      by_cases hl : params.length = vs.length
      · have he := (envRel_closure.mpr ⟨g0, g1, g2, g3⟩ : EnvRel K a S m env ρ)
        obtain ⟨ρ', h4, h5⟩ := EnvRel.setMany (he.skip hm.proper internal_closure
          (.closure "$closure" [] params false body' ρ)) h3 hvs hl
        simp only [hl, if_true, Mir.apply, h4]
        exact (hs d d' body body' _ _ h1 h2 h5).absorb
      · simp only [hl, if_false]
        exact Sim.stuck
    | @definition x f h =>
      obtain ⟨g, h1, h2⟩ := definition_global hm hp h
      simp only [compileDefinition, Option.map_eq_some_iff] at h2
      obtain ⟨body', h2, rfl⟩ := h2
      have hf : f ∈ m.definitions := by
        rw [lastLookup_find hm.nodup] at h
        exact List.mem_of_find?_eq_some h
      unfold Hir.stepApply
      by_cases hl : (f.params.map (·.1)).length = vs.length
      · obtain ⟨ρ', h4, h5⟩ := EnvRel.setMany (xs := f.params.map (·.1)) (EnvRel.empty (K := K) (a := a) (S := S) (m := m)) (by
          intro x hx
          obtain ⟨y, hy, rfl⟩ := List.mem_map.mp hx
          exact hm.params f hf y hy) hvs hl
        simp only [hl, if_true, Mir.apply, h1, h4]
        exact (hs d0 d0 f.body body' _ _ h2 (hm.bodies f hf) h5).absorb
      · simp only [hl, if_false]
        exact Sim.stuck
    | @foreign x h1 h2 h3 =>
      have hc : p.foreign.contains x = true := by
        rw [hp.foreign]
        simpa using h2
      intro l l' hl
      obtain ⟨u, h4, h5⟩ := hW.foreign x h2 h3 l l' vs us hl hvs
      simp only [Mir.apply, no_definition_global hm hp h1, hc, if_true, Mir.callForeign, h4, Mir.R.ofOption]
      refine ⟨h5, ?_⟩
      unfold LogRel
      have : (x != K.stringEqual) = true := by simpa using h3
      simp only [List.filter_cons, this, if_true]
      exact .cons ⟨rfl, obsRel_list hvs, ⟨u, h5, value_obs h4⟩⟩ hl
    | _ => exact Sim.stuck

end

end Verif.Lower
