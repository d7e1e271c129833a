import Verif.Lower.Reflect

/-!
# Evaluation of functions for reflection
-/

namespace Verif.Lower

open Verif.Hir (Ty Ctx Expr Module Definition RecordField Canon)
open Verif.Mir.Typed (TExpr TExprs TAlts TOp TDefinition TDeclaration TModule)
open Verif.Mir (Value World Program Env Log R)
open Verif

/-- A log that is extended only by calls of the given functions. -/
def Quiet (names : List String) (l l' : Log) : Prop := ∃ es, l' = es ++ l ∧ ∀ e ∈ es, e.name ∈ names

theorem Quiet.refl {names : List String} (l : Log) : Quiet names l l := ⟨[], rfl, by simp⟩

theorem Quiet.trans {names : List String} {l m n : Log} (h : Quiet names l m) (h' : Quiet names m n) : Quiet names l n := by
  obtain ⟨es, rfl, h1⟩ := h
  obtain ⟨fs, rfl, h2⟩ := h'
  refine ⟨fs ++ es, by simp, fun e he => ?_⟩
  rcases List.mem_append.1 he with he | he
  · exact h2 e he
  · exact h1 e he

section
variable (names : List String) (w : World) (p : Program) (capture : List Mir.Name → Env → Env)

/-- An expression has a value, with enough fuel, and does nothing but calls of the given functions. -/
def Gives (ρ : Env) (e : Mir.Expr) (v : Value) : Prop :=
  ∃ N, ∀ n, N ≤ n → ∀ l, ∃ l', Mir.eval w p capture (Mir.apply w p capture n) ρ e l = .ok v l' ∧ Quiet names l l'

def GivesAll (s : Bool) (ρ : Env) (es : Mir.Exprs) (vs : List Value) : Prop :=
  ∃ N, ∀ n, N ≤ n → ∀ l, ∃ l', Mir.evals w p capture (Mir.apply w p capture n) s ρ es l = .ok vs l' ∧ Quiet names l l'

/-- A call has a value. -/
def Calls (f : Value) (vs : List Value) (v : Value) : Prop :=
  ∃ N, ∀ n, N ≤ n → ∀ l, ∃ l', Mir.apply w p capture n f vs l = .ok v l' ∧ Quiet names l l'

variable {names w p capture}

theorem gives_literal {ρ : Env} (l : Mir.Literal) : Gives names w p capture ρ (.literal l) l.value :=
  ⟨0, fun _ _ log => ⟨log, by rw [Mir.eval], Quiet.refl _⟩⟩

theorem gives_variable {ρ : Env} {x : String} {v : Value} (h : Mir.lookup p ρ x = some v) : Gives names w p capture ρ (.variable x) v :=
  ⟨0, fun _ _ log => ⟨log, by rw [Mir.eval, h]; rfl, Quiet.refl _⟩⟩

theorem gives_local {ρ : Env} {x : String} {v : Value} (h : ρ x = some v) : Gives names w p capture ρ (.variable x) v :=
  gives_variable (by rw [Mir.lookup, h])

theorem givesAll_nil {s : Bool} {ρ : Env} : GivesAll names w p capture s ρ .nil [] :=
  ⟨0, fun _ _ log => ⟨log, by rw [Mir.evals], Quiet.refl _⟩⟩

theorem givesAll_cons {s : Bool} {ρ : Env} {e : Mir.Expr} {es : Mir.Exprs} {v : Value} {vs : List Value}
    (h : Gives names w p capture ρ e v) (hs : s = false ∨ v.isNumber = true) (h' : GivesAll names w p capture s ρ es vs) :
    GivesAll names w p capture s ρ (.cons e es) (v :: vs) := by
  obtain ⟨N, h⟩ := h
  obtain ⟨M, h'⟩ := h'
  refine ⟨max N M, fun n hn l => ?_⟩
  obtain ⟨l', h1, q1⟩ := h n (by omega) l
  obtain ⟨l'', h2, q2⟩ := h' n (by omega) l'
  refine ⟨l'', ?_, q1.trans q2⟩
  have : (s && !v.isNumber) = false := by rcases hs with rfl | hs <;> simp [*]
  rw [Mir.evals, h1]
  simp only [R.bind, this, Bool.false_eq_true, if_false, h2]

theorem gives_op {ρ : Env} {o : Mir.Op} {es : Mir.Exprs} {vs : List Value} {v : Value} (h : GivesAll names w p capture o.scalar ρ es vs)
    (ho : o ≠ .call) (hv : Mir.applyOp w p o vs = some v) : Gives names w p capture ρ (.op o es) v := by
  obtain ⟨N, h⟩ := h
  refine ⟨N, fun n hn l => ?_⟩
  obtain ⟨l', h1, q1⟩ := h n hn l
  refine ⟨l', ?_, q1⟩
  rw [Mir.eval, h1]
  simp only [R.bind]
  split
  · exact absurd rfl ho
  · rw [hv]; rfl

theorem gives_call {ρ : Env} {es : Mir.Exprs} {f : Value} {vs : List Value} {v : Value}
    (h : GivesAll names w p capture false ρ es (f :: vs)) (hv : Calls names w p capture f vs v) :
    Gives names w p capture ρ (.op .call es) v := by
  obtain ⟨N, h⟩ := h
  obtain ⟨M, hv⟩ := hv
  refine ⟨max N M, fun n hn l => ?_⟩
  obtain ⟨l', h1, q1⟩ := h n (by omega) l
  obtain ⟨l'', h2, q2⟩ := hv n (by omega) l'
  refine ⟨l'', ?_, q1.trans q2⟩
  rw [Mir.eval]
  simp only [Mir.Op.scalar, h1, R.bind, h2]

theorem gives_if {ρ : Env} {c t e : Mir.Expr} {b : Bool} {v : Value} (h : Gives names w p capture ρ c (.boolean b))
    (hv : Gives names w p capture ρ (if b then t else e) v) : Gives names w p capture ρ (.if_ c t e) v := by
  obtain ⟨N, h⟩ := h
  obtain ⟨M, hv⟩ := hv
  refine ⟨max N M, fun n hn l => ?_⟩
  obtain ⟨l', h1, q1⟩ := h n (by omega) l
  obtain ⟨l'', h2, q2⟩ := hv n (by omega) l'
  refine ⟨l'', ?_, q1.trans q2⟩
  rw [Mir.eval, h1]
  cases b <;> simpa [R.bind] using h2

/-- The first alternative. -/
theorem gives_match {ρ : Env} {e b : Mir.Expr} {t : Mir.TypeId} {u v : Value} {x : String} {as : Mir.Alts}
    (h : Gives names w p capture ρ e (.variant t u)) (hv : Gives names w p capture (ρ.set x u) b v) :
    Gives names w p capture ρ (.case e (.cons (some [t]) x b as)) v := by
  obtain ⟨N, h⟩ := h
  obtain ⟨M, hv⟩ := hv
  refine ⟨max N M, fun n hn l => ?_⟩
  obtain ⟨l', h1, q1⟩ := h n (by omega) l
  obtain ⟨l'', h2, q2⟩ := hv n (by omega) l'
  refine ⟨l'', ?_, q1.trans q2⟩
  rw [Mir.eval, h1]
  simp only [R.bind, Mir.evalAlts, Mir.matchAlternative, if_true, h2]

/-- The default one. -/
theorem gives_default {ρ : Env} {e b c : Mir.Expr} {t t' : Mir.TypeId} {u v : Value} {x y : String} {as : Mir.Alts}
    (h : Gives names w p capture ρ e (.variant t u)) (ht : t' ≠ t) (hv : Gives names w p capture (ρ.set y (.variant t u)) c v) :
    Gives names w p capture ρ (.case e (.cons (some [t']) x b (.cons none y c as))) v := by
  obtain ⟨N, h⟩ := h
  obtain ⟨M, hv⟩ := hv
  refine ⟨max N M, fun n hn l => ?_⟩
  obtain ⟨l', h1, q1⟩ := h n (by omega) l
  obtain ⟨l'', h2, q2⟩ := hv n (by omega) l'
  refine ⟨l'', ?_, q1.trans q2⟩
  rw [Mir.eval, h1]
  simp only [R.bind, Mir.evalAlts, Mir.matchAlternative, if_neg ht, h2]

theorem calls_global {g : String} {d : Mir.Global} {vs : List Value} {ρ : Env} {v : Value} (hd : p.find g = some d)
    (hρ : Env.setMany (fun _ => none) d.args vs = some ρ) (h : Gives names w p capture ρ d.body v) :
    Calls names w p capture (.global g) vs v := by
  obtain ⟨N, h⟩ := h
  refine ⟨N + 1, fun n hn l => ?_⟩
  obtain ⟨l', h1, q⟩ := h (n - 1) (by omega) l
  refine ⟨l', ?_, q⟩
  obtain ⟨k, rfl⟩ : ∃ k, n = k + 1 := ⟨n - 1, by omega⟩
  rw [Nat.add_sub_cancel] at h1
  rw [Mir.apply]
  simp only [hd, hρ, h1, R.catch]

theorem calls_foreign {g : String} {vs : List Value} {v : Value} {o : Mir.Obs} (hd : p.find g = none) (hf : p.foreign.contains g = true)
    (hg : g ∈ names) (ho : ∀ l, w.foreign l g (Mir.Value.obsList vs) = o) (hv : o.value = some v) :
    Calls names w p capture (.global g) vs v := by
  refine ⟨1, fun n hn l => ?_⟩
  obtain ⟨k, rfl⟩ : ∃ k, n = k + 1 := ⟨n - 1, by omega⟩
  refine ⟨⟨g, Mir.Value.obsList vs, o⟩ :: l, ?_, [_], rfl, by simpa using hg⟩
  rw [Mir.apply]
  simp only [hd, hf, if_true, Mir.callForeign, ho, hv, R.ofOption]

end

/-! ## Functions for reflection -/

/-- A program with the functions for reflection on some types, with their tags. -/
structure Linked (K : ReflectConfig) (X : Extras) (a : Nat) (C : Ctx) (types : List Ty) (p : Program) : Prop where
  information : ∀ c ∈ types, p.typeInformation (tagOf K.toTypedConfig c) = informationName (hirTypeId K.toConfig c)
  functions : ∀ c ∈ types, ∃ ds, informationDefinitions K a C X c = some ds ∧ ∀ d ∈ ds, p.find d.name = some (d.erase (tagId K.toTypedConfig))
  tags : ∀ c ∈ types, ∀ d ∈ types, tagOf K.toTypedConfig c = tagOf K.toTypedConfig d → c = d
  results : Ty.boolean ∈ types ∧ Ty.none ∈ types
  stringEqual : p.find K.stringEqual = none ∧ p.foreign.contains K.stringEqual = true ∧ internal K.stringEqual = false
  numberDebug : p.find K.numberDebug = none ∧ p.foreign.contains K.numberDebug = true ∧ internal K.numberDebug = false

/-- Native code of the prelude compares strings and prints numbers. -/
structure Native (K : ReflectConfig) (same : UInt64 → UInt64 → Bool) (number : UInt64 → List UInt8) (w : World) : Prop where
  comparison : ∀ x y, w.comparison .equal x y = same x y
  strings : ∀ l s t, w.foreign l K.stringEqual [.string s, .string t] = .boolean (s == t)
  numbers : ∀ l n, w.foreign l K.numberDebug [.number n] = .string (number n)

section
variable {K : ReflectConfig} {X : Extras} {a : Nat} {C : Ctx} {types : List Ty} {p : Program} {w : World}
  {same : UInt64 → UInt64 → Bool} {number : UInt64 → List UInt8} {capture : List Mir.Name → Env → Env}

theorem erase_operationT (o : TOp) (es : List TExpr) (id : Mir.Typed.Ty → Mir.TypeId) :
    (operationT o es).erase id = .op (o.erase id) (Mir.Exprs.ofList (es.map (·.erase id))) := by
  rw [operationT, TExpr.erase]
  congr 1
  induction es with
  | nil => rfl
  | cons e es ih => simp only [operandsT, TExprs.erase, ih, List.map_cons, Mir.Exprs.ofList]

theorem Tagged.type {K : TypedConfig} {d : Data} {v : Value} (h : Tagged K C types d v) :
    d.type ∈ types ∧ ∃ u, v = .variant (tagOf K d.type) u := by
  cases h with
  | plain _ _ h => exact ⟨h, _, rfl⟩
  | box _ _ h => exact ⟨h, _, rfl⟩

/-- The functions in type information of a value. -/
theorem gives_information (hp : Linked K X a C types p) {names : List String} {ρ : Env} {e : TExpr} {d : Data} {v : Value}
    (hv : Tagged K.toTypedConfig C types d v) (he : Gives names w p capture ρ (e.erase (tagId K.toTypedConfig)) v) :
    Gives names w p capture ρ ((informationFunction e 0).erase (tagId K.toTypedConfig)) (.global (debugName (hirTypeId K.toConfig d.type))) ∧
    Gives names w p capture ρ ((informationFunction e 1).erase (tagId K.toTypedConfig)) (.global (equalName (hirTypeId K.toConfig d.type))) := by
  obtain ⟨ht, u, rfl⟩ := hv.type
  obtain ⟨ds, hds, hf⟩ := hp.functions _ ht
  simp only [informationDefinitions, Option.bind_eq_bind, Option.bind_eq_some_iff, Option.some.injEq] at hds
  obtain ⟨d1, hd1, d2, hd2, rfl⟩ := hds
  have n1 : d1.name = debugName (hirTypeId K.toConfig d.type) := by
    simp only [debugDefinition, Option.bind_eq_bind, Option.bind_eq_some_iff, Option.some.injEq] at hd1
    obtain ⟨_, _, rfl⟩ := hd1
    rfl
  have n2 : d2.name = equalName (hirTypeId K.toConfig d.type) := by
    simp only [equalDefinition, Option.bind_eq_bind, Option.bind_eq_some_iff, Option.some.injEq] at hd2
    obtain ⟨_, _, rfl⟩ := hd2
    rfl
  have f1 := hf d1 (by simp)
  have f2 := hf d2 (by simp)
  have f3 := hf ⟨informationName (hirTypeId K.toConfig d.type), [], .record informationRecord, true, informationBody (hirTypeId K.toConfig d.type)⟩ (by simp)
  rw [n1] at f1
  rw [n2] at f2
  have hc : Calls names w p capture (.global (informationName (hirTypeId K.toConfig d.type))) []
      (.record (tagId K.toTypedConfig (.record informationRecord)) [.global (debugName (hirTypeId K.toConfig d.type)), .global (equalName (hirTypeId K.toConfig d.type))]) := by
    refine calls_global f3 rfl ?_
    simp only [TDefinition.erase, informationBody, erase_operationT]
    refine gives_op (givesAll_cons (gives_variable ?_) (.inl rfl) (givesAll_cons (gives_variable ?_) (.inl rfl) givesAll_nil)) (by simp [TOp.erase]) rfl
    · simp [Mir.lookup, Program.isGlobal, f1]
    · simp [Mir.lookup, Program.isGlobal, f2]
  have hr : Gives names w p capture ρ ((operationT (.call [] (.record informationRecord)) [operationT .typeInformation [e]]).erase (tagId K.toTypedConfig))
      (.record (tagId K.toTypedConfig (.record informationRecord)) [.global (debugName (hirTypeId K.toConfig d.type)), .global (equalName (hirTypeId K.toConfig d.type))]) := by
    rw [erase_operationT]
    refine gives_call (givesAll_cons ?_ (.inl rfl) givesAll_nil) hc
    beta_reduce
    rw [erase_operationT]
    refine gives_op (givesAll_cons he (.inl rfl) givesAll_nil) (by simp [TOp.erase]) ?_
    simp only [TOp.erase, Mir.applyOp, hp.information _ ht]
  constructor
  all_goals
    rw [informationFunction, erase_operationT]
    exact gives_op (givesAll_cons hr (.inl rfl) givesAll_nil) (by simp [TOp.erase]) rfl

/-- Calls through type information. -/
theorem gives_equalCall (hp : Linked K X a C types p) {names : List String} {ρ : Env} {l r : TExpr} {d : Data} {v u x : Value}
    (hv : Tagged K.toTypedConfig C types d v) (hl : Gives names w p capture ρ (l.erase (tagId K.toTypedConfig)) v)
    (hr : Gives names w p capture ρ (r.erase (tagId K.toTypedConfig)) u)
    (hc : Calls names w p capture (.global (equalName (hirTypeId K.toConfig d.type))) [v, u] x) :
    Gives names w p capture ρ ((equalCall l r).erase (tagId K.toTypedConfig)) x := by
  rw [equalCall, erase_operationT]
  exact gives_call (givesAll_cons (gives_information hp hv hl).2 (.inl rfl) (givesAll_cons hl (.inl rfl)
    (givesAll_cons hr (.inl rfl) givesAll_nil))) hc

theorem gives_debugCall (hp : Linked K X a C types p) {names : List String} {ρ : Env} {e : TExpr} {d : Data} {v x : Value}
    (hv : Tagged K.toTypedConfig C types d v) (he : Gives names w p capture ρ (e.erase (tagId K.toTypedConfig)) v)
    (hc : Calls names w p capture (.global (debugName (hirTypeId K.toConfig d.type))) [v] x) :
    Gives names w p capture ρ ((debugCall e).erase (tagId K.toTypedConfig)) x := by
  rw [debugCall, erase_operationT]
  exact gives_call (givesAll_cons (gives_information hp hv he).1 (.inl rfl) (givesAll_cons he (.inl rfl) givesAll_nil)) hc

/-- Fields are put in variants. -/
theorem gives_any {names : List String} {ρ : Env} {t : Ty} {c : Ty} (hc : Canon C.types t c) {e e' : TExpr} {d : Data} {v : Value}
    (h : compileAny K a C t e = some e') (hd : Field K.toTypedConfig C types c d v)
    (he : Gives names w p capture ρ (e.erase (tagId K.toTypedConfig)) v) :
    ∃ v', Tagged K.toTypedConfig C types d v' ∧ Gives names w p capture ρ (e'.erase (tagId K.toTypedConfig)) v' := by
  simp only [compileAny, Option.bind_eq_bind, Option.bind_eq_some_iff] at h
  obtain ⟨c', hc', h⟩ := h
  have hc' := hc.det (Canon.of_ok (ok?_eq hc'))
  subst hc'
  cases hd with
  | tagged h1 h2 =>
    rw [if_pos h1] at h
    cases h
    exact ⟨v, h2, he⟩
  | payload h1 h2 h3 h4 =>
    rw [if_neg h1] at h
    cases h
    subst h2
    cases hb : boxed d.type with
    | false =>
      refine ⟨_, .plain h4 hb h3, ?_⟩
      rw [erase_operationT]
      refine gives_op (givesAll_cons ?_ (.inl rfl) givesAll_nil) (by simp [TOp.erase]) rfl
      simpa [boxT, hb] using he
    | true =>
      refine ⟨_, .box h4 hb h3, ?_⟩
      rw [erase_operationT]
      refine gives_op (givesAll_cons ?_ (.inl rfl) givesAll_nil) (by simp [TOp.erase]) rfl
      simp only [boxT, hb, if_true, TExpr.erase, TExprs.erase]
      exact gives_op (givesAll_cons he (.inl rfl) givesAll_nil) (by simp [TOp.erase]) rfl

end

end Verif.Lower
