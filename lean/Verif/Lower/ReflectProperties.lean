import Verif.Lower.ReflectCalls
import Verif.Lower.TypedSamples

/-!
# Reflection in compiled modules

`debug`, `_reflect_debug` and `_reflect_equal` (`lib/hir-mir/src/built_in_call.rs:48-53`, `:164-169`) are calls of functions that the
compiler adds to a module for every type of it; `packages/reflect/Any.pen` exposes the last two.
-/

namespace Verif.Lower

open Verif.Hir (Ty Ctx Expr Module Definition RecordField Canon)
open Verif.Mir (Value Env World Program Log R)
open Verif.Mir.Typed (TExpr TExprs TAlts TOp TDefinition TDeclaration TModule)
open Verif

/-- Types of a module with type information in it. -/
def LocalTypes (X : Extras) (a n : Nat) (m : Module) (c : Ty) : Prop :=
  ∃ ts, informationTypes a n m = some ts ∧ c ∈ ts ∧ X.externalType c = false

/-- Hashes of types in variants do not collide. -/
def DistinctTags (K : TypedConfig) (ts : List Ty) : Prop := ∀ c ∈ ts, ∀ d ∈ ts, tagOf K c = tagOf K d → c = d

section
variable {K : ReflectConfig} {X : Extras} {a n : Nat} {m : Module}

/-- Types with type information in a module. -/
def Parts.local (P : Parts K X a n m) : List Ty := P.types.filter fun c => !X.externalType c

theorem find_global {gs : List Mir.Global} {g : Mir.Global} (hn : (gs.map (·.name)).Nodup) (hg : g ∈ gs) :
    gs.find? (·.name == g.name) = some g := by
  induction gs with
  | nil => cases hg
  | cons h gs ih =>
    simp only [List.map_cons, List.nodup_cons] at hn
    rcases List.mem_cons.1 hg with rfl | hg
    · simp
    · have : h.name ≠ g.name := fun e => hn.1 (e ▸ List.mem_map_of_mem hg)
      rw [List.find?_cons_of_neg (by simpa using this), ih hn.2 hg]

theorem erase_name (id : Mir.Typed.Ty → Mir.TypeId) (d : TDefinition) : (d.erase id).name = d.name := rfl

theorem Parts.globals_nodup (P : Parts K X a n m) (hN : Nameable K X m) (hc : NoCollisions K.toConfig P.types)
    (id : Mir.Typed.Ty → Mir.TypeId) : ((P.module.program id).globals.map (·.name)).Nodup := by
  have h := P.names_nodup hN hc
  simp only [Mir.Typed.TModule.functions, List.map_append, List.map_map] at h
  have := (List.nodup_append'.1 h).2.1
  simpa [Mir.Typed.TModule.program, List.map_map, Function.comp_def, erase_name] using this

theorem Parts.declared (P : Parts K X a n m) (hN : Nameable K X m) (hc : NoCollisions K.toConfig P.types)
    (id : Mir.Typed.Ty → Mir.TypeId) {d : String × (List Ty × Ty)} (hd : d ∈ m.declarations) :
    (P.module.program id).find d.1 = none ∧ (P.module.program id).foreign.contains d.1 = true := by
  have hm : d.1 ∈ (P.module.program id).foreign := by
    simp only [Mir.Typed.TModule.program, Parts.module, List.map_append, List.mem_append]
    by_cases hX : X.foreign d.1 = true
    · obtain ⟨e, he, h1⟩ := mapM_target P.foreign_eq (a := d) (List.mem_filter.2 ⟨hd, hX⟩)
      exact .inl (.inl (List.mem_map.2 ⟨e, by first | exact he | exact h1, declaration_name (by first | exact he | exact h1)⟩))
    · obtain ⟨e, he, h1⟩ := mapM_target P.declarations_eq (a := d) (List.mem_filter.2 ⟨hd, by simpa using hX⟩)
      exact .inr (.inl (List.mem_map.2 ⟨e, by first | exact he | exact h1, declaration_name (by first | exact he | exact h1)⟩))
  refine ⟨?_, by simpa using hm⟩
  rw [Program.find, List.find?_eq_none]
  intro g hg e
  have h := P.names_nodup hN hc
  simp only [Mir.Typed.TModule.functions, List.map_append, List.map_map] at h
  refine (List.nodup_append'.1 h).2.2 (?_ : d.1 ∈ _) ?_
  · simpa [Mir.Typed.TModule.program] using hm
  · simp only [Mir.Typed.TModule.program, List.mem_map] at hg
    obtain ⟨g', hg, rfl⟩ := hg
    exact List.mem_map.2 ⟨g', hg, by simpa [erase_name] using e⟩

/-- In a compiled module there are functions of type information for every type. -/
theorem Parts.linked (P : Parts K X a n m) (hN : Nameable K X m) (hc : NoCollisions K.toConfig P.types)
    (ht : DistinctTags K.toTypedConfig P.types) :
    Linked K X a m.ctx P.local (P.module.program (tagId K.toTypedConfig)) where
  information c h := by
    have hm := (List.mem_filter.1 h).1
    simp only [Mir.Typed.TModule.program, Parts.module]
    cases hf : ((P.types.dedup.map fun c => (concreteType K.toTypedConfig c, informationName (hirTypeId K.toConfig c))).find?
      fun x => tagId K.toTypedConfig x.1 == tagOf K.toTypedConfig c) with
    | none =>
      rw [List.find?_eq_none] at hf
      exact absurd (by simp [tagOf]) (hf _ (List.mem_map.2 ⟨c, List.mem_dedup.2 hm, rfl⟩))
    | some x =>
      have h1 := List.find?_some hf
      obtain ⟨d, hd, rfl⟩ := List.mem_map.1 (List.mem_of_find?_eq_some hf)
      have h2 := ht d (List.mem_dedup.1 hd) c hm (by simpa [tagOf] using h1)
      subst h2
      rfl
  functions c h := by
    obtain ⟨hm, hX⟩ := List.mem_filter.1 h
    obtain ⟨ds, h1, h2⟩ := mapM_target P.information_eq (a := c) (List.mem_filter.2 ⟨List.mem_dedup.2 hm, hX⟩)
    refine ⟨ds, by first | exact h1 | exact h2, fun d hd => ?_⟩
    refine find_global (P.globals_nodup hN hc _) (g := d.erase _) ?_
    simp only [Mir.Typed.TModule.program, Parts.module]
    refine List.mem_map_of_mem (List.mem_append_right _ (List.mem_append_left _ (List.mem_flatten.2 ⟨ds, by first | exact h1 | exact h2, hd⟩)))
  tags c h d h' e := ht c (List.mem_filter.1 h).1 d (List.mem_filter.1 h').1 e
  results := by
    have := (informationTypes_mem P.types_eq).1
    exact ⟨List.mem_filter.2 ⟨this _ (by simp), rfl⟩, List.mem_filter.2 ⟨this _ (by simp), rfl⟩⟩
  stringEqual := by
    have hp : (K.stringEqual, [Ty.string, .string], Ty.boolean) ∈ preludeFunctions K := by simp [preludeFunctions]
    have := P.declared hN hc (tagId K.toTypedConfig) (hN.imports _ hp)
    exact ⟨this.1, this.2, (prelude_name hN hp).1⟩
  numberDebug := by
    have hp : (K.numberDebug, [Ty.number], Ty.string) ∈ preludeFunctions K := by simp [preludeFunctions]
    have := P.declared hN hc (tagId K.toTypedConfig) (hN.imports _ hp)
    exact ⟨this.1, this.2, (prelude_name hN hp).1⟩

theorem Parts.debugDeclared (P : Parts K X a n m) (hN : Nameable K X m) (hc : NoCollisions K.toConfig P.types)
    (id : Mir.Typed.Ty → Mir.TypeId) :
    (P.module.program id).find "__debug" = none ∧ (P.module.program id).foreign.contains "__debug" = true := by
  have hm : "__debug" ∈ (P.module.program id).foreign := by
    simp [Mir.Typed.TModule.program, Parts.module, runtimeDeclarations]
  refine ⟨?_, by simpa using hm⟩
  rw [Program.find, List.find?_eq_none]
  intro g hg e
  have h := P.names_nodup hN hc
  simp only [Mir.Typed.TModule.functions, List.map_append, List.map_map] at h
  refine (List.nodup_append'.1 h).2.2 (?_ : "__debug" ∈ _) ?_
  · simpa [Mir.Typed.TModule.program] using hm
  · simp only [Mir.Typed.TModule.program, List.mem_map] at hg
    obtain ⟨g', hg, rfl⟩ := hg
    exact List.mem_map.2 ⟨g', hg, by simpa [erase_name] using e⟩

end

/-! ## What is expected is sensible -/

theorem both_comm (x y : Option Bool) : both x y = both y x := by
  rcases x with _ | x <;> rcases y with _ | y <;> simp [both, Bool.and_comm]

mutual
/-- Equality is symmetric when that of numbers is. -/
theorem Data.equal_symm {same : UInt64 → UInt64 → Bool} (h : ∀ a b, same a b = same b a) : ∀ d e : Data, d.equal same e = e.equal same d
  | .none, e => by cases e <;> rfl
  | .boolean a, e => by cases e <;> simp [Data.equal, Bool.beq_comm]
  | .number a, e => by cases e <;> simp [Data.equal, h a]
  | .string a, e => by cases e <;> simp [Data.equal, Bool.beq_comm]
  | .error a, e => by
    cases e <;> simp only [Data.equal]
    exact Data.equal_symm h a _
  | .record n as, e => by
    cases e <;> simp only [Data.equal]
    case record m bs => rw [Data.equalAll_symm h as bs]; simp only [eq_comm]
  | .function as r f, e => by
    cases e <;> simp only [Data.equal]
    case function bs s g => simp only [eq_comm]
theorem Data.equalAll_symm {same : UInt64 → UInt64 → Bool} (h : ∀ a b, same a b = same b a) :
    ∀ ds es : List Data, Data.equalAll same ds es = Data.equalAll same es ds
  | [], es => by cases es <;> rfl
  | d :: ds, es => by
    cases es <;> simp only [Data.equalAll]
    rw [Data.equal_symm h d, Data.equalAll_symm h ds]
end

mutual
/-- Values without functions. -/
def Data.plain : Data → Bool
  | .error d => d.plain
  | .record _ ds => Data.plainAll ds
  | .function _ _ _ => false
  | _ => true
def Data.plainAll : List Data → Bool
  | [] => true
  | d :: ds => d.plain && Data.plainAll ds
end

mutual
/-- Without functions, and with an equality of numbers that is reflexive, values are equal only if they are the same. -/
theorem Data.equal_plain {same : UInt64 → UInt64 → Bool} (h : ∀ a b, same a b = true ↔ a = b) : ∀ d e : Data, d.plain = true → e.plain = true →
    ∃ b, d.equal same e = some b ∧ (b = true → d = e)
  | .none, e, _, _ => by cases e <;> simp [Data.equal]
  | .boolean a, e, _, _ => by cases e <;> simp [Data.equal]
  | .number a, e, _, _ => by cases e <;> simp [Data.equal, h]
  | .string a, e, _, _ => by cases e <;> simp [Data.equal]
  | .error a, e, hd, he => by
    cases e with
    | error b =>
      rw [Data.plain] at hd he
      obtain ⟨x, h1, h2⟩ := Data.equal_plain h a b hd he
      exact ⟨x, by rw [Data.equal, h1], fun hx => by rw [h2 hx]⟩
    | _ => simp [Data.equal]
  | .record n as, e, hd, he => by
    cases e with
    | record m bs =>
      rw [Data.plain] at hd he
      obtain ⟨x, h1, h2⟩ := Data.equalAll_plain h as bs hd he
      by_cases hn : n = m
      · exact ⟨x, by rw [Data.equal, if_pos hn, h1], fun hx => by rw [h2 hx, hn]⟩
      · exact ⟨false, by rw [Data.equal, if_neg hn], by simp⟩
    | _ => simp [Data.equal]
  | .function _ _ _, _, hd, _ => by simp [Data.plain] at hd
theorem Data.equalAll_plain {same : UInt64 → UInt64 → Bool} (h : ∀ a b, same a b = true ↔ a = b) :
    ∀ ds es : List Data, Data.plainAll ds = true → Data.plainAll es = true → ∃ b, Data.equalAll same ds es = some b ∧ (b = true → ds = es)
  | [], es, _, _ => by cases es <;> simp [Data.equalAll]
  | d :: ds, es, hd, he => by
    cases es with
    | nil => simp [Data.equalAll]
    | cons e es =>
      rw [Data.plainAll, Bool.and_eq_true] at hd he
      obtain ⟨x, h1, h2⟩ := Data.equal_plain h d e hd.1 he.1
      obtain ⟨y, h3, h4⟩ := Data.equalAll_plain h ds es hd.2 he.2
      refine ⟨x && y, by rw [Data.equalAll, h1, h3, both], fun hb => ?_⟩
      rw [Bool.and_eq_true] at hb
      rw [h2 hb.1, h4 hb.2]
end

mutual
/-- Values without functions are equal to themselves. -/
theorem Data.equal_refl {same : UInt64 → UInt64 → Bool} (h : ∀ a, same a a = true) : ∀ d : Data, d.plain = true → d.equal same d = some true
  | .none, _ => rfl
  | .boolean _, _ => by simp [Data.equal]
  | .number _, _ => by simp [Data.equal, h]
  | .string _, _ => by simp [Data.equal]
  | .error d, hd => by rw [Data.plain] at hd; rw [Data.equal, Data.equal_refl h d hd]
  | .record n ds, hd => by rw [Data.plain] at hd; rw [Data.equal, if_pos rfl, Data.equalAll_refl h ds hd]
  | .function _ _ _, hd => by simp [Data.plain] at hd
theorem Data.equalAll_refl {same : UInt64 → UInt64 → Bool} (h : ∀ a, same a a = true) : ∀ ds : List Data, Data.plainAll ds = true →
    Data.equalAll same ds ds = some true
  | [], _ => rfl
  | d :: ds, hd => by
    rw [Data.plainAll, Bool.and_eq_true] at hd
    rw [Data.equalAll, Data.equal_refl h d hd.1, Data.equalAll_refl h ds hd.2]
    rfl
end

/-! ## The properties -/

section
variable {K : ReflectConfig} {X : Extras} {a n : Nat} {m : Module} {t : TModule} {ts : List Ty} {w : World}
  {same : UInt64 → UInt64 → Bool} {number : UInt64 → List UInt8} {capture : List Mir.Name → Env → Env}

theorem linked_of_compile (hp : compileModuleT K X a n m = some t) (hN : Nameable K X m) (hi : informationTypes a n m = some ts)
    (hc : NoCollisions K.toConfig ts) (ht : DistinctTags K.toTypedConfig ts) :
    Linked K X a m.ctx (ts.filter fun c => !X.externalType c) (t.program (tagId K.toTypedConfig)) := by
  obtain ⟨P, rfl⟩ := compileModuleT_parts hp
  have : P.types = ts := by simpa [P.types_eq] using hi
  subst this
  exact P.linked hN hc ht

/-- C66: `_reflect_equal(x, y)` in a compiled module, for values of types of the module: structural equality of the values, `none` where
functions would be compared. Nothing is done but comparison of strings by the prelude. -/
theorem c66_equal_partial (hp : compileModuleT K X a n m = some t) (hN : Nameable K X m) (hi : informationTypes a n m = some ts)
    (hc : NoCollisions K.toConfig ts) (ht : DistinctTags K.toTypedConfig ts) (hw : Native K same number w) {ρ : Env} {x y : String}
    {v u : Value} {d e : Data} (hx : ρ x = some v) (hy : ρ y = some u)
    (hd : Tagged K.toTypedConfig m.ctx (ts.filter fun c => !X.externalType c) d v)
    (he : Tagged K.toTypedConfig m.ctx (ts.filter fun c => !X.externalType c) e u) :
    ∃ N, ∀ fuel, N ≤ fuel → ∀ l, ∃ es,
      Mir.eval w (t.program (tagId K.toTypedConfig)) capture (Mir.apply w (t.program (tagId K.toTypedConfig)) capture fuel) ρ
        ((reflectEqual (.variable x) (.variable y)).erase (tagId K.toTypedConfig)) l =
        .ok (comparisonResult K.toTypedConfig (d.equal same e)) (es ++ l) ∧
      ∀ o ∈ es, o.name ∈ [K.stringEqual, K.numberDebug] := by
  have hl := linked_of_compile hp hN hi hc ht
  obtain ⟨N, h⟩ := gives_equalCall (l := .variable x) (r := .variable y) hl hd (gives_local hx) (gives_local hy) (equal_ok (capture := capture) hl hw _ d (le_refl _) e v u hd he)
  refine ⟨N, fun fuel hf l => ?_⟩
  obtain ⟨_, h1, es, rfl, h2⟩ := h fuel hf l
  exact ⟨es, h1, h2⟩

/-- C66: `_reflect_debug(x)` in a compiled module, for values of types of the module: the text of the value. -/
theorem c66_debug_partial (hp : compileModuleT K X a n m = some t) (hN : Nameable K X m) (hi : informationTypes a n m = some ts)
    (hc : NoCollisions K.toConfig ts) (ht : DistinctTags K.toTypedConfig ts) (hw : Native K same number w) {ρ : Env} {x : String}
    {v : Value} {d : Data} (hx : ρ x = some v) (hd : Tagged K.toTypedConfig m.ctx (ts.filter fun c => !X.externalType c) d v) :
    ∃ N, ∀ fuel, N ≤ fuel → ∀ l, ∃ es,
      Mir.eval w (t.program (tagId K.toTypedConfig)) capture (Mir.apply w (t.program (tagId K.toTypedConfig)) capture fuel) ρ
        ((reflectDebug (.variable x)).erase (tagId K.toTypedConfig)) l =
        .ok (.string (d.debug number X.originalName (fieldNames m.ctx))) (es ++ l) ∧
      ∀ o ∈ es, o.name ∈ [K.stringEqual, K.numberDebug] := by
  have hl := linked_of_compile hp hN hi hc ht
  obtain ⟨N, h⟩ := gives_debugCall (e := .variable x) hl hd (gives_local hx) (debug_ok (capture := capture) hl hw _ d (le_refl _) v hd)
  refine ⟨N, fun fuel hf l => ?_⟩
  obtain ⟨_, h1, es, rfl, h2⟩ := h fuel hf l
  exact ⟨es, h1, h2⟩

/-- C66: `debug(x)` in a compiled module prints the text of the value once. -/
theorem c66_print_partial (hp : compileModuleT K X a n m = some t) (hN : Nameable K X m) (hi : informationTypes a n m = some ts)
    (hc : NoCollisions K.toConfig ts) (ht : DistinctTags K.toTypedConfig ts) (hw : Native K same number w)
    (hprint : ∀ l s, w.foreign l "__debug" [.string s] = .none) {ρ : Env} {x : String}
    {v : Value} {d : Data} (hρ : ρ "__debug" = none) (hx : ρ x = some v)
    (hd : Tagged K.toTypedConfig m.ctx (ts.filter fun c => !X.externalType c) d v) :
    ∃ N, ∀ fuel, N ≤ fuel → ∀ l, ∃ es,
      Mir.eval w (t.program (tagId K.toTypedConfig)) capture (Mir.apply w (t.program (tagId K.toTypedConfig)) capture fuel) ρ
        ((debugBuiltIn (.variable x)).erase (tagId K.toTypedConfig)) l =
        .ok .none (⟨"__debug", [.string (d.debug number X.originalName (fieldNames m.ctx))], .none⟩ :: (es ++ l)) ∧
      ∀ o ∈ es, o.name ∈ [K.stringEqual, K.numberDebug] := by
  obtain ⟨N, h⟩ := c66_debug_partial (capture := capture) hp hN hi hc ht hw hx hd
  obtain ⟨P, rfl⟩ := compileModuleT_parts hp
  have : P.types = ts := by simpa [P.types_eq] using hi
  subst this
  obtain ⟨h1, h2⟩ := P.debugDeclared hN hc (tagId K.toTypedConfig)
  refine ⟨N + 1, fun fuel hf l => ?_⟩
  obtain ⟨es, h3, h4⟩ := h fuel (by omega) l
  refine ⟨es, ?_, h4⟩
  obtain ⟨k, rfl⟩ : ∃ k, fuel = k + 1 := ⟨fuel - 1, by omega⟩
  have hg : Mir.lookup (P.module.program (tagId K.toTypedConfig)) ρ "__debug" = some (.global "__debug") := by
    rw [Mir.lookup, hρ, Program.isGlobal, h2]
    rfl
  rw [reflectDebug] at h3
  rw [debugBuiltIn, erase_operationT]
  simp only [List.map_cons, List.map_nil, Mir.Exprs.ofList, TExpr.erase]
  rw [Mir.eval, Mir.evals, Mir.eval, hg]
  simp only [R.ofOption, R.bind, TOp.erase, Mir.Op.scalar, Bool.false_and, Bool.false_eq_true, if_false, Mir.evals, h3]
  rw [Mir.apply]
  simp only [h1, h2, if_true, Mir.callForeign, Mir.Value.obsList, Mir.Value.obs, hprint, R.ofOption, Mir.Obs.value]

end

/-! ## Values of a module -/

/-- Native code that prints numbers as one byte. -/
def reflectWorld : World where
  arithmetic _ a _ := a
  comparison _ a b := a == b
  foreign _ g vs :=
    match g, vs with
    | "equal", [.string s, .string t] => .boolean (s == t)
    | "number debug", [.number n] => .string [48 + n.toUInt8]
    | _, _ => .none

theorem reflectWorld_native : Native typedSampleConfig (· == ·) (fun n => [48 + n.toUInt8]) reflectWorld where
  comparison _ _ := rfl
  strings _ _ _ := rfl
  numbers _ _ := rfl

def distinctTags (K : TypedConfig) (ts : List Ty) : Bool := ts.all fun c => ts.all fun d => tagOf K c != tagOf K d || c == d

theorem distinctTags_spec {K : TypedConfig} {ts : List Ty} (h : distinctTags K ts = true) : DistinctTags K ts := by
  intro c hc d hd e
  simp only [distinctTags, List.all_eq_true] at h
  simpa [e] using h c hc d hd

/-- Types of `typedSampleModule`. -/
def reflectTypes : List Ty := (informationTypes 20 20 typedSampleModule).getD []

theorem reflectTypes_eq : informationTypes 20 20 typedSampleModule = some reflectTypes := by
  have h : (informationTypes 20 20 typedSampleModule).isSome = true := by decide +kernel
  obtain ⟨ts, h⟩ := Option.isSome_iff_exists.1 h
  rw [reflectTypes, h]
  rfl

theorem reflectTypes_tags : DistinctTags typedSampleConfig.toTypedConfig reflectTypes := distinctTags_spec (by decide +kernel)

/-- Types with type information in `typedSampleModule`. -/
abbrev reflectLocal : List Ty := reflectTypes.filter fun c => !typedSampleExtras.externalType c

theorem reflectLocal_mem : ∀ c ∈ [Ty.none, .boolean, .number, .string, .error, .record "r", .function [.number] .number], c ∈ reflectLocal := by
  decide +kernel

/-- `error(r{a: 5, b: s})`. -/
def reflectData (s : List UInt8) : Data := .error (.record "r" [.number 5, .string s])

/-- It is represented by a value. -/
theorem reflectData_tagged (s : List UInt8) : ∃ v, Tagged typedSampleConfig.toTypedConfig typedSampleModule.ctx reflectLocal (reflectData s) v := by
  have hr : typedSampleModule.ctx.records "r" = some [⟨"a", .number⟩, ⟨"b", .union .string .none⟩] := by decide +kernel
  have hb : Canon typedSampleModule.ctx.types (.union .string .none) (.union .none .string) :=
    canon_of_canonicalize (a := 20) (by decide +kernel)
  have hn : Canon typedSampleModule.ctx.types .number .number := canon_of_canonicalize (a := 20) (by decide +kernel)
  have hs : Tagged typedSampleConfig.toTypedConfig typedSampleModule.ctx reflectLocal (.string s) _ :=
    .plain (.string s) rfl (reflectLocal_mem _ (by simp [Data.type]))
  have hf := Fields.cons (f := ⟨"a", .number⟩) hn (.payload (by decide) rfl (reflectLocal_mem _ (by decide)) (.number 5))
    (.cons (f := ⟨"b", .union .string .none⟩) hb (.tagged (by decide) hs) .nil)
  exact ⟨_, .plain (.error (.plain (.record hr hf) rfl (reflectLocal_mem _ (by simp [Data.type])))) rfl (reflectLocal_mem _ (by simp [Data.type, reflectData]))⟩

theorem reflect_compiled : ∃ t, compileModuleT typedSampleConfig typedSampleExtras 20 20 typedSampleModule = some t :=
  Option.isSome_iff_exists.1 (by decide +kernel)

/-- Such values with different strings are different, in every compilation of the module. -/
example (s u : List UInt8) (hsu : s ≠ u) : ∃ t v v', compileModuleT typedSampleConfig typedSampleExtras 20 20 typedSampleModule = some t ∧
    Tagged typedSampleConfig.toTypedConfig typedSampleModule.ctx reflectLocal (reflectData s) v ∧
    Tagged typedSampleConfig.toTypedConfig typedSampleModule.ctx reflectLocal (reflectData u) v' ∧
    ∃ N, ∀ fuel, N ≤ fuel → ∀ l, ∃ es,
      Mir.eval reflectWorld (t.program (tagId typedSampleConfig.toTypedConfig)) Mir.captureAll
        (Mir.apply reflectWorld (t.program (tagId typedSampleConfig.toTypedConfig)) Mir.captureAll fuel)
        (Env.set (Env.set (fun _ => none) "x" v) "y" v')
        ((reflectEqual (.variable "x") (.variable "y")).erase (tagId typedSampleConfig.toTypedConfig)) l =
        .ok (.variant (tagId typedSampleConfig.toTypedConfig .boolean) (.boolean false)) (es ++ l) := by
  obtain ⟨t, ht⟩ := reflect_compiled
  obtain ⟨v, hv⟩ := reflectData_tagged s
  obtain ⟨v', hv'⟩ := reflectData_tagged u
  obtain ⟨N, h⟩ := c66_equal_partial (capture := Mir.captureAll) (ρ := Env.set (Env.set (fun _ => none) "x" v) "y" v') (x := "x") (y := "y")
    ht typedSample_nameable reflectTypes_eq (typedSample_collisionless 20 20 _ reflectTypes_eq) reflectTypes_tags reflectWorld_native
    (by simp [Env.set]) (by simp [Env.set]) hv hv'
  refine ⟨t, v, v', ht, hv, hv', N, fun fuel hf l => ?_⟩
  obtain ⟨es, h1, _⟩ := h fuel hf l
  refine ⟨es, h1.trans ?_⟩
  simp [reflectData, Data.equal, Data.equalAll, both, comparisonResult, hsu]

/-- What is printed for one. -/
example : (reflectData [120, 121]).debug (fun n => [48 + n.toUInt8]) typedSampleExtras.originalName (fieldNames typedSampleModule.ctx) =
    bytes "error(r{a: 5, b: \"xy\"})" := by decide +kernel

/-- Values with functions in the same place are not compared. -/
example : (Data.record "r" [.number 1, .function [] .none .none]).equal (· == ·) (.record "r" [.number 2, .function [] .none .none]) = none := by
  decide +kernel

/-! ## Texts are not unique -/

/-- C66: strings are printed as they are, so that different values have the same text. -/
theorem c66_debug_ambiguous : ∃ d e : Data, d.plain = true ∧ e.plain = true ∧ d.equal (· == ·) e = some false ∧
    ∀ number name, d.debug number name (fun _ => ["a", "b"]) = e.debug number name (fun _ => ["a", "b"]) := by
  refine ⟨.record "r" [.string (bytes "x\", b: \"y"), .string (bytes "z")], .record "r" [.string (bytes "x"), .string (bytes "y\", b: \"z")],
    by decide +kernel, by decide +kernel, by decide +kernel, fun number name => ?_⟩
  simp only [Data.debug, Data.debugAll, commaSeparated]
  have : ∀ xs ys zs : List UInt8, xs = ys → bytes (name "r" ++ "{") ++ xs ++ zs = bytes (name "r" ++ "{") ++ ys ++ zs := by
    intro xs ys zs h; rw [h]
  exact this _ _ _ (by decide +kernel)

/-! ## Arguments are evaluated twice -/

/-- A module that imports a function `g` without arguments. -/
def twiceSource : Module where
  types := ⟨[("list", []), ("map", [])], []⟩
  declarations := preludeFunctions typedSampleConfig ++ [("g", ([], .any))]
  definitions := []

/-- `g()`. -/
def twiceCall : TExpr := operationT (.call [] .variant) [.variable "g"]

/-- Native code where `g` gives `1` first, and `"a"` then. -/
def changingWorld : World where
  arithmetic _ a _ := a
  comparison _ a b := a == b
  foreign l g _ :=
    if g = "g" then
      if l.any (·.name == "g") then .variant (tagId typedSampleConfig.toTypedConfig .byteString) (.string [97])
      else .variant (tagId typedSampleConfig.toTypedConfig .number) (.number 1)
    else if g = "number debug" then .string [49] else .none

/-- Native code where `g` always gives `1`. -/
def constantWorld : World where
  arithmetic _ a _ := a
  comparison _ a b := a == b
  foreign _ g _ :=
    if g = "g" then .variant (tagId typedSampleConfig.toTypedConfig .number) (.number 1)
    else if g = "number debug" then .string [49] else .none

def twiceRun (w : World) (e : TExpr) : R Value :=
  match compileModuleT typedSampleConfig typedSampleExtras 20 20 twiceSource with
  | some t => Mir.eval w (t.program (tagId typedSampleConfig.toTypedConfig)) Mir.captureAll
      (Mir.apply w (t.program (tagId typedSampleConfig.toTypedConfig)) Mir.captureAll 9) (fun _ => none)
      (e.erase (tagId typedSampleConfig.toTypedConfig)) []
  | none => .timeout

/-- C66: the argument of `debug` is evaluated twice: `debug(g())` calls `g` two times; `_reflect_debug(g())` and `_reflect_equal(g(), none)`
do, too. -/
theorem c66_evaluates_twice : (compileModuleT typedSampleConfig typedSampleExtras 20 20 twiceSource).isSome = true ∧
    (∀ e ∈ [debugBuiltIn twiceCall, reflectDebug twiceCall, reflectEqual twiceCall noneT],
      ∃ v l, twiceRun constantWorld e = .ok v l ∧ (l.filter (·.name == "g")).length = 2) := by
  have key : ∀ e, (match twiceRun constantWorld e with
      | .ok _ l => (l.filter (·.name == "g")).length == 2
      | _ => false) = true → ∃ v l, twiceRun constantWorld e = .ok v l ∧ (l.filter (·.name == "g")).length = 2 := by
    intro e h
    split at h
    case h_1 v l hr => exact ⟨v, l, hr, by simpa using h⟩
    case h_2 => cases h
  refine ⟨by decide +kernel, fun e he => key e ?_⟩
  simp only [List.mem_cons, List.not_mem_nil, or_false] at he
  rcases he with rfl | rfl | rfl <;> decide +kernel

/-- C66: a function for one type is called with a value of another if the two evaluations differ; it has no alternative for the value. -/
theorem c66_goes_wrong : twiceRun changingWorld (debugBuiltIn twiceCall) = .stuck ∧ twiceRun changingWorld (reflectDebug twiceCall) = .stuck := by
  have key : ∀ e, (match twiceRun changingWorld e with
      | .stuck => true
      | _ => false) = true → twiceRun changingWorld e = .stuck := by
    intro e h
    split at h
    case h_1 hr => exact hr
    case h_2 => cases h
  exact ⟨key _ (by decide +kernel), key _ (by decide +kernel)⟩

end Verif.Lower
