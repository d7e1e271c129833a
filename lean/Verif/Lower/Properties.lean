import Verif.Lower.Worlds
import Verif.Lower.FrontEnd
import Verif.Hir.SoundnessProperties
import Verif.Mir.WholeProperties

/-!
# C51: lowering preserves behaviour

The MIR program that a HIR module compiles to does what the module does: calls of its functions give the values that
represent those of the source, after the same calls of other modules and of the system, or diverge if those do.
`Rel`, `LogRel` and `Agree` (`Relation.lean`) say what the same means; `Hir.callFunction` and `Mir.apply` are the meanings
of the two languages.
-/

namespace Verif.Lower

open Verif.Hir (Ty Ctx Expr Module Definition RecordField Val Out)
open Verif

variable {K : Config} {a d : Nat} {S : List Ty} {m : Module} {W : Hir.World} {w : Mir.World} {p : Mir.Program}

/-! ## The property -/

theorem callFunction_sim (hm : PlainModule K a d S m) (hp : compileModule K a d m = some p) (hw : Agree K a S m W w)
    {x : String} (hx : x ∈ m.definitions.map (·.name)) {vs : List Val} {us : List Mir.Value}
    (hvs : List.Forall₂ (Rel K a S m) vs us) (q : Bool) (n : Nat) :
    ResRel K a S m q (Rel K a S m) (Hir.callFunction W m a n x vs []) (Mir.apply w p Mir.captureAll (fuel q n) (.global x) us []) := by
  have hc := compiled_of_module hp
  obtain ⟨f, hf⟩ : ∃ f, Hir.lastLookup (m.definitions.map fun f => (f.name, f)) x = some f := by
    rw [lastLookup_find hm.nodup, ← Option.isSome_iff_exists, List.find?_isSome]
    obtain ⟨f, h1, h2⟩ := List.mem_map.mp hx
    exact ⟨f, h1, by simpa using h2⟩
  have h1 := callSim hm hc hw (q := q) n _ _ vs us (.definition hf) hvs [] [] .nil
  have h2 : Hir.callFunction W m a n x vs =
      (Hir.evaluator W m a n).apply (.closure (fun _ => none) (f.params.map (·.1)) f.body) vs := by
    unfold Hir.callFunction Hir.lookup
    simp only [hf]
    rfl
  rw [h2]
  exact h1

/-- Calls with results. -/
theorem c51_values_partial (hm : PlainModule K a d S m) (hp : compileModule K a d m = some p) (hw : Agree K a S m W w)
    {x : String} (hx : x ∈ m.definitions.map (·.name)) {vs : List Val} {us : List Mir.Value}
    (hvs : List.Forall₂ (Rel K a S m) vs us) {n : Nat} {v : Val} {log : Hir.Log}
    (h : Hir.callFunction W m a n x vs [] = .val v log) :
    ∃ u log', Mir.apply w p Mir.captureAll (n + 1) (.global x) us [] = .ok u log' ∧ Rel K a S m v u ∧ LogRel K a S m log log' := by
  have h1 := callFunction_sim hm hp hw hx hvs true n
  rw [h] at h1
  change ResRel K a S m true _ _ (Mir.apply w p Mir.captureAll (n + 1) (.global x) us []) at h1
  cases h2 : Mir.apply w p Mir.captureAll (n + 1) (.global x) us [] with
  | ok u log' => rw [h2] at h1; exact ⟨u, log', rfl, h1⟩
  | ret _ _ => rw [h2] at h1; exact h1.elim
  | timeout => rw [h2] at h1; cases h1
  | stuck => rw [h2] at h1; exact h1.elim

/-- Calls that diverge. -/
theorem c51_divergence_partial (hm : PlainModule K a d S m) (hp : compileModule K a d m = some p) (hw : Agree K a S m W w)
    {x : String} (hx : x ∈ m.definitions.map (·.name)) {vs : List Val} {us : List Mir.Value}
    (hvs : List.Forall₂ (Rel K a S m) vs us) (h : ∀ n, Hir.callFunction W m a n x vs [] = .more) (n : Nat) :
    Mir.apply w p Mir.captureAll n (.global x) us [] = .timeout := by
  have h1 := callFunction_sim hm hp hw hx hvs false n
  rw [h n] at h1
  change ResRel K a S m false _ _ (Mir.apply w p Mir.captureAll n (.global x) us []) at h1
  cases h2 : Mir.apply w p Mir.captureAll n (.global x) us [] with
  | timeout => rfl
  | _ => rw [h2] at h1; cases h1

/-! ## With the analysis and the middle end -/

/-- Programs that the analysis accepts do not go wrong after lowering either: a call with arguments of the declared types
results in a value of the declared type, however the system behaves. -/
theorem c51_accepted_programs_partial {b : Nat} {m₀ : Module} (ha : Hir.analyze b m₀ = .ok m) (ht : Hir.TameModule m₀)
    (hm : PlainModule K a d S m) (hp : compileModule K a d m = some p) (hw : System K a S m W w)
    {f : Definition} (hf : f ∈ m₀.definitions) {as : List Ty} {c : Ty}
    (hc : Hir.Canon m₀.ctx.types (Hir.lambdaType f.params f.result) (.function as c)) {vs : List Val}
    (hv : List.Forall₂ (Hir.HasType m) vs as) {us : List Mir.Value} (hvs : List.Forall₂ (Rel K a S m) vs us) (n : Nat) :
    Mir.apply w p Mir.captureAll n (.global f.name) us [] = .timeout ∨
    ∃ u log v, Mir.apply w p Mir.captureAll n (.global f.name) us [] = .ok u log ∧ Rel K a S m v u ∧ Hir.Represents m₀.ctx v c := by
  obtain ⟨call, hw1, hw2⟩ := hw.world
  have hx : f.name ∈ m.definitions.map (·.name) := by
    have h1 := congrArg (List.map (·.1)) (Hir.analyzed ha).signatures
    simp only [List.map_map] at h1
    rw [show m.definitions.map (·.name) = m₀.definitions.map (·.name) from h1]
    exact List.mem_map.mpr ⟨f, hf, rfl⟩
  have h1 := callFunction_sim hm hp hw1 hx hvs false n
  change ResRel K a S m false _ _ (Mir.apply w p Mir.captureAll n (.global f.name) us []) at h1
  rcases Hir.c47_accepted_programs_do_not_go_wrong_partial ha ht hw2 hf hc hv a n [] with h2 | ⟨v, log, h2, _, h3⟩
  · rw [h2] at h1
    cases h4 : Mir.apply w p Mir.captureAll n (.global f.name) us [] with
    | timeout => exact Or.inl rfl
    | _ => rw [h4] at h1; cases h1
  · rw [h2] at h1
    cases h4 : Mir.apply w p Mir.captureAll n (.global f.name) us [] with
    | timeout => exact Or.inl rfl
    | ok u log' => rw [h4] at h1; exact Or.inr ⟨u, log', v, rfl, h1.1, h3⟩
    | ret _ _ => rw [h4] at h1; exact h1.elim
    | stuck => rw [h4] at h1; exact h1.elim

/-- The whole compiler from the analyzed module to reference counted code: a call of a function of the module with data
from native code gives, on a heap, the representation of what it gives in the source language, after the same calls. -/
theorem c51_whole_compiler_partial {d' : Nat} {r : Mir.Program} (hm : PlainModule K a d S m) (ht : TidyModule K d' m)
    (hp : compileModule K a d m = some p) (hw : Agree K a S m W w) (hr : Mir.middleEnd p = some r)
    {x : String} (hx : x ∈ m.definitions.map (·.name)) {vs : List Val} {os : List Mir.Obs} {us : List Mir.Value}
    (hos : Mir.Obs.valueList os = some us) (hvs : List.Forall₂ (Rel K a S m) vs us) {n : Nat} {v : Val} {log : Hir.Log}
    (h : Hir.callFunction W m a n x vs [] = .val v log) :
    ∃ o log', (r.hrun w (n + 1) x os).outcome = some (.value o log') ∧ ObsRel K a S m v o ∧ LogRel K a S m log log' := by
  obtain ⟨u, log', h1, h2, h3⟩ := c51_values_partial hm hp hw hx hvs h
  have h4 : p.run w Mir.captureAll (n + 1) x os = .ok u log' := by
    unfold Mir.Program.run
    simp only [hos, h1]
  refine ⟨u.obs, log', ?_, ⟨u, h2, rfl⟩, h3⟩
  rw [Mir.c50_behaviour_partial p r (compile_frontEnd ht hp) hr w (n + 1) x os (by rw [h4]; simp), h4]
  rfl

/-- A module that the analysis accepts and that is lowered goes through the middle end, and a call of one of its functions
with data of the declared types never goes wrong on a heap, however the system behaves: it never uses freed memory, results
in data of the declared type if it ends, and leaves no memory but that of the result. -/
theorem c51_accepted_programs_run_partial {b d' : Nat} {m₀ : Module} (ha : Hir.analyze b m₀ = .ok m) (hta : Hir.TameModule m₀)
    (hm : PlainModule K a d S m) (hti : TidyModule K d' m) (hp : compileModule K a d m = some p) :
    ∃ r, Mir.middleEnd p = some r ∧ ∀ {W : Hir.World} {w : Mir.World}, System K a S m W w →
      ∀ {f : Definition}, f ∈ m₀.definitions → ∀ {as : List Ty} {c : Ty},
      Hir.Canon m₀.ctx.types (Hir.lambdaType f.params f.result) (.function as c) →
      ∀ {vs : List Val}, List.Forall₂ (Hir.HasType m) vs as → ∀ {os : List Mir.Obs} {us : List Mir.Value},
      Mir.Obs.valueList os = some us → List.Forall₂ (Rel K a S m) vs us → ∀ n : Nat,
      ((r.hrun w n f.name os).outcome = some .timeout ∨
        ∃ o log v, (r.hrun w n f.name os).outcome = some (.value o log) ∧ ObsRel K a S m v o ∧ Hir.Represents m₀.ctx v c) ∧
      r.hrun w n f.name os ≠ .fault ∧
      ∀ v heap log, r.hrun w n f.name os = .ok v heap log → ∃ heap', heap.release v.addrs = some heap' ∧ heap'.live = 0 := by
  have hfe := compile_frontEnd hti hp
  obtain ⟨r, hr⟩ := Mir.c50_accepts_partial p hfe
  refine ⟨r, hr, fun {W w} hw {f} hf {as c} hc {vs} hv {os us} hos hvs n => ⟨?_, Mir.c50_memory_partial p r hfe hr w n f.name os⟩⟩
  have h1 : p.run w Mir.captureAll n f.name os = Mir.apply w p Mir.captureAll n (.global f.name) us [] := by
    unfold Mir.Program.run
    simp only [hos]
  rcases c51_accepted_programs_partial ha hta hm hp hw hf hc hv hvs n with h2 | ⟨u, log, v, h2, h3, h4⟩
  · refine Or.inl ?_
    rw [Mir.c50_behaviour_partial p r hfe hr w n f.name os (by rw [h1, h2]; simp), h1, h2]
    rfl
  · refine Or.inr ⟨u.obs, log, v, ?_, ⟨u, h3, rfl⟩, h4⟩
    rw [Mir.c50_behaviour_partial p r hfe hr w n f.name os (by rw [h1, h2]; simp), h1, h2]
    rfl

/-! ## Examples -/

/-- Type ids are not hashed here. -/
def sampleConfig : Config := ⟨id, "equal"⟩

/-- ```
type r {a number, b string}

f = \(x number | error, s string) number | error {
  y = x?
  z = r{b: s, a: g(y)}
  k = \(n number) number { n + z.a }

  if s == "a" { k(1) } else { r{...z, a: 2}.a + h(k) }
}

h = \(k \(number) number) number {
  k(3)
}
```
with an imported function `g`. -/
def sampleSource : Module where
  types := ⟨[("r", [⟨"a", .number⟩, ⟨"b", .string⟩])], []⟩
  declarations := [("equal", ([.string, .string], .boolean)), ("g", ([.number], .number))]
  definitions := [⟨"f", [("x", .union .number .error), ("s", .string)], .union .number .error,
    .let_ (some "y") none (.try_ none (.variable "x"))
      (.let_ (some "z") none (.record (.reference "r") [("b", .variable "s"), ("a", .call none (.variable "g") [.variable "y"])])
        (.let_ (some "k") none (.lambda [("n", .number)] .number
            (.addition none (.variable "n") (.deconstruct none (.variable "z") "a")))
          (.if_ (.equality none .equal (.variable "s") (.string [97]))
            (.call none (.variable "k") [.number 1])
            (.addition none (.deconstruct none (.update (.reference "r") (.variable "z") [("a", .number 2)]) "a")
              (.call none (.variable "h") [.variable "k"])))))⟩,
    ⟨"h", [("k", .function [.number] .number)], .number, .call none (.variable "k") [.number 3]⟩]

/-- The analyzed module. -/
def sampleModule : Module :=
  match Hir.analyze 20 sampleSource with
  | .ok m => m
  | _ => ⟨⟨[], []⟩, [], []⟩

/-- The lowered module. -/
def sampleLowered : Option Mir.Program := compileModule sampleConfig 20 20 sampleModule

example : sampleLowered.isSome = true := by decide +kernel

theorem sampleModule_records : sampleModule.types.records = [("r", [⟨"a", .number⟩, ⟨"b", .string⟩])] := by decide +kernel

theorem sample_plain : PlainModule sampleConfig 20 20 [.number, .error] sampleModule where
  nodup := by decide +kernel
  names := by decide +kernel
  params := by decide +kernel
  bodies := by decide +kernel
  stringEqual := by decide +kernel
  proper := by decide
  fields := by
    intro n ts h
    simp only [Module.ctx, Hir.collectRecords, sampleModule_records, Hir.lastLookup, List.reverse_cons, List.reverse_nil,
      List.nil_append, List.find?_cons, List.find?_nil] at h
    split at h
    · simp only [Option.map_some, Option.some.injEq] at h
      subst h
      decide
    · cases h
  tags := by
    intro t ht
    simp only [List.mem_cons, List.not_mem_nil, or_false] at ht
    rcases ht with rfl | rfl <;> simp
  ids := by decide +kernel

theorem sample_tidy : TidyModule sampleConfig 20 sampleModule where
  stringEqual := by decide +kernel
  params := by decide +kernel
  bodies := by decide +kernel
  globals := by
    have : ∀ x ∈ globalNames sampleModule, ':' ∉ x.toList := by decide +kernel
    exact fun x hx => ⟨Mir.plain_of_no_colon (this x hx), Mir.sourceName_of_no_colon (this x hx)⟩

theorem sampleSource_tame : Hir.TameModule sampleSource := by
  intro d hd
  simp only [sampleSource, List.mem_cons, List.not_mem_nil, or_false] at hd
  rcases hd with rfl | rfl
  · refine .lambdaTry ?_ ?_
    · intro h
      have h2 : Hir.Canon sampleSource.ctx.types (.union .number .error) (.union .error .number) :=
        ⟨.union .number .error, .union .number .error, by decide⟩
      have := h.det h2
      cases this
    · refine .let_ (.try_ (.var _)) (.let_ (.record ?_) (.let_ (.lambda (.addition (.var _) (.deconstruct (.var _))))
        (.if_ (.equality (.var _) (.string _)) (.call (.var _) ?_) (.addition (.deconstruct (.update (.var _) ?_))
          (.call (.var _) ?_)))))
      all_goals intro f hf; simp only [List.mem_cons, List.not_mem_nil, or_false] at hf
      · rcases hf with rfl | rfl
        · exact .var _
        · refine .call (.var _) ?_
          intro f hf; simp only [List.mem_cons, List.not_mem_nil, or_false] at hf
          subst hf; exact .var _
      · subst hf; exact .number _
      · subst hf; exact .number _
      · subst hf; exact .var _
  · refine .lambda (.call (.var _) ?_)
    intro f hf; simp only [List.mem_cons, List.not_mem_nil, or_false] at hf
    subst hf; exact .number _

/-- `equal` compares strings, and `g` counts the calls so far. -/
def sampleSystem : Mir.World where
  arithmetic
    | .add, i, j => i + j
    | .subtract, i, j => i - j
    | .multiply, i, j => i * j
    | .divide, i, j => i / j
  comparison
    | .equal, i, j => i == j
    | .notEqual, i, j => i != j
    | .lessThan, i, j => decide (i < j)
    | .lessThanOrEqual, i, j => decide (i ≤ j)
    | .greaterThan, i, j => decide (j < i)
    | .greaterThanOrEqual, i, j => decide (j ≤ i)
  foreign log x args :=
    if x = "equal" then
      match args with
      | [.string s, .string t] => .boolean (s == t)
      | _ => .boolean false
    else .number (log.filter fun e => e.name != "equal").length.toUInt64

def sampleWorld : Hir.World where
  arithmetic
    | .subtract, i, j => i - j
    | .multiply, i, j => i * j
    | .divide, i, j => i / j
  add i j := i + j
  compare
    | .lessThan, i, j => decide (i < j)
    | .lessThanOrEqual, i, j => decide (i ≤ j)
    | .greaterThan, i, j => decide (j < i)
    | .greaterThanOrEqual, i, j => decide (j ≤ i)
  equalNumbers i j := i == j
  equal _ _ := false
  reflectEqual _ _ := none
  debug _ := []
  count n := n.toUInt64
  pick _ _ := 0
  call log _ _ := .number log.length.toUInt64

theorem sampleModule_declarations : sampleModule.declarations = sampleSource.declarations := by decide +kernel

theorem sample_system : System sampleConfig 20 [.number, .error] sampleModule sampleWorld sampleSystem where
  add _ _ := rfl
  arithmetic _ _ := ⟨rfl, rfl, rfl⟩
  compare _ _ := ⟨rfl, rfl, rfl, rfl⟩
  equalNumbers _ _ := rfl
  stringEqual _ _ _ := rfl
  silent l l' x os hx h := by
    have hx' : x ≠ "equal" := hx
    simp only [sampleSystem]
    rw [if_neg hx', if_neg hx']
    change l.filter (fun e => e.name != "equal") = l'.filter (fun e => e.name != "equal") at h
    rw [h]
  results x hx l os := by
    rw [sampleModule_declarations] at hx ⊢
    simp only [sampleSource, List.map_cons, List.map_nil, List.mem_cons, List.not_mem_nil, or_false] at hx
    rcases hx with rfl | rfl
    · obtain ⟨b, hb⟩ : ∃ b, sampleSystem.foreign l "equal" os = .boolean b := by
        simp only [sampleSystem, if_true]
        split <;> exact ⟨_, rfl⟩
      refine ⟨.boolean b, .boolean b, by rw [hb]; rfl, .boolean b, fun d as c hd hc => ?_⟩
      have hd' : d = ([.string, .string], .boolean) := (Option.some.inj (hd.symm.trans (by decide)))
      subst hd'
      have := hc.det (Hir.Canon.function (.cons Hir.canon_string (.cons Hir.canon_string .nil)) Hir.canon_boolean)
      cases this
      exact .boolean b
    · refine ⟨.number _, .number _, rfl, .number _, fun d as c hd hc => ?_⟩
      have hd' : d = ([.number], .number) := (Option.some.inj (hd.symm.trans (by decide)))
      subst hd'
      have := hc.det (Hir.Canon.function (.cons Hir.canon_number .nil) Hir.canon_number)
      cases this
      exact .number _

theorem sample_analyzed : Hir.analyze 20 sampleSource = .ok sampleModule := by
  have hok : (match Hir.analyze 20 sampleSource with | .ok _ => true | _ => false) = true := by decide +kernel
  unfold sampleModule
  cases h : Hir.analyze 20 sampleSource with
  | ok m => rfl
  | err e => rw [h] at hok; cases hok
  | more => rw [h] at hok; cases hok

/-- Every call `f(x, s)` with a number in the compiled program does well. -/
example (i : UInt64) (s : List UInt8) : ∃ p r, compileModule sampleConfig 20 20 sampleModule = some p ∧
    Mir.middleEnd p = some r ∧ ∀ n,
      ((r.hrun sampleSystem n "f" [.variant "number" (.number i), .string s]).outcome = some .timeout ∨
        ∃ o log v, (r.hrun sampleSystem n "f" [.variant "number" (.number i), .string s]).outcome = some (.value o log) ∧
          ObsRel sampleConfig 20 [.number, .error] sampleModule v o ∧
          Hir.Represents sampleSource.ctx v (.union .error .number)) := by
  obtain ⟨p, hp⟩ := Option.isSome_iff_exists.mp (show (compileModule sampleConfig 20 20 sampleModule).isSome = true by decide +kernel)
  obtain ⟨r, hr, h⟩ := c51_accepted_programs_run_partial sample_analyzed sampleSource_tame sample_plain sample_tidy hp
  refine ⟨p, r, hp, hr, fun n => ?_⟩
  have herr : Hir.Canon sampleSource.ctx.types (.union .number .error) (.union .error .number) :=
    ⟨.union .number .error, .union .number .error, by decide⟩
  exact (h sample_system (f := sampleSource.definitions[0]) (by simp [sampleSource]) (as := [.union .error .number, .string])
    (Hir.Canon.function (.cons herr (.cons Hir.canon_string .nil)) herr)
    (vs := [.variant .number (.number i), .string s])
    (.cons (Hir.Plain.union (by decide) (by decide) (.number i)).hasType (.cons (.string s) .nil))
    (us := [.variant "number" (.number i), .string s]) rfl
    (.cons (.variant (by simp) (.number i)) (.cons (.string s) .nil)) n).1

/-- `f(4, "b")` is `2 + (3 + 0)`: `g` is the first function called. -/
example : Hir.isNumberVariant 5 (Hir.analyzeAndCall 20 sampleSource sampleWorld "f"
    [.variant .number (.number 4), .string [98]]) = true := by decide +kernel

/-- `f(4, "a")` is `1 + 0`. -/
example : Hir.isNumberVariant 1 (Hir.analyzeAndCall 20 sampleSource sampleWorld "f"
    [.variant .number (.number 4), .string [97]]) = true := by decide +kernel

theorem sample_agree : Agree sampleConfig 20 [.number, .error] sampleModule sampleWorld sampleSystem where
  add _ _ := rfl
  arithmetic _ _ := ⟨rfl, rfl, rfl⟩
  compare _ _ := ⟨rfl, rfl, rfl, rfl⟩
  equalNumbers _ _ := rfl
  stringEqual _ _ _ := rfl
  foreign x _ hne l l' vs us hl _ := by
    have hne' : x ≠ "equal" := hne
    refine ⟨.number l.length.toUInt64, ?_, .number _⟩
    simp only [sampleSystem]
    rw [if_neg hne', hl.length_eq]
    rfl

/-- The compiled program gives the result of the source program. -/
example : ∃ p v log u log', compileModule sampleConfig 20 20 sampleModule = some p ∧
    Hir.callFunction sampleWorld sampleModule 20 20 "f" [.variant .number (.number 4), .string [98]] [] = .val v log ∧
    Mir.apply sampleSystem p Mir.captureAll 21 (.global "f") [.variant "number" (.number 4), .string [98]] [] = .ok u log' ∧
    Rel sampleConfig 20 [.number, .error] sampleModule v u ∧ LogRel sampleConfig 20 [.number, .error] sampleModule log log' := by
  obtain ⟨p, hp⟩ := Option.isSome_iff_exists.mp (show (compileModule sampleConfig 20 20 sampleModule).isSome = true by decide +kernel)
  have h1 : (match Hir.callFunction sampleWorld sampleModule 20 20 "f" [.variant .number (.number 4), .string [98]] [] with
    | .val _ _ => true | _ => false) = true := by decide +kernel
  cases h : Hir.callFunction sampleWorld sampleModule 20 20 "f" [.variant .number (.number 4), .string [98]] [] with
  | val v log =>
    obtain ⟨u, log', h2, h3, h4⟩ := c51_values_partial sample_plain hp sample_agree (by decide +kernel)
      (us := [.variant "number" (.number 4), .string [98]])
      (.cons (.variant (by simp) (.number 4)) (.cons (.string [98]) .nil)) h
    exact ⟨p, v, log, u, log', hp, rfl, h2, h3, h4⟩
  | _ => rw [h] at h1; cases h1

end Verif.Lower
