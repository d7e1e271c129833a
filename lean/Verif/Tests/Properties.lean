import Verif.Tests.Run
import Verif.Front.Whole

/-!
# C69: test runs
-/

namespace Verif.Tests

open Verif Hir

section

variable {R : Front.Rounding} {d n : Nat} {preludes : List Names.Interface} {foreign : String → String}

/-! ## What compiled test modules are -/

theorem toHir_wrapModule (m : Names.Module) : (wrapModule foreign m).toHir =
    { m.toHir with definitions := m.toHir.definitions ++
        (testDefinitions m).map fun f => ⟨wrapperName f.name, [], .string, wrapperBody f.name⟩ } := by
  simp [Names.Module.toHir, wrapModule, wrapper, Function.comp_def]

theorem compileTestSource_facts {before : List Names.Interface} (hp : ∀ i ∈ preludes, Front.Good i)
    (hb : ∀ i ∈ before, Front.Good i) {path : String} {s : Front.Source} {c : CompiledTest}
    (h : compileTestSource R d n foreign path preludes before s = some c) :
    analyze n (wrapModule foreign c.resolved).toHir = .ok c.analyzed ∧
      c.information = testInformation foreign path c.resolved := by
  simp only [compileTestSource, Option.bind_eq_bind, Option.bind_eq_some_iff] at h
  obtain ⟨m, h1, b, h2, h3⟩ := h
  obtain ⟨is, h', h4, h5, h6⟩ := Front.compileTree_some h2
  have hw := Front.convertModule_written (Grammar.parse_made h1) h5
  have hg := Front.good_imports hp hb h4
  unfold compileTest at h3
  split at h3
  · rename_i r hr
    cases h3
    exact ⟨Names.analyze_hir_like (c := wrapModule foreign b) hw (fun i hi => (hg i hi).1) (fun i hi => (hg i hi).2) h6
      rfl rfl rfl hr, rfl⟩
  · cases h3

theorem compileSources_good (hp : ∀ i ∈ preludes, Front.Good i) : ∀ {ss : List Front.Source}
    {before : List Names.Interface} {cs : List Front.Compiled}, (∀ i ∈ before, Front.Good i) →
    Front.compileSources R d n preludes before ss = some cs → ∀ c ∈ cs, Front.Good (Names.interface c.resolved)
  | [], _, _, _, h => by cases h; simp
  | s :: ss, before, cs, hb, h => by
    simp only [Front.compileSources, Option.bind_eq_bind, Option.bind_eq_some_iff, Option.some.injEq] at h
    obtain ⟨c, h1, cs', h2, rfl⟩ := h
    obtain ⟨_, h4⟩ := Front.compileSource_known hp hb (List.prefix_refl _) h1
    have := compileSources_good hp (before := before ++ [Names.interface c.resolved])
      (by simpa [or_imp, forall_and] using ⟨hb, h4⟩) h2
    simpa [h4] using this

theorem compileTestSources_mem {before : List Names.Interface} : ∀ {ts : List (String × Front.Source)} {cs : List CompiledTest},
    compileTestSources R d n foreign preludes before ts = some cs → 
    List.Forall₂ (fun t c => compileTestSource R d n foreign t.1 preludes before t.2 = some c) ts cs
  | [], _, h => by cases h; exact .nil
  | (path, s) :: ts, _, h => by
    simp only [compileTestSources, Option.bind_eq_bind, Option.bind_eq_some_iff, Option.some.injEq] at h
    obtain ⟨c, h1, cs', h2, rfl⟩ := h
    exact .cons h1 (compileTestSources_mem h2)

theorem tame_wrapModule {m : Names.Module} (h : TameModule m.toHir) : TameModule (wrapModule foreign m).toHir := by
  rw [toHir_wrapModule]
  intro f hf
  rcases List.mem_append.mp hf with hf | hf
  · exact h f hf
  · obtain ⟨g, _, rfl⟩ := List.mem_map.mp hf
    refine .lambda (.ifTypeElse (.call (.var _) (by simp)) (by simp; exact .string _) ?_)
    refine .ifTypeElse (.builtInCall (by simp; exact .var _)) (by simp; exact .var _) (.string _)

/-- One test of a compiled module. -/
theorem test_ok {m : Names.Module} {m' : Hir.Module} (h : analyze n (wrapModule foreign m).toHir = .ok m')
    (ht : TameModule m.toHir) {W : World} (hw : WorldOk m' W) {f : Names.FunctionDefinition} (hf : f ∈ testDefinitions m) :
    (f.params = [] ∧ ∃ r, Canon m.toHir.ctx.types f.result r ∧ Canon m.toHir.ctx.types (.union .none .error) r) ∧
    ∀ a k log,
      (callFunction W m' (a + 1) k f.name [] log = .more ∧
        callFunction W m' (a + 1) (k + 1) (wrapperName f.name) [] log = .more) ∨
      ∃ v o log', callFunction W m' (a + 1) k f.name [] log = .val v log' ∧ Judged v o ∧
        callFunction W m' (a + 1) (k + 1) (wrapperName f.name) [] log = .val (.string o.message) log' := by
  have h1 : (⟨f.name, f.params, f.result, f.body⟩ : Definition) ∈ (wrapModule foreign m).toHir.definitions := by
    rw [toHir_wrapModule]
    refine List.mem_append_left _ (List.mem_map.mpr ⟨f, (List.mem_filter.mp hf).1, rfl⟩)
  have h2 : (⟨wrapperName f.name, [], .string, wrapperBody f.name⟩ : Definition) ∈
      (wrapModule foreign m).toHir.definitions := by
    rw [toHir_wrapModule]
    exact List.mem_append_right _ (List.mem_map.mpr ⟨f, hf, rfl⟩)
  have h3 := wrapper_ok h (tame_wrapModule ht) hw h1 h2
  have e : (wrapModule foreign m).toHir.ctx = m.toHir.ctx := by rw [toHir_wrapModule]; rfl
  rw [e] at h3
  exact h3

/-! ## The property -/

/-- **C69, tests are checked.** If a test module is accepted, then all its public functions take no arguments, and
their result types are equal to `none | error`. -/
theorem c69_accepted_tests (hp : ∀ i ∈ preludes, Front.Good i) {ss : List Front.Source} {ms : List Front.Compiled}
    (h : Front.compileSources R d n preludes [] ss = some ms) {path : String} {s : Front.Source} {c : CompiledTest}
    (hc : compileTestSource R d n foreign path preludes (ms.map fun m => Names.interface m.resolved) s = some c)
    {f : Names.FunctionDefinition} (hf : f ∈ c.resolved.definitions) (hpub : f.isPublic = true) :
    f.params = [] ∧ ∃ e, Expands c.resolved.toHir.ctx.types f.result e ∧ TyEq e (.union .none .error) := by
  have hg : ∀ i ∈ ms.map (fun m => Names.interface m.resolved), Front.Good i := by
    intro i hi
    obtain ⟨m, hm, rfl⟩ := List.mem_map.mp hi
    exact compileSources_good hp (by simp) h m hm
  have h0 := (compileTestSource_facts hp hg hc).1
  have hf' : f ∈ testDefinitions c.resolved := List.mem_filter.mpr ⟨hf, hpub⟩
  have h1 : (⟨f.name, f.params, f.result, f.body⟩ : Definition) ∈ (wrapModule foreign c.resolved).toHir.definitions := by
    rw [toHir_wrapModule]
    exact List.mem_append_left _ (List.mem_map.mpr ⟨f, hf, rfl⟩)
  have h2 : (⟨wrapperName f.name, [], .string, wrapperBody f.name⟩ : Definition) ∈
      (wrapModule foreign c.resolved).toHir.definitions := by
    rw [toHir_wrapModule]
    exact List.mem_append_right _ (List.mem_map.mpr ⟨f, hf', rfl⟩)
  have h3 := wrapped_type h0 h1 h2
  have e : (wrapModule foreign c.resolved).toHir.ctx = c.resolved.toHir.ctx := by rw [toHir_wrapModule]; rfl
  rw [e] at h3
  obtain ⟨h3, r, ⟨e1, g1, g2⟩, h5⟩ := h3
  refine ⟨h3, e1, g1, ?_⟩
  have h6 : Canon c.resolved.toHir.ctx.types (.union .none .error) (norm (.union .none .error)) :=
    ⟨_, .union .none .error, rfl⟩
  rw [tyEq_iff_norm, ← g2]
  exact h5.det h6

/-- **C69, reports.** Take a program and test modules with distinct paths that are accepted, and whose test
functions are exported under distinct symbols. Their public functions are called without arguments one after
the other, in the order of the paths of the modules and then in the order they are written in, and each of
them results in `none` or an error. If one of them does not end, neither does the run. Otherwise the report is
about all verdicts, and the exit code is 0 exactly if all results are `none`. (Missing: errors whose source
is the empty string, for which this is wrong, see `c69_empty_error_passes`, and what `TameModule` excludes.) -/
theorem c69_reports_partial (hp : ∀ i ∈ preludes, Front.Good i) {ss : List Front.Source} {ms : List Front.Compiled}
    (h : Front.compileSources R d n preludes [] ss = some ms) {ts : List (String × Front.Source)} {cs : List CompiledTest}
    (hc : compileTestSources R d n foreign preludes (ms.map fun m => Names.interface m.resolved) ts = some cs)
    (hpath : (ts.map (·.1)).Nodup) (hsym : (cs.flatMap fun c => c.tests.map foreign).Nodup)
    (htame : ∀ c ∈ cs, TameModule c.resolved.toHir) {W : World} (hw : ∀ c ∈ cs, WorldOk c.analyzed W) :
    ∃ cs' : List CompiledTest, cs'.Perm cs ∧ (cs'.map (·.information.path)).Pairwise (· < ·) ∧ ∀ a k log,
      (runTests W (a + 1) (k + 1) foreign cs log = .more ∧ ¬ ∃ oss log', Ran W (a + 1) k cs' log oss log') ∨
      ∃ oss log', Ran W (a + 1) k cs' log oss log' ∧ (∃ r, runTests W (a + 1) (k + 1) foreign cs log = .val r log') ∧
        ((∀ os ∈ oss, ∀ o ∈ os, o ≠ .failed []) →
          runTests W (a + 1) (k + 1) foreign cs log = .val (report cs' oss) log') := by
  have hg : ∀ i ∈ ms.map (fun m => Names.interface m.resolved), Front.Good i := by
    intro i hi
    obtain ⟨m, hm, rfl⟩ := List.mem_map.mp hi
    exact compileSources_good hp (by simp) h m hm
  have hts := compileTestSources_mem hc
  have hpaths : ts.map (·.1) = cs.map (·.information.path) := by
    clear hpath hsym htame hw hc
    induction hts with
    | nil => rfl
    | cons h1 _ ih =>
      rw [List.map_cons, List.map_cons, ih, (compileTestSource_facts hp hg h1).2]
      rfl
  rw [hpaths] at hpath
  obtain ⟨cs', h1, h2, h3⟩ := packageInformation_ok cs hpath
  refine ⟨cs', h1, h2, fun a k log => ?_⟩
  have hlink : ∀ c ∈ cs', LinkedModule W (a + 1) k (symbols W (a + 1) (k + 1) foreign cs) c := by
    intro c hc'
    have hc' := h1.mem_iff.mp hc'
    obtain ⟨t, _, ht⟩ := Front.forall₂_right hts c hc'
    obtain ⟨g1, g2⟩ := compileTestSource_facts hp hg ht
    constructor
    · rw [g2]
      show List.Forall₂ _ ((testDefinitions c.resolved).map (·.name))
        ((testDefinitions c.resolved).map fun f => (⟨f.original, foreign f.name⟩ : TestFunction))
      rw [List.forall₂_map_left_iff, List.forall₂_map_right_iff, List.forall₂_same]
      intro f hf log
      rw [symbols_ok hsym c hc' f hf]
      exact (test_ok g1 (htame c hc') (hw c hc') hf).2 a k log
    · rw [g2]
      simp [testInformation, CompiledTest.titles, testDefinitions, Function.comp_def]
  have hrun : ∀ log, runTests W (a + 1) (k + 1) foreign cs log =
      Out.bind (runModules (symbols W (a + 1) (k + 1) foreign cs) (cs'.map (·.information)) ⟨[], 0, 0⟩)
        (fun p => .val ⟨p.lines ++ [.summary (p.error == 0) p.success p.error], if p.error > 0 then 1 else 0⟩) log := by
    intro log
    rw [h3]
    rfl
  rw [hrun]
  rcases runModules_ok hlink ⟨[], 0, 0⟩ log with ⟨g1, g2⟩ | ⟨oss, log', g1, ⟨q, g2⟩, g3⟩
  · exact Or.inl ⟨by rw [Out.bind, g1], g2⟩
  · refine Or.inr ⟨oss, log', g1, ⟨_, by rw [Out.bind, g2]; rfl⟩, fun ho => ?_⟩
    rw [Out.bind, g3 ho]
    have e1 : (oss.flatten.countP (fun o => !o.ok) == 0) = oss.flatten.all (·.ok) := by
      rw [Bool.eq_iff_iff]
      simp only [beq_iff_eq, List.countP_eq_zero, Bool.not_eq_true', Bool.not_eq_false, List.all_eq_true]
    simp only [report, Out.val, Nat.zero_add, List.nil_append, e1, Result.val.injEq, and_true]
    have e2 : (oss.flatten.countP (fun o => !o.ok) > 0) ↔ ¬ oss.flatten.all (·.ok) = true := by
      rw [← e1]
      simp [Nat.pos_iff_ne_zero]
    by_cases hall : oss.flatten.all (·.ok) = true
    · rw [if_neg (by rw [e2]; simp [hall]), if_pos hall]
    · rw [if_pos (e2.mpr hall), if_neg hall]

end

end Verif.Tests
