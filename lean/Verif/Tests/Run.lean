import Verif.Tests.Evaluation
import Verif.Tests.Specification

/-! # Runs of tests -/

namespace Verif.Tests

open Verif Hir Res

/-! ## One test -/

/-- The message a verdict is reported with. -/
def Verdict.message : Verdict → List UInt8
  | .passed => []
  | .failed s => s

theorem wrapResult_judged {v : Val} {o : Verdict} (h : Judged v o) (log : Log) :
    wrapResult (.val v log) = .val (.string o.message) log := by
  cases h with
  | passed => rfl
  | failed s => rfl
  | other ht => simp [wrapResult, ht, Verdict.message]

/-- Values of the type `none | error` have a verdict. -/
theorem judged_of_represents {C : Ctx} {v : Val} {c : Ty} (hc : Canon C.types (.union .none .error) c)
    (h : Represents C v c) : ∃ o, Judged v o := by
  obtain ⟨j, g1, _, _, g4, g5⟩ := (canon_none (A := C.types)).union (canon_error (A := C.types))
  have hj : j ≠ .any := fun h => by rcases g4 h with h | h <;> cases h
  have : c = j := hc.det g1
  subst this
  have hmem : ∀ x, x ∈ unionMembers c ↔ x = .none ∨ x = .error := fun x => by rw [g5 hj]; simp [unionMembers]
  have hu : ∃ l r, c = .union l r := by
    have h1 := (hmem .none).mpr (Or.inl rfl)
    have h2 := (hmem .error).mpr (Or.inr rfl)
    cases c with
    | union l r => exact ⟨l, r, rfl⟩
    | none => simp [unionMembers] at h2
    | _ => simp [unionMembers] at h1
  obtain ⟨l, r, rfl⟩ := hu
  cases h with
  | union h =>
    cases h with
    | mk h1 h2 h3 h4 =>
      have h1 := h1.resolve_left (by simp)
      rcases (hmem _).mp h1 with rfl | rfl
      · cases h4
        exact ⟨_, .passed⟩
      · cases h4 with
        | error h4 =>
          cases h4 with
          | any h4 =>
            cases h4 with
            | @mk tag w _ _ h6 h7 h8 =>
              by_cases ht : tag = .string
              · subst ht
                cases h8
                exact ⟨_, .failed _⟩
              · exact ⟨_, .other ht⟩

theorem Canon.function_params {A : Aliases} {ps : List (String × Ty)} {t r : Ty}
    (h : Canon A (lambdaType ps t) (.function [] r)) : ps = [] ∧ Canon A t r := by
  obtain ⟨as, c, h1, h2, h3⟩ := canon_function_inv h
  simp only [Ty.function.injEq] at h1
  obtain ⟨rfl, rfl⟩ := h1
  cases ps with
  | nil => exact ⟨rfl, h3⟩
  | cons p ps => cases h2

/-- Test functions take no arguments and result in `none | error`. -/
theorem wrapped_type {n : Nat} {m m' : Hir.Module} (h : analyze n m = .ok m') {f : Definition} (hf : f ∈ m.definitions)
    {x : String} (hx : ⟨x, [], .string, wrapperBody f.name⟩ ∈ m.definitions) :
    f.params = [] ∧ ∃ r, Canon m.ctx.types f.result r ∧ Canon m.ctx.types (.union .none .error) r := by
  have A := analyzed h
  have hvf := vars_definition h hf
  obtain ⟨d', hd', hd⟩ := forall₂_mem_left A.definitions hx
  obtain ⟨r, h1, h2, rfl⟩ := wrapper_analyzed hvf hd
  obtain ⟨h3, h4⟩ := Canon.function_params h1
  exact ⟨h3, r, h4, h2⟩

/-- **One test.** A test function takes no arguments and results in `none | error`, and its wrapper calls it
once and results in its message. -/
theorem wrapper_ok {n : Nat} {m m' : Hir.Module} (h : analyze n m = .ok m') (ht : TameModule m) {W : World}
    (hw : WorldOk m' W) {f : Definition} (hf : f ∈ m.definitions) {x : String}
    (hx : ⟨x, [], .string, wrapperBody f.name⟩ ∈ m.definitions) :
    (f.params = [] ∧ ∃ r, Canon m.ctx.types f.result r ∧ Canon m.ctx.types (.union .none .error) r) ∧
    ∀ a k log,
      (callFunction W m' (a + 1) k f.name [] log = .more ∧ callFunction W m' (a + 1) (k + 1) x [] log = .more) ∨
      ∃ v o log', callFunction W m' (a + 1) k f.name [] log = .val v log' ∧ Judged v o ∧
        callFunction W m' (a + 1) (k + 1) x [] log = .val (.string o.message) log' := by
  have A := analyzed h
  have hvf := vars_definition h hf
  obtain ⟨d', hd', hd⟩ := forall₂_mem_left A.definitions hx
  obtain ⟨r, h1, h2, rfl⟩ := wrapper_analyzed hvf hd
  obtain ⟨h3, h4⟩ := Canon.function_params h1
  refine ⟨⟨h3, r, h4, h2⟩, fun a k log => ?_⟩
  have hnd : (m'.definitions.map (·.name)).Nodup := by
    have h5 := congrArg (List.map (·.1)) A.signatures
    simp only [List.map_map, Function.comp_def] at h5
    rw [h5]
    exact analyze_nodup h
  have look : ∀ d ∈ m'.definitions, lookup m' (fun _ => Option.none) d.name =
      .val (.closure (fun _ => Option.none) (d.params.map (·.1)) d.body) := by
    intro d hd
    have : lastLookup (m'.definitions.map fun d => (d.name, d)) d.name = some d := by
      refine lastLookup_of_nodup ?_ (List.mem_map.mpr ⟨d, hd, rfl⟩)
      rw [List.map_map]
      exact hnd
    unfold lookup
    simp only [this]
  have hlx := look _ hd'
  obtain ⟨g, hg, hga⟩ := forall₂_mem_left A.definitions hf
  obtain ⟨_, _, _, _, _, _, _, _, _, _, rfl⟩ := analyzeDefinition_ok hga
  have hlf := look _ hg
  have key := callFunction_wrapper (W := W) (a := a) (k := k) hlx hlf log
  rcases c47_accepted_programs_do_not_go_wrong_partial h ht hw hf h1 .nil (a + 1) k log with h5 | ⟨v, log', h5, _, h6⟩
  · rw [h5] at key
    exact Or.inl ⟨h5, key⟩
  · obtain ⟨o, ho⟩ := judged_of_represents h2 h6
    rw [h5, wrapResult_judged ho] at key
    exact Or.inr ⟨v, o, log', h5, ho, key⟩

/-! ## All tests -/

/-- Progress after some verdicts. -/
def Progress.add (p : Progress) (title : String) (o : Verdict) : Progress :=
  ⟨p.lines ++ o.lines title, p.success + (if o.ok then 1 else 0), p.error + (if o.ok then 0 else 1)⟩

theorem runFunction_judged {S : String → Out Val} {t : TestFunction} {p : Progress} {o : Verdict} {log log' : Log}
    (h : S t.foreign log = .val (.string o.message) log') (ho : o ≠ .failed []) :
    runFunction S t p log = .val (p.add t.name o) log' := by
  unfold runFunction
  rw [bind_apply, Out.bind, h]
  cases o with
  | passed => rfl
  | failed s =>
    cases s with
    | nil => exact absurd rfl ho
    | cons b bs => rfl

/-- Progress whatever is reported. -/
theorem runFunction_val {S : String → Out Val} {t : TestFunction} {p : Progress} {o : Verdict} {log log' : Log}
    (h : S t.foreign log = .val (.string o.message) log') :
    ∃ q, runFunction S t p log = .val q log' := by
  unfold runFunction
  rw [bind_apply, Out.bind, h]
  simp only [Val.asString, val_bind]
  split
  · exact ⟨_, rfl⟩
  · exact ⟨_, rfl⟩

theorem runFunction_more {S : String → Out Val} {t : TestFunction} {p : Progress} {log : Log}
    (h : S t.foreign log = .more) : runFunction S t p log = .more := by
  unfold runFunction
  rw [bind_apply, Out.bind, h]

/-- What linking provides for a test. -/
def Linked (W : World) (a k : Nat) (S : String → Out Val) (m : Hir.Module) (f : String) (t : TestFunction) : Prop :=
  ∀ log, (callFunction W m a k f [] log = .more ∧ S t.foreign log = .more) ∨
    ∃ v o log', callFunction W m a k f [] log = .val v log' ∧ Judged v o ∧ S t.foreign log = .val (.string o.message) log'

/-- Progress after the verdicts on the functions of a module. -/
def Progress.addAll (p : Progress) : List (String × Verdict) → Progress
  | [] => p
  | (t, o) :: os => (p.add t o).addAll os

theorem runFunctions_ok {W : World} {a k : Nat} {S : String → Out Val} {m : Hir.Module} :
    ∀ {fs : List String} {ts : List TestFunction}, List.Forall₂ (Linked W a k S m) fs ts → ∀ (p : Progress) (log : Log),
      (runFunctions S ts p log = .more ∧ ¬ ∃ os log', RanFunctions W a k m fs log os log') ∨
      ∃ os log', RanFunctions W a k m fs log os log' ∧ (∃ q, runFunctions S ts p log = .val q log') ∧
        ((∀ o ∈ os, o ≠ .failed []) →
          runFunctions S ts p log = .val (p.addAll ((ts.map (·.name)).zip os)) log')
  | _, _, .nil, p, log => Or.inr ⟨[], log, .nil, ⟨p, rfl⟩, fun _ => rfl⟩
  | _, _, .cons (a := f) (b := t) (l₁ := fs) (l₂ := ts) h hs, p, log => by
    rcases h log with ⟨h1, h2⟩ | ⟨v, o, log₁, h1, h2, h3⟩
    · refine Or.inl ⟨?_, ?_⟩
      · rw [runFunctions, bind_apply, Out.bind, runFunction_more h2]
      · rintro ⟨_, _, h⟩
        cases h with
        | cons h _ _ => rw [h1] at h; cases h
    · obtain ⟨q, hq⟩ := runFunction_val (p := p) h3
      have e : ∀ p', runFunction S t p log = .val p' log₁ → runFunctions S (t :: ts) p log = runFunctions S ts p' log₁ := by
        intro p' hp'
        rw [runFunctions, bind_apply, Out.bind, hp']
      rcases runFunctions_ok hs q log₁ with ⟨h4, h5⟩ | ⟨os, log₂, h4, ⟨q', h5⟩, h6⟩
      · refine Or.inl ⟨by rw [e q hq, h4], ?_⟩
        rintro ⟨_, _, h⟩
        cases h with
        | cons h _ h' =>
          rw [h1] at h
          cases h
          exact h5 ⟨_, _, h'⟩
      · refine Or.inr ⟨o :: os, log₂, .cons h1 h2 h4, ⟨q', by rw [e q hq, h5]⟩, ?_⟩
        intro ho
        have h7 := runFunction_judged (p := p) h3 (ho o (by simp))
        rw [hq] at h7
        cases h7
        rw [e _ hq, h6 fun o' ho' => ho o' (by simp [ho'])]
        rfl

theorem addAll_eq : ∀ (os : List (String × Verdict)) (p : Progress), p.addAll os =
    ⟨p.lines ++ os.flatMap (fun o => o.2.lines o.1), p.success + os.countP (·.2.ok), p.error + os.countP (fun o => !o.2.ok)⟩
  | [], p => by simp [Progress.addAll]
  | (t, o) :: os, p => by
    rw [Progress.addAll, addAll_eq os]
    cases o <;> simp [Progress.add, Verdict.ok, List.countP_cons] <;> omega

theorem RanFunctions.length {W : World} {a k : Nat} {m : Hir.Module} {fs : List String} {log log' : Log}
    {os : List Verdict} (h : RanFunctions W a k m fs log os log') : os.length = fs.length := by
  induction h with
  | nil => rfl
  | cons _ _ _ ih => simp [ih]

theorem RanFunctions.log_eq {W : World} {a k : Nat} {m : Hir.Module} {fs : List String} {log log₁ log₂ : Log}
    {os os' : List Verdict} (h : RanFunctions W a k m fs log os log₁) (h' : RanFunctions W a k m fs log os' log₂) :
    log₁ = log₂ := by
  induction h generalizing os' log₂ with
  | nil => cases h'; rfl
  | cons h1 _ _ ih =>
    cases h' with
    | cons g1 _ g3 =>
      rw [h1] at g1
      cases g1
      exact ih g3

/-- A module and its information. -/
structure LinkedModule (W : World) (a k : Nat) (S : String → Out Val) (c : CompiledTest) : Prop where
  functions : List.Forall₂ (Linked W a k S c.analyzed) c.tests c.information.functions
  titles : c.information.functions.map (·.name) = c.titles

theorem countP_zip {α β : Type} {p : β → Bool} : ∀ {as : List α} {bs : List β}, as.length = bs.length →
    (as.zip bs).countP (fun x => p x.2) = bs.countP p
  | [], [], _ => rfl
  | a :: as, b :: bs, h => by
    simp only [List.length_cons, Nat.add_right_cancel_iff] at h
    simp only [List.zip_cons_cons, List.countP_cons, countP_zip h]

theorem runModules_ok {W : World} {a k : Nat} {S : String → Out Val} :
    ∀ {cs : List CompiledTest}, (∀ c ∈ cs, LinkedModule W a k S c) → ∀ (p : Progress) (log : Log),
      (runModules S (cs.map (·.information)) p log = .more ∧ ¬ ∃ oss log', Ran W a k cs log oss log') ∨
      ∃ oss log', Ran W a k cs log oss log' ∧ (∃ q, runModules S (cs.map (·.information)) p log = .val q log') ∧
        ((∀ os ∈ oss, ∀ o ∈ os, o ≠ .failed []) →
          runModules S (cs.map (·.information)) p log =
            .val ⟨p.lines ++ (cs.zip oss).flatMap (fun q => moduleLines q.1 q.2),
              p.success + oss.flatten.countP (·.ok), p.error + oss.flatten.countP (fun o => !o.ok)⟩ log')
  | [], _, p, log => Or.inr ⟨[], log, .nil, ⟨p, rfl⟩, fun _ => by simp [runModules]; rfl⟩
  | c :: cs, h, p, log => by
    have hc := h c (by simp)
    have hcs := fun c' hc' => h c' (List.mem_cons_of_mem _ hc')
    rcases runFunctions_ok hc.functions { p with lines := p.lines ++ [.module c.information.path] } log with
      ⟨h1, h2⟩ | ⟨os, log₁, h1, ⟨q, h2⟩, h3⟩
    · refine Or.inl ⟨?_, ?_⟩
      · rw [List.map_cons, runModules, bind_apply, Out.bind, h1]
      · rintro ⟨_, _, h⟩
        cases h with
        | cons h _ => exact h2 ⟨_, _, h⟩
    · have e : ∀ p', runFunctions S c.information.functions { p with lines := p.lines ++ [.module c.information.path] } log =
          .val p' log₁ → runModules S ((c :: cs).map (·.information)) p log = runModules S (cs.map (·.information)) p' log₁ := by
        intro p' hp'
        rw [List.map_cons, runModules, bind_apply, Out.bind, hp']
      rcases runModules_ok hcs q log₁ with ⟨h4, h5⟩ | ⟨oss, log₂, h4, ⟨q', h5⟩, h6⟩
      · refine Or.inl ⟨by rw [e q h2, h4], ?_⟩
        rintro ⟨_, _, h⟩
        cases h with
        | cons h h' =>
          cases h.log_eq h1
          exact h5 ⟨_, _, h'⟩
      · refine Or.inr ⟨os :: oss, log₂, .cons h1 h4, ⟨q', by rw [e q h2, h5]⟩, ?_⟩
        intro ho
        have h7 := h3 fun o ho' => ho os (by simp) o ho'
        rw [h2] at h7
        simp only [Result.val.injEq, and_true] at h7
        subst h7
        rw [e _ h2, h6 fun os' hos' => ho os' (by simp [hos']), addAll_eq]
        have hl : c.titles.length = os.length := by
          rw [h1.length]
          simp [CompiledTest.titles, CompiledTest.tests]
        have l1 : ∀ f : Verdict → Bool, (c.titles.zip os).countP (fun x => f x.2) = os.countP f := fun f => countP_zip hl
        rw [hc.titles]
        simp only [List.zip_cons_cons, List.flatMap_cons, List.flatten_cons, List.countP_append, moduleLines,
          l1 (fun o => o.ok), l1 (fun o => !o.ok)]
        simp [Nat.add_assoc]

/-! ## The package -/

theorem string_lt_of_not {a b : String} (h : ¬ a < b) (hne : a ≠ b) : b < a := by
  by_contra h'
  exact hne (String.le_antisymm (String.not_lt.mp h') (String.not_lt.mp h))

/-- Insertion keeps the order. -/
theorem insertModule_ok (c : CompiledTest) : ∀ (cs : List CompiledTest), c.information.path ∉ cs.map (·.information.path) →
    (cs.map (·.information.path)).Pairwise (· < ·) →
    ∃ cs' : List CompiledTest, cs'.Perm (c :: cs) ∧ (cs'.map (·.information.path)).Pairwise (· < ·) ∧
      cs'.map (·.information) = insertModule c.information (cs.map (·.information))
  | [], _, _ => ⟨[c], .refl _, by simp, rfl⟩
  | x :: xs, hn, hs => by
    simp only [List.map_cons, List.pairwise_cons, List.mem_map, forall_exists_index, and_imp,
      forall_apply_eq_imp_iff₂] at hs
    simp only [List.map_cons, List.mem_cons, not_or] at hn
    rw [List.map_cons, insertModule]
    split
    · rename_i hlt
      refine ⟨c :: x :: xs, .refl _, ?_, rfl⟩
      simp only [List.map_cons, List.pairwise_cons, List.mem_cons, List.mem_map, forall_eq_or_imp, forall_exists_index,
        and_imp, forall_apply_eq_imp_iff₂]
      exact ⟨⟨hlt, fun y hy => String.lt_trans hlt (hs.1 y hy)⟩, hs.1, hs.2⟩
    · rename_i hlt
      rw [if_neg hn.1]
      obtain ⟨cs', h1, h2, h3⟩ := insertModule_ok c xs hn.2 hs.2
      refine ⟨x :: cs', ?_, ?_, by rw [List.map_cons, h3]⟩
      · exact (h1.cons x).trans (.swap c x xs)
      · simp only [List.map_cons, List.pairwise_cons, List.mem_map, forall_exists_index, and_imp,
          forall_apply_eq_imp_iff₂]
        refine ⟨fun y hy => ?_, h2⟩
        rcases List.mem_cons.mp (h1.mem_iff.mp hy) with rfl | hy
        · exact string_lt_of_not hlt hn.1
        · exact hs.1 y hy

theorem packageInformation_ok : ∀ (cs : List CompiledTest), (cs.map (·.information.path)).Nodup →
    ∃ cs' : List CompiledTest, cs'.Perm cs ∧ (cs'.map (·.information.path)).Pairwise (· < ·) ∧
      cs'.map (·.information) = packageInformation (cs.map (·.information)) := by
  intro cs
  unfold packageInformation
  rw [List.foldl_map]
  suffices h : ∀ (cs xs : List CompiledTest), ((xs ++ cs).map (·.information.path)).Nodup →
      (xs.map (·.information.path)).Pairwise (· < ·) →
      ∃ cs' : List CompiledTest, cs'.Perm (xs ++ cs) ∧ (cs'.map (·.information.path)).Pairwise (· < ·) ∧
        cs'.map (·.information) = cs.foldl (fun s c => insertModule c.information s) (xs.map (·.information)) by
    intro hn
    exact h cs [] hn (by simp)
  intro cs
  induction cs with
  | nil => intro xs _ hs; exact ⟨xs, by simp, hs, rfl⟩
  | cons c cs ih =>
    intro xs hn hs
    have hc : c.information.path ∉ xs.map (·.information.path) := by
      rw [List.map_append, List.nodup_append] at hn
      intro h
      exact hn.2.2 _ h _ (by simp) rfl
    obtain ⟨ys, h1, h2, h3⟩ := insertModule_ok c xs hc hs
    have hp : (ys ++ cs).Perm (xs ++ c :: cs) := (h1.append_right cs).trans List.perm_middle.symm
    obtain ⟨cs', h4, h5, h6⟩ := ih ys ((hp.map _).nodup_iff.mpr hn) h2
    refine ⟨cs', h4.trans hp, h5, ?_⟩
    rw [h6, h3]
    rfl

/-- Linking finds the wrappers. -/
theorem symbols_ok {W : World} {a k : Nat} {foreign : String → String} : ∀ {cs : List CompiledTest},
    (cs.flatMap fun c => c.tests.map foreign).Nodup → ∀ c ∈ cs, ∀ f ∈ testDefinitions c.resolved,
    symbols W a k foreign cs (foreign f.name) = callFunction W c.analyzed a k (wrapperName f.name) []
  | x :: cs, hn, c, hc, f, hf => by
    rw [List.flatMap_cons, List.nodup_append] at hn
    obtain ⟨h1, h2, h3⟩ := hn
    unfold symbols
    have hmem : ∀ {c : CompiledTest} {f}, f ∈ testDefinitions c.resolved → foreign f.name ∈ c.tests.map foreign := by
      intro c f hf
      exact List.mem_map.mpr ⟨f.name, List.mem_map.mpr ⟨f, hf, rfl⟩, rfl⟩
    rcases List.mem_cons.mp hc with rfl | hc
    · have h4 : (c.tests.map foreign) = (testDefinitions c.resolved).map (fun f => foreign f.name) := by
        simp [CompiledTest.tests, testDefinitions]
      rw [h4] at h1
      have h5 : ∃ g ∈ testDefinitions c.resolved, (testDefinitions c.resolved).find? (fun g => foreign g.name == foreign f.name) = some g ∧
          foreign g.name = foreign f.name := by
        cases hfi : (testDefinitions c.resolved).find? (fun g => foreign g.name == foreign f.name) with
        | none =>
          rw [List.find?_eq_none] at hfi
          exact absurd (by simp) (hfi f hf)
        | some g =>
          exact ⟨g, List.mem_of_find?_eq_some hfi, rfl, by simpa using List.find?_some hfi⟩
      obtain ⟨g, hg, h5, h6⟩ := h5
      have : g = f := List.inj_on_of_nodup_map h1 hg hf h6
      subst this
      rw [h5]
    · have : (testDefinitions x.resolved).find? (fun g => foreign g.name == foreign f.name) = none := by
        rw [List.find?_eq_none]
        intro g hg
        simp only [beq_iff_eq]
        intro he
        exact h3 _ (hmem hg) _ (List.mem_flatMap.mpr ⟨c, hc, hmem hf⟩) he
      rw [this]
      exact symbols_ok h2 c hc f hf

end Verif.Tests
