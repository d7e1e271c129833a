import Verif.App.BuildProperties

/-!
# Histories of an application

The package `m` has a main module that imports the module `Foo` of a package named `D`. There are two packages with such a module, `p` and `q`.
-/
namespace Verif.App.Build
open Ninja (Right)

namespace Example

def tools : Tools where
  parse _ text := some (if text = "import" then [.external "D" ["Foo"]] else [])
  compile _ text is _ := some (text ++ String.join is, text)
  compileTest _ text is _ := some (text ++ String.join is, text)
  compileMain _ text is _ _ := some (text ++ String.join is)
  compilePrelude _ text := some (text, text)
  opt s := some s
  llc s := some s
  packageTests _ := some ""
  link as := some (String.join (as.map fun f => (f ⟨"m", ["main"], false⟩).getD ""))
  linkTest _ _ := some ""

def setup : Setup := ⟨"m", "b", "b"⟩

def main : Mod := ⟨"m", ["main"], false⟩

def foo (p : String) : Mod := ⟨p, ["Foo"], false⟩

/-- Dependencies named `D` and `E`. -/
def config (d e : String) : Config := ⟨.application, [("D", d), ("E", e)]⟩

def plan : Plan := ⟨["m", "p", "q", "b"], [main, foo "p", foo "q"], [], true⟩

def text (m : Mod) : Option String :=
  if m = main then some "import" else if m = foo "p" then some "p" else if m = foo "q" then some "q" else none

def input (d e : String) : Files
  | .source m => (text m).map .bytes
  | .present m => (text m).map fun _ => .present
  | .config p => if p = "m" then some (.config (config d e)) else if p ∈ ["p", "q", "b"] then some (.config ⟨.library, []⟩) else none
  | _ => none

/-- The state before anything is built. -/
def initial (d e : String) : State := ⟨⟨input d e, fun _ => none⟩, ⟨[], [], [], false⟩⟩

def code (d : String) (m : Mod) : Option String :=
  if m = main then some ("import" ++ d) else text m

/-- An archive of one object. -/
def archive (d : String) : Archive → Mod → Option String
  | .package p => fun m => match (if p = "m" then [(main, "import" ++ d)] else if p = "p" then [(foo "p", "p")]
      else if p = "q" then [(foo "q", "q")] else [] : List (Mod × String)).lookup m with
    | some s => some s
    | none => none
  | .tests => fun m => match ([] : List (Mod × String)).lookup m with
    | some s => some s
    | none => none

/-- What is built. -/
def output (d e : String) : Files
  | .dependency m => if m = main then some (.dependencies [(.external "D" ["Foo"], foo d)] []) else some (.dependencies [] [])
  | .dynamic m => if m = main then some (.dynamic [foo d]) else some (.dynamic [])
  | .bitCode m | .optimized m | .object m => (code d m).map .bytes
  | .interface m => (text m).map .bytes
  | .archive a => some (.archive (archive d a))
  | .packageTests => some (.bytes "")
  | .application => some (.bytes ("import" ++ d))
  | .tests => some (.bytes "")
  | f => input d e f

def rank : File → Nat
  | .source _ | .present _ | .config _ => 0
  | .dependency _ | .dynamic _ => 1
  | .interface _ => 2
  | .testInformation _ => 2
  | .bitCode m => if m = main then 3 else 2
  | .optimized _ => 4
  | .object _ => 5
  | .archive _ => 6
  | .packageTests => 6
  | .application => 7
  | .tests => 7

theorem initial_initial (d e : String) : Initial (initial d e) where
  present m := by
    show (text m).map _ = ((text m).map _).map _
    cases text m <;> rfl
  outputs f hf := by cases f <;> first | rfl | cases hf
  log _ := rfl
  plan := ⟨rfl, rfl⟩

theorem plans {d e : String} {fs : Files} (h : ∀ f, isInput f = true → fs f = input d e f) (hde : (d = "p" ∧ e = "q") ∨ (d = "q" ∧ e = "p")) :
    Plans setup fs plan := by
  have hc : ∀ p, readConfig fs p = if p = "m" then some (config d e) else if p ∈ ["p", "q", "b"] then some ⟨.library, []⟩ else none := by
    intro p
    simp only [readConfig, h (.config p) rfl, input]
    by_cases h1 : p = "m"
    · simp only [h1, if_true]
    · by_cases h2 : p ∈ ["p", "q", "b"]
      · simp only [h1, h2, if_true, if_false]
      · simp only [h1, h2, if_false]
  have hm : readConfig fs "m" = some (config d e) := by rw [hc]; rfl
  have hr : ∀ p, p ∈ plan.packages ↔ Reachable setup fs p := by
    intro p
    constructor
    · intro hp
      have hd : Reachable setup fs d := .dependency (n := "D") .main hm (by simp [config])
      have he : Reachable setup fs e := .dependency (n := "E") .main hm (by simp [config])
      simp only [plan, List.mem_cons, List.not_mem_nil, or_false] at hp
      rcases hde with ⟨rfl, rfl⟩ | ⟨rfl, rfl⟩ <;> rcases hp with rfl | rfl | rfl | rfl <;>
        first | exact .main | exact .prelude | assumption
    · intro hp
      induction hp with
      | main => decide
      | prelude => decide
      | ffi => decide
      | @dependency p q n c _ hc' hq _ =>
        rw [hc] at hc'
        split at hc'
        · cases hc'
          simp only [config, List.mem_cons, Prod.mk.injEq, List.not_mem_nil, or_false] at hq
          simp only [plan, List.mem_cons, List.not_mem_nil, or_false]
          rcases hde with ⟨rfl, rfl⟩ | ⟨rfl, rfl⟩ <;> rcases hq with ⟨_, rfl⟩ | ⟨_, rfl⟩ <;> simp
        · split at hc'
          · cases hc'
            cases hq
          · cases hc'
  refine ⟨hr, fun m => ?_, by simp [plan], ?_⟩
  · rw [h (.present m) rfl]
    simp only [input, Option.isSome_map, text]
    constructor
    · intro hm
      simp only [plan, List.mem_cons, List.not_mem_nil, or_false] at hm
      rcases hm with rfl | rfl | rfl <;> decide
    · rintro ⟨h1, _, _⟩
      split at h1
      · rename_i e'; rw [e']; decide
      · split at h1
        · rename_i e'; rw [e']; decide
        · split at h1
          · rename_i e'; rw [e']; decide
          · cases h1
  · exact ⟨fun _ => ⟨_, hm, rfl⟩, fun _ => rfl⟩

theorem members_start {L : Label → Prop} (hL : L .tool) (d e : String) (hde : (d = "p" ∧ e = "q") ∨ (d = "q" ∧ e = "p")) :
    ∃ s, Reach tools setup L s ∧ Members setup s ∧ s.plan = plan ∧ ∀ f, isInput f = true → s.fs f = input d e f := by
  have hst : Step tools setup .tool (initial d e) _ := .start plan (plans (fun f _ => rfl) hde)
  refine ⟨_, .step (.initial (initial_initial d e)) hL hst, (initial_initial d e).members.step hst (by decide) (by decide), rfl, fun f hf => ?_⟩
  simp [State.fs, Ninja.State.change, hf, initial]

theorem right_all {d e : String} (hde : (d = "p" ∧ e = "q") ∨ (d = "q" ∧ e = "p")) :
    ∀ k ∈ script setup plan, Right (rules tools) (output d e) k := by
  intro k hk
  have hk : k ∈ [Command.compileMain main [], .resolve main [], .opt main, .llc main, .compile (foo "p"), .resolve (foo "p") [],
    .opt (foo "p"), .llc (foo "p"), .compile (foo "q"), .resolve (foo "q") [], .opt (foo "q"), .llc (foo "q"),
    .ar (.package "m") [main], .ar (.package "p") [foo "p"], .ar (.package "q") [foo "q"], .ar (.package "b") [], .ar .tests [],
    .packageTests [], .link [.package "m", .package "p", .package "q", .package "b"],
    .linkTest [.tests, .package "m", .package "p", .package "q", .package "b"]] := by
    have e : script setup plan = [Command.compileMain main [], .resolve main [], .opt main, .llc main, .compile (foo "p"), .resolve (foo "p") [],
      .opt (foo "p"), .llc (foo "p"), .compile (foo "q"), .resolve (foo "q") [], .opt (foo "q"), .llc (foo "q"),
      .ar (.package "m") [main], .ar (.package "p") [foo "p"], .ar (.package "q") [foo "q"], .ar (.package "b") [], .ar .tests [],
      .packageTests [], .link [.package "m", .package "p", .package "q", .package "b"],
      .linkTest [.tests, .package "m", .package "p", .package "q", .package "b"]] := by decide +kernel
    rw [← e]; exact hk
  have one : ∀ (k : Command) (o : File → Content), ideal tools k (output d e) = some o → (∀ g ∈ outputs k, output d e g = some (o g)) →
      Right (rules tools) (output d e) k := fun k o h1 h2 => ⟨o, h1, h2⟩
  simp only [List.mem_cons, List.not_mem_nil, or_false] at hk
  rcases hde with ⟨rfl, rfl⟩ | ⟨rfl, rfl⟩ <;>
  rcases hk with rfl | rfl | rfl | rfl | rfl | rfl | rfl | rfl | rfl | rfl | rfl | rfl | rfl | rfl | rfl | rfl | rfl | rfl | rfl | rfl <;>
  (refine one _ _ rfl ?_; simp only [outputs, List.mem_cons, List.not_mem_nil, or_false, forall_eq_or_imp, forall_eq]; first | rfl | exact ⟨rfl, rfl⟩)

/-- A build of the application ends. -/
theorem application_built {L : Label → Prop} (hL : L .tool) (d e : String) (hde : (d = "p" ∧ e = "q") ∨ (d = "q" ∧ e = "p")) :
    ∃ s, Reach tools setup L s ∧ Done setup s .application ∧ s.plan = plan ∧ (∀ f, isInput f = true → s.fs f = input d e f) ∧
      s.fs .application = some (.bytes ("import" ++ d)) ∧ s.fs (.archive (.package "q")) = some (.archive (archive d (.package "q"))) := by
  obtain ⟨s₀, hr, hM, hp, hin⟩ := members_start hL d e hde
  have hout : ∀ f, isInput f = true → output d e f = input d e f := fun f hf => by cases f <;> first | rfl | cases hf
  obtain ⟨s, hruns, hd, hin', ho⟩ := build (T := tools) (goal := .application) (output d e) rank hM (fun f hf => by rw [hin f hf, hout f hf])
    (by rw [hp]; exact plans hout hde) (by rw [hp]; exact ⟨.link [.package "m", .package "p", .package "q", .package "b"], by decide +kernel, by decide⟩)
    (by rw [hp]; exact right_all hde)
    (by rw [hp]; rcases hde with ⟨rfl, rfl⟩ | ⟨rfl, rfl⟩ <;> decide +kernel)
    (by rw [hp]; rcases hde with ⟨rfl, rfl⟩ | ⟨rfl, rfl⟩ <;> decide +kernel)
    (by rw [hp]; rcases hde with ⟨rfl, rfl⟩ | ⟨rfl, rfl⟩ <;> decide +kernel)
  refine ⟨s, hruns.reach hL hr, hd, by rw [hruns.plan, hp], fun f hf => by rw [← hin' f hf, hout f hf], ?_, ?_⟩
  · rw [hp] at ho
    exact ho (.link [.package "m", .package "p", .package "q", .package "b"]) (by decide +kernel) .application (by decide)
  · rw [hp] at ho
    exact ho (.ar (.package "q") [foo "q"]) (by decide +kernel) (.archive (.package "q")) (by decide)

end Example

open Example in
/-- **C62.** Changes of configurations are missed: dependencies are resolved with configurations of packages, but those are not inputs in
build scripts (`compile_dependency`, `lib/infra/src/ninja_build_script_compiler.rs:313-338`). After packages named `D` and `E` are
exchanged in the configuration of the main package, the build has nothing to do, but the main module is still compiled with the package
that was named `D` before. A new build of the same files makes another application. -/
theorem c62_configurations_are_missed : ∃ (T : Tools) (S : Setup) (s s' : State), Reach T S (· ≠ .delete) s ∧ Reach T S (· ≠ .delete) s' ∧
    SameInputs s s' ∧ Done S s .application ∧ Done S s' .application ∧ s.fs .application ≠ s'.fs .application := by
  obtain ⟨s, hr, hd, hp, hin, ha, _⟩ := application_built (L := (· ≠ .delete)) (by decide) "p" "q" (Or.inl ⟨rfl, rfl⟩)
  obtain ⟨s', hr', hd', hp', hin', ha', _⟩ := application_built (L := (· ≠ .delete)) (by decide) "q" "p" (Or.inr ⟨rfl, rfl⟩)
  have hst : Step tools setup .configure s _ := .configure "m" (config "q" "p")
  refine ⟨tools, setup, _, s', .step hr (by decide) hst, hr', ?_, ?_, hd', ?_⟩
  · refine ⟨by rw [hp', ← hp], fun f hf => ?_⟩
    rw [hin' f hf]
    show (if decide (f = .config "m") = true then some (Content.config (config "q" "p")) else s.fs f) = _
    by_cases hf' : f = .config "m"
    · subst hf'; rfl
    · simp only [hf', decide_false, Bool.false_eq_true, if_false, hin f hf]
      cases f with
      | config p =>
        have : p ≠ "m" := fun e => hf' (by rw [e])
        simp [input, this]
      | _ => rfl
  · have hfs : ∀ f, f ≠ .config "m" → (⟨s.tool.change (fun f => decide (f = .config "m")) (fun _ => some (.config (config "q" "p"))), s.plan⟩ :
        State).fs f = s.fs f := fun f hf => by simp [State.fs, Ninja.State.change, hf]
    have hdyn : ∀ k, prerequisites k (⟨s.tool.change (fun f => decide (f = .config "m")) (fun _ => some (.config (config "q" "p"))), s.plan⟩ :
        State).fs = prerequisites k s.fs := fun k => prerequisites_congr fun f hf => hfs f fun e => by
      obtain ⟨m, e', _⟩ := dyndep_dynamic hf
      rw [e] at e'; cases e'
    have hcomp : ∀ k, compared k (⟨s.tool.change (fun f => decide (f = .config "m")) (fun _ => some (.config (config "q" "p"))), s.plan⟩ :
        State).fs = compared k s.fs := fun k => List.append_cancel_left (hdyn k)
    have hpre : ∀ k, ∀ i ∈ prerequisites k s.fs, i ≠ .config "m" := by
      intro k i hi e
      subst e
      simp only [prerequisites, compared, List.mem_append, Option.mem_toList] at hi
      rcases hi with hi | hi | hi
      · obtain ⟨m, e', _⟩ := dyndep_dynamic hi
        cases e'
      · cases k <;> simp [inputs] at hi
      · split at hi
        · split at hi
          · simp at hi
          · cases hi
        · cases hi
    have hneed : ∀ k, Needed setup (⟨s.tool.change (fun f => decide (f = .config "m")) (fun _ => some (.config (config "q" "p"))), s.plan⟩ :
        State) .application k → Needed setup s .application k := by
      intro k hn
      induction hn with
      | goal hk ho => exact .goal hk ho
      | input hn hf hk ho ih => exact .input ih (by rw [← hdyn]; exact hf) hk ho
    refine ⟨?_, hd.producer, fun k hn => ⟨fun i hi => ?_, fun g hg => ?_⟩, ?_⟩
    · show Plans setup _ s.plan
      rw [hp]
      refine plans (d := "q") (e := "p") (fun f hf => ?_) (Or.inr ⟨rfl, rfl⟩)
      show (if decide (f = .config "m") = true then some (Content.config (config "q" "p")) else s.fs f) = _
      by_cases hf' : f = .config "m"
      · subst hf'; rfl
      · simp only [hf', decide_false, Bool.false_eq_true, if_false, hin f hf]
        cases f with
        | config p =>
          have : p ≠ "m" := fun e => hf' (by rw [e])
          simp [input, this]
        | _ => rfl
    · rw [hdyn] at hi
      rw [hfs i (hpre k i hi)]
      exact (hd.upToDate k (hneed k hn)).prerequisites i hi
    · obtain ⟨h1, fs, h2, h3⟩ := (hd.upToDate k (hneed k hn)).outputs g hg
      have hgc : g ≠ .config "m" := fun e => by
        have := not_input hg
        rw [e] at this; cases this
      refine ⟨by rw [hfs g hgc]; exact h1, fs, h2, fun i hi => ?_⟩
      rw [hcomp] at hi
      rw [hfs i (hpre k i (List.mem_append_right _ hi))]
      exact h3 i hi
    · obtain ⟨r, hr⟩ := hd.acyclic
      exact ⟨r, fun k hn i hi g hg => hr k (hneed k hn) i (by rw [← hdyn]; exact hi) g hg⟩
  · have e : (⟨s.tool.change (fun f => decide (f = .config "m")) (fun _ => some (.config (config "q" "p"))), s.plan⟩ : State).fs .application =
        s.fs .application := by simp [State.fs, Ninja.State.change]
    rw [e, ha, ha']
    simp

namespace Example

/-- Nothing of the module `Foo` of `q` is left in sources. -/
def plan' : Plan := ⟨["m", "p", "q", "b"], [main, foo "p"], [], true⟩

/-- The module is removed, and the archive of its package is built. -/
theorem archive_rebuilt {s : State} (hr : Reach tools setup (· ≠ .configure) s) (hin : ∀ f, isInput f = true → s.fs f = input "p" "q" f)
    {f : Mod → Option String} (hf : (readArchive s.fs (.package "q")).getD (fun _ => none) = f) :
    ∃ s', Reach tools setup (· ≠ .configure) s' ∧ Done setup s' (.archive (.package "q")) ∧ s'.plan = plan' ∧
      (∀ g, isInput g = true → s'.fs g = if g = .source (foo "q") ∨ g = .present (foo "q") then none else input "p" "q" g) ∧
      ∃ f', s'.fs (.archive (.package "q")) = some (.archive f') ∧ ∀ m, f' m = f m := by
  let s₁ : State := ⟨s.tool.change (fun f => decide (f = .source (foo "q") ∨ f = .present (foo "q"))) (fun _ => none), s.plan⟩
  have h₁ : Reach tools setup (· ≠ .configure) s₁ := .step hr (by decide) (.delete (foo "q"))
  have hin₁ : ∀ g, isInput g = true → s₁.fs g = if g = .source (foo "q") ∨ g = .present (foo "q") then none else input "p" "q" g := by
    intro g hg
    show (if decide (g = .source (foo "q") ∨ g = .present (foo "q")) = true then none else s.fs g) = _
    rw [hin g hg]
    simp only [decide_eq_true_eq]
  have hplan : Plans setup s₁.fs plan' := by
    have h0 := plans (d := "p") (e := "q") (fs := input "p" "q") (fun _ _ => rfl) (Or.inl ⟨rfl, rfl⟩)
    have hc : ∀ p, s₁.fs (.config p) = input "p" "q" (.config p) := fun p => by rw [hin₁ _ rfl]; simp
    refine ⟨fun p => ?_, fun m => ?_, by simp [plan'], ?_⟩
    · rw [show plan'.packages = plan.packages from rfl, h0.packages]
      exact ⟨reachable_congr hc, reachable_congr fun p => (hc p).symm⟩
    · have hm := h0.modules m
      rw [hin₁ _ rfl]
      by_cases e : m = foo "q"
      · subst e
        simp only [or_true, if_true, Option.isSome_none, Bool.false_eq_true, false_and, iff_false]
        decide
      · have e1 : ¬ (File.present m = .source (foo "q") ∨ File.present m = .present (foo "q")) := by simp [e]
        rw [if_neg e1]
        refine Iff.trans ?_ hm
        simp [plan, plan', e]
    · rw [readConfig_congr (hc setup.main)]
      exact h0.application
  have hst : Step tools setup .tool s₁ _ := .start plan' hplan
  let s₂ : State := ⟨s₁.tool.change (fun f => !isInput f && (script setup plan').all fun k => decide (f ∉ outputs k)) (fun _ => none), plan'⟩
  have h₂ : Reach tools setup (· ≠ .configure) s₂ := .step h₁ (by decide) hst
  have hk : Command.ar (.package "q") [] ∈ script setup plan' := by decide +kernel
  have hold : (readArchive s₂.fs (.package "q")).getD (fun _ => none) = f := by
    rw [readArchive_congr (fs := s.fs)]
    · exact hf
    · have e : (!isInput (.archive (.package "q")) && (script setup plan').all fun k => decide (File.archive (.package "q") ∉ outputs k)) = false := by
        decide +kernel
      show (if (!isInput (.archive (.package "q")) && (script setup plan').all fun k => decide (File.archive (.package "q") ∉ outputs k)) = true
        then none else s₁.fs (.archive (.package "q"))) = _
      rw [e]
      simp [s₁, State.fs, Ninja.State.change]
  have hmake : make tools (.ar (.package "q") []) s₂.fs = some fun _ => .archive fun m => match ([] : List (Mod × String)).lookup m with
      | some s => some s
      | none => f m := by
    rw [← hold]; rfl
  have hrun : Step tools setup .tool s₂ _ := .run (.ar (.package "q") []) _ hk hmake
  refine ⟨_, .step h₂ (by decide) hrun, ⟨?_, ⟨_, hk, by decide⟩, ?_, ?_⟩, rfl, ?_, ?_⟩
  · refine plans_congr (fun g hg => ?_) hplan
    have : g ∉ outputs (.ar (.package "q") []) := fun h => by
      have := not_input h
      rw [hg] at this; cases this
    simp [State.fs, Ninja.State.finish, this, s₂, Ninja.State.change, hg]
  · have hneed : ∀ k, Needed setup (⟨s₂.tool.finish (outputs (.ar (.package "q") [])) (.ar (.package "q") []) (fun _ => .archive fun m =>
        match ([] : List (Mod × String)).lookup m with
        | some s => some s
        | none => f m), s₂.plan⟩ : State) (.archive (.package "q")) k → k = .ar (.package "q") [] := by
      intro k hn
      induction hn with
      | goal hk' ho => exact script_one hk' hk ho (by decide)
      | input _ hf _ _ ih =>
        subst ih
        simp [prerequisites, compared, inputs, dyndep] at hf
    intro k hn
    rw [hneed k hn]
    refine ⟨fun i hi => by simp [prerequisites, compared, inputs, dyndep] at hi, fun g hg => ?_⟩
    refine ⟨by simp [State.fs, Ninja.State.finish, hg], s₂.fs, by simp [Ninja.State.finish, hg, State.fs], fun i hi => ?_⟩
    simp [compared, inputs, dyndep] at hi
  · refine ⟨fun _ => 0, fun k hn i hi => ?_⟩
    have hneed : ∀ k, Needed setup (⟨s₂.tool.finish (outputs (.ar (.package "q") [])) (.ar (.package "q") []) (fun _ => .archive fun m =>
        match ([] : List (Mod × String)).lookup m with
        | some s => some s
        | none => f m), s₂.plan⟩ : State) (.archive (.package "q")) k → k = .ar (.package "q") [] := by
      intro k hn
      induction hn with
      | goal hk' ho => exact script_one hk' hk ho (by decide)
      | input _ hf _ _ ih =>
        subst ih
        simp [prerequisites, compared, inputs, dyndep] at hf
    rw [hneed k hn] at hi
    simp [prerequisites, compared, inputs, dyndep] at hi
  · intro g hg
    rw [← hin₁ g hg]
    have : g ∉ outputs (.ar (.package "q") []) := fun h => by
      have := not_input h
      rw [hg] at this; cases this
    simp [State.fs, Ninja.State.finish, this, s₂, Ninja.State.change, hg]
  · exact ⟨_, by simp [State.fs, Ninja.State.finish, outputs], fun m => rfl⟩

end Example

open Example in
/-- **C62.** Objects of removed modules stay in archives: `llvm-ar crs` (`lib/infra/src/ninja_build_script_compiler.rs:125-127`) replaces members of archives, and
adds new ones, but never removes any. A new build of the same files makes another archive. -/
theorem c62_removed_modules_stay : ∃ (T : Tools) (S : Setup) (s s' : State), Reach T S (· ≠ .configure) s ∧ Reach T S (· ≠ .configure) s' ∧
    SameInputs s s' ∧ Done S s (.archive (.package "q")) ∧ Done S s' (.archive (.package "q")) ∧
    s.fs (.archive (.package "q")) ≠ s'.fs (.archive (.package "q")) := by
  obtain ⟨s₀, hr, _, hp, hin, _, ha⟩ := application_built (L := (· ≠ .configure)) (by decide) "p" "q" (Or.inl ⟨rfl, rfl⟩)
  obtain ⟨s, hr, hd, hp, hin, f, hf, hf'⟩ := archive_rebuilt hr hin (f := archive "p" (.package "q")) (by simp [readArchive, ha])
  obtain ⟨s', hr', hd', hp', hin', f₁, hf₁, hf₁'⟩ := archive_rebuilt (s := initial "p" "q") (.initial (initial_initial "p" "q")) (fun _ _ => rfl)
    (f := fun _ => none) rfl
  refine ⟨tools, setup, s, s', hr, hr', ⟨by rw [hp, hp'], fun g hg => by rw [hin g hg, hin' g hg]⟩, hd, hd', fun e => ?_⟩
  rw [hf, hf₁] at e
  simp only [Option.some.injEq, Content.archive.injEq] at e
  have h1 := hf' (foo "q")
  rw [e, hf₁'] at h1
  cases h1

/-! ### Cases of the theorems -/

open Example in
/-- Two builds of the application: one that has ended, and one with nothing built. -/
example : ∃ s s', Reach tools setup Edits s ∧ Reach tools setup Edits s' ∧ SameInputs s s' ∧ Done setup s .application ∧
    ¬ Done setup s' .application ∧ s.fs .application = some (.bytes "importp") ∧ s'.fs .application = none ∧
    ∃ s'', Runs tools setup s' s'' ∧ Done setup s'' .application ∧ s''.fs .application = some (.bytes "importp") := by
  obtain ⟨s, hr, hd, hp, hin, ha, _⟩ := application_built (L := Edits) (by decide) "p" "q" (Or.inl ⟨rfl, rfl⟩)
  have hst : Step tools setup .tool s _ := .clean (fun f => !isInput f) (fun f hf => by simpa using hf)
  have hr' : Reach tools setup Edits _ := .step hr (by decide) hst
  have hs : SameInputs s ⟨s.tool.change (fun f => !isInput f) (fun _ => none), s.plan⟩ :=
    ⟨rfl, fun f hf => by simp [State.fs, Ninja.State.change, hf]⟩
  refine ⟨s, _, hr, hr', hs, hd, fun h => ?_, ha, rfl, ?_⟩
  · obtain ⟨k, hk, ho⟩ := h.producer
    have := ((h.upToDate k (.goal hk ho)).outputs _ ho).1
    cases this
  · obtain ⟨s'', h1, h2, h3⟩ := c62_clean_build_ends_partial hr hr' hs rfl hd
    exact ⟨s'', h1, h2, by rw [h3, ha]; rfl⟩

end Verif.App.Build
