import Verif.App.Build

/-!
# Commands of build scripts and what they read
-/
namespace Verif.App.Build
open Ninja (Right)

theorem mapM_congr {α β : Type} {l : List α} {f g : α → Option β} (h : ∀ x ∈ l, f x = g x) : l.mapM f = l.mapM g := by
  induction l with
  | nil => rfl
  | cons a l ih =>
    rw [List.mapM_cons, List.mapM_cons, h a List.mem_cons_self, ih fun x hx => h x (List.mem_cons_of_mem _ hx)]

theorem mapM_some {α β : Type} {l : List α} {f : α → Option β} {r : List β} (h : l.mapM f = some r) :
    ∀ x ∈ l, ∃ y, f x = some y ∧ y ∈ r := by
  induction l generalizing r with
  | nil => simp
  | cons a l ih =>
    rw [List.mapM_cons] at h
    cases ha : f a with
    | none => rw [ha] at h; cases h
    | some b =>
      cases hl : l.mapM f with
      | none => rw [ha, hl] at h; cases h
      | some bs =>
        rw [ha, hl] at h
        cases h
        intro x hx
        rcases List.mem_cons.1 hx with rfl | hx
        · exact ⟨b, ha, List.mem_cons_self⟩
        · obtain ⟨y, hy, hm⟩ := ih hl x hx
          exact ⟨y, hy, List.mem_cons_of_mem _ hm⟩

theorem mapM_inv {α β : Type} {l : List α} {f : α → Option β} {r : List β} (h : l.mapM f = some r) :
    ∀ y ∈ r, ∃ x ∈ l, f x = some y := by
  induction l generalizing r with
  | nil => cases h; simp
  | cons a l ih =>
    rw [List.mapM_cons] at h
    cases ha : f a with
    | none => rw [ha] at h; cases h
    | some b =>
      cases hl : l.mapM f with
      | none => rw [ha, hl] at h; cases h
      | some bs =>
        rw [ha, hl] at h
        cases h
        intro y hy
        rcases List.mem_cons.1 hy with rfl | hy
        · exact ⟨a, List.mem_cons_self, ha⟩
        · obtain ⟨x, hx, e⟩ := ih hl y hy
          exact ⟨x, List.mem_cons_of_mem _ hx, e⟩

theorem mapM_isSome {α β : Type} {l : List α} {f : α → Option β} (h : ∀ x ∈ l, ∃ y, f x = some y) : ∃ r, l.mapM f = some r := by
  induction l with
  | nil => exact ⟨[], rfl⟩
  | cons a l ih =>
    obtain ⟨y, hy⟩ := h a List.mem_cons_self
    obtain ⟨r, hr⟩ := ih fun x hx => h x (List.mem_cons_of_mem _ hx)
    exact ⟨y :: r, by rw [List.mapM_cons, hy, hr]; rfl⟩

/-! ### Rules -/

/-- Files as if archives were not there. -/
def hide (k : Command) (fs : Files) : Files :=
  match k with
  | .ar a _ => fun f => if f = .archive a then none else fs f
  | _ => fs

/-- Commands that make archives from nothing. -/
def ideal (T : Tools) (k : Command) (fs : Files) : Option (File → Content) := make T k (hide k fs)

/-- Files that are read but not known to the tool. -/
def extra (T : Tools) (k : Command) (fs : Files) : List File :=
  match k with
  | .compile m | .compileTest m | .compileMain m _ =>
    match readDependencies fs m with
    | some (is, ps) => (is.map (·.2) ++ ps).map .interface
    | none => []
  | .resolve m _ => .config m.package ::
    match readConfig fs m.package, (readBytes fs (.source m)).bind (T.parse m) with
    | some c, some is => (is.filterMap (target c m.package)).map .present
    | _, _ => []
  | _ => []

def reads (T : Tools) (k : Command) (fs : Files) : List File := prerequisites k fs ++ extra T k fs

theorem readBytes_congr {fs fs' : Files} {f : File} (h : fs' f = fs f) : readBytes fs' f = readBytes fs f := by
  simp only [readBytes, h]

theorem readDependencies_congr {fs fs' : Files} {m : Mod} (h : fs' (.dependency m) = fs (.dependency m)) :
    readDependencies fs' m = readDependencies fs m := by simp only [readDependencies, h]

theorem readConfig_congr {fs fs' : Files} {p : String} (h : fs' (.config p) = fs (.config p)) : readConfig fs' p = readConfig fs p := by
  simp only [readConfig, h]

theorem readArchive_congr {fs fs' : Files} {a : Archive} (h : fs' (.archive a) = fs (.archive a)) : readArchive fs' a = readArchive fs a := by
  simp only [readArchive, h]

theorem prerequisites_congr {k : Command} {fs fs' : Files} (h : ∀ f ∈ dyndep k, fs' f = fs f) : prerequisites k fs' = prerequisites k fs := by
  cases hd : dyndep k with
  | none => simp [prerequisites, compared, hd]
  | some f => simp [prerequisites, compared, hd, h f hd]

theorem mem_reads_dyndep {T : Tools} {k : Command} {fs : Files} {f : File} (h : f ∈ dyndep k) : f ∈ reads T k fs := by
  simp only [reads, prerequisites, List.mem_append, Option.mem_toList]
  exact Or.inl (Or.inl h)

theorem mem_reads_inputs {T : Tools} {k : Command} {fs : Files} {f : File} (h : f ∈ inputs k) : f ∈ reads T k fs := by
  simp only [reads, prerequisites, compared, List.mem_append]
  exact Or.inl (Or.inr (Or.inl h))

theorem mem_reads_extra {T : Tools} {k : Command} {fs : Files} {f : File} (h : f ∈ extra T k fs) : f ∈ reads T k fs :=
  List.mem_append_right _ h

theorem readModule_congr {T : Tools} {m : Mod} {fs fs' : Files} (hd : fs' (.dependency m) = fs (.dependency m))
    (hs : fs' (.source m) = fs (.source m))
    (hi : ∀ is ps, readDependencies fs m = some (is, ps) → ∀ m' ∈ is.map (·.2) ++ ps, fs' (.interface m') = fs (.interface m')) :
    readModule T m fs' = readModule T m fs := by
  simp only [readModule, readDependencies_congr hd, readBytes_congr hs]
  cases hr : readDependencies fs m with
  | none => rfl
  | some p =>
    obtain ⟨is, ps⟩ := p
    have hi := hi is ps hr
    simp only [Option.bind_eq_bind, Option.bind_some]
    congr 1; funext text; congr 1; funext imports
    rw [mapM_congr (f := fun i => (is.lookup i).bind fun m => readBytes fs' (.interface m))
        (g := fun i => (is.lookup i).bind fun m => readBytes fs (.interface m)),
      mapM_congr (l := ps) (f := fun m => readBytes fs' (.interface m)) (g := fun m => readBytes fs (.interface m))]
    · exact fun m' hm' => readBytes_congr (hi m' (List.mem_append_right _ hm'))
    · intro i _
      cases hl : is.lookup i with
      | none => rfl
      | some m' =>
        have hmem : (i, m') ∈ is := by
          rw [List.lookup_eq_some_iff] at hl
          obtain ⟨l₁, l₂, rfl, _⟩ := hl
          simp
        exact readBytes_congr (hi m' (List.mem_append_left _ (List.mem_map.2 ⟨_, hmem, rfl⟩)))

theorem resolve_congr {T : Tools} {m : Mod} {ps : List Mod} {fs fs' : Files} (hs : fs' (.source m) = fs (.source m))
    (hc : fs' (.config m.package) = fs (.config m.package))
    (hp : ∀ c is, readConfig fs m.package = some c → (readBytes fs (.source m)).bind (T.parse m) = some is →
      ∀ t ∈ is.filterMap (target c m.package), fs' (.present t) = fs (.present t)) :
    resolve T m ps fs' = resolve T m ps fs := by
  simp only [resolve, readConfig_congr hc, readBytes_congr hs]
  cases hr : readConfig fs m.package with
  | none => rfl
  | some c =>
    cases hb : readBytes fs (.source m) with
    | none => rfl
    | some text =>
      cases hi : T.parse m text with
      | none => simp [hi]
      | some is =>
        have hp := hp c is hr (by rw [hb]; exact hi)
        simp only [Option.bind_eq_bind, Option.bind_some, hi]
        refine mapM_congr fun i hm => ?_
        simp only [resolveImport]
        cases ht : target c m.package i with
        | none => rfl
        | some t => simp only [hp t (List.mem_filterMap.2 ⟨i, hm, ht⟩)]

/-- What is made depends on inputs in build scripts and `extra` ones. -/
theorem ideal_congr {T : Tools} {k : Command} {fs fs' : Files} (hin : ∀ f ∈ inputs k, fs' f = fs f)
    (hex : ∀ f ∈ extra T k fs, fs' f = fs f) : ideal T k fs' = ideal T k fs := by
  have hmod : ∀ m, inputs k = [.source m, .dependency m] ∨ (∃ l, inputs k = [.source m, .dependency m] ++ l) →
      (extra T k fs = match readDependencies fs m with
        | some (is, ps) => (is.map (·.2) ++ ps).map .interface
        | none => []) → readModule T m fs' = readModule T m fs := by
    intro m hm he
    have hsub : ∀ f ∈ [File.source m, .dependency m], f ∈ inputs k := by
      rcases hm with hm | ⟨l, hm⟩ <;> rw [hm] <;> intro f hf
      · exact hf
      · exact List.mem_append_left _ hf
    refine readModule_congr (hin _ (hsub _ (by simp))) (hin _ (hsub _ (by simp))) fun is ps hd m' hm' => hex _ ?_
    rw [he, hd]
    exact List.mem_map.2 ⟨m', hm', rfl⟩
  cases k with
  | compile m => simp only [ideal, hide, make, hmod m (Or.inl rfl) rfl]
  | compileTest m => simp only [ideal, hide, make, hmod m (Or.inl rfl) rfl]
  | compileMain m cs =>
    simp only [ideal, hide, make, hmod m (Or.inr ⟨_, rfl⟩) rfl]
    rw [mapM_congr (g := fun c => (readBytes fs (.interface c.2)).map fun s => (c.1, s))]
    intro c hc
    rw [readBytes_congr (hin _ (List.mem_append_right _ (List.mem_map.2 ⟨c, hc, rfl⟩)))]
  | compilePrelude m => simp only [ideal, hide, make, readBytes_congr (hin (.source m) (by simp [inputs]))]
  | resolve m ps =>
    simp only [ideal, hide, make]
    rw [resolve_congr (hin _ (by simp [inputs])) (hex _ (by simp [extra]))]
    intro c is hc hb t ht
    refine hex _ ?_
    simp only [extra, hc, hb]
    exact List.mem_cons_of_mem _ (List.mem_map.2 ⟨t, ht, rfl⟩)
  | opt m => simp only [ideal, hide, make, readBytes_congr (hin (.bitCode m) (by simp [inputs]))]
  | llc m => simp only [ideal, hide, make, readBytes_congr (hin (.optimized m) (by simp [inputs]))]
  | ar a ms =>
    simp only [ideal, make]
    rw [mapM_congr (g := fun m => (readBytes (hide (.ar a ms) fs) (.object m)).map fun s => (m, s)),
      readArchive_congr (fs' := hide (.ar a ms) fs') (fs := hide (.ar a ms) fs) (by simp [hide])]
    intro m hm
    rw [readBytes_congr]
    simpa [hide] using hin (.object m) (List.mem_map.2 ⟨m, hm, rfl⟩)
  | packageTests ms =>
    simp only [ideal, hide, make]
    rw [mapM_congr (g := fun m => readBytes fs (.testInformation m))]
    exact fun m hm => readBytes_congr (hin _ (List.mem_map.2 ⟨m, hm, rfl⟩))
  | link as =>
    simp only [ideal, hide, make]
    rw [mapM_congr (g := readArchive fs)]
    exact fun a ha => readArchive_congr (hin _ (List.mem_map.2 ⟨a, ha, rfl⟩))
  | linkTest as =>
    simp only [ideal, hide, make, readBytes_congr (hin .packageTests (by simp [inputs]))]
    rw [mapM_congr (g := readArchive fs)]
    exact fun a ha => readArchive_congr (hin _ (List.mem_cons_of_mem _ (List.mem_map.2 ⟨a, ha, rfl⟩)))

theorem reads_local (T : Tools) (k : Command) (fs fs' : Files) (h : ∀ f ∈ reads T k fs, fs' f = fs f) :
    ideal T k fs' = ideal T k fs ∧ reads T k fs' = reads T k fs := by
  have hpre : prerequisites k fs' = prerequisites k fs := prerequisites_congr fun f hf => h f (mem_reads_dyndep hf)
  have hin : ∀ f ∈ inputs k, fs' f = fs f := fun f hf => h f (mem_reads_inputs hf)
  have hex : ∀ f ∈ extra T k fs, fs' f = fs f := fun f hf => h f (mem_reads_extra hf)
  have hdep : ∀ m, File.dependency m ∈ inputs k → readDependencies fs' m = readDependencies fs m := fun m hm =>
    readDependencies_congr (hin _ hm)
  refine ⟨ideal_congr hin hex, ?_⟩
  simp only [reads, hpre]
  congr 1
  cases k with
  | compile m => simp only [extra, hdep m (by simp [inputs])]
  | compileTest m => simp only [extra, hdep m (by simp [inputs])]
  | compileMain m cs => simp only [extra, hdep m (by simp [inputs])]
  | resolve m ps =>
    simp only [extra, readConfig_congr (hex (.config m.package) (by simp [extra])), readBytes_congr (hin (.source m) (by simp [inputs]))]
  | _ => rfl

/-- The rules with archives made from nothing. -/
def rules (T : Tools) : Ninja.Rules File Content Command where
  outputs := outputs
  make := ideal T
  reads := reads T
  reads_local := reads_local T

/-! ### Scripts -/

theorem not_input {k : Command} {f : File} (h : f ∈ outputs k) : isInput f = false := by
  cases k <;> simp [outputs] at h <;> (try rcases h with rfl | rfl) <;> (try subst h) <;> rfl

theorem outputs_ne_nil (k : Command) : outputs k ≠ [] := by cases k <;> simp [outputs]

/-- The module that a command is for. -/
def subject : Command → Option Mod
  | .compile m | .compileTest m | .compileMain m _ | .compilePrelude m | .resolve m _ | .opt m | .llc m => some m
  | _ => none

theorem mem_script {S : Setup} {P : Plan} {k : Command} (h : k ∈ script S P) :
    (∃ m ∈ P.modules, k ∈ moduleCommands S P m) ∨ (∃ p ∈ P.packages, k = .ar (.package p) (packageModules P p)) ∨
      k = .ar .tests (testModules P) ∨ k = .packageTests (testModules P) ∨ (P.application = true ∧ k = .link (P.packages.map .package)) ∨
      k = .linkTest (.tests :: P.packages.map .package) := by
  simp only [script, List.mem_append, List.mem_flatMap, List.mem_map, List.mem_cons, List.not_mem_nil, or_false] at h
  rcases h with (((h | ⟨p, hp, rfl⟩) | (h | h)) | h) | h
  · exact Or.inl h
  · exact Or.inr (Or.inl ⟨p, hp, rfl⟩)
  · exact Or.inr (Or.inr (Or.inl h))
  · exact Or.inr (Or.inr (Or.inr (Or.inl h)))
  · split at h
    · rename_i ha
      simp only [List.mem_cons, List.not_mem_nil, or_false] at h
      exact Or.inr (Or.inr (Or.inr (Or.inr (Or.inl ⟨ha, h⟩))))
    · cases h
  · exact Or.inr (Or.inr (Or.inr (Or.inr (Or.inr h))))

/-- What commands of a module are. -/
theorem mem_moduleCommands {S : Setup} {P : Plan} {m : Mod} {k : Command} (h : k ∈ moduleCommands S P m) :
    (m.package = S.prelude ∧ k = .compilePrelude m) ∨
    (m.package ≠ S.prelude ∧ (k = .resolve m (preludes S P) ∨ (m.test = true ∧ k = .compileTest m) ∨
      (m.test = false ∧ m = S.mainModule ∧ k = .compileMain m P.contexts) ∨ (m.test = false ∧ m ≠ S.mainModule ∧ k = .compile m))) ∨
    k = .opt m ∨ k = .llc m := by
  simp only [moduleCommands, List.mem_append, List.mem_cons, List.not_mem_nil, or_false] at h
  rcases h with h | h
  · split at h
    · rename_i hp
      simp only [List.mem_cons, List.not_mem_nil, or_false] at h
      exact Or.inl ⟨hp, h⟩
    · rename_i hp
      refine Or.inr (Or.inl ⟨hp, ?_⟩)
      split at h
      · rename_i ht
        simp only [List.mem_cons, List.not_mem_nil, or_false] at h
        rcases h with h | h
        · exact Or.inr (Or.inl ⟨ht, h⟩)
        · exact Or.inl h
      · rename_i ht
        have ht : m.test = false := by simpa using ht
        split at h
        · rename_i hm
          simp only [List.mem_cons, List.not_mem_nil, or_false] at h
          rcases h with h | h
          · exact Or.inr (Or.inr (Or.inl ⟨ht, hm, h⟩))
          · exact Or.inl h
        · rename_i hm
          simp only [List.mem_cons, List.not_mem_nil, or_false] at h
          rcases h with h | h
          · exact Or.inr (Or.inr (Or.inr ⟨ht, hm, h⟩))
          · exact Or.inl h
  · exact Or.inr (Or.inr h)

theorem moduleCommands_subject {S : Setup} {P : Plan} {m : Mod} {k : Command} (h : k ∈ moduleCommands S P m) : subject k = some m := by
  rcases mem_moduleCommands h with ⟨_, rfl⟩ | ⟨_, rfl | ⟨_, rfl⟩ | ⟨_, _, rfl⟩ | ⟨_, _, rfl⟩⟩ | rfl | rfl <;> rfl

/-- A command for a module is one of the commands of the module. -/
theorem script_subject {S : Setup} {P : Plan} {m : Mod} {k : Command} (h : k ∈ script S P) (hs : subject k = some m) :
    m ∈ P.modules ∧ k ∈ moduleCommands S P m := by
  rcases mem_script h with ⟨m', hm', hk⟩ | ⟨p, _, rfl⟩ | rfl | rfl | ⟨_, rfl⟩ | rfl
  · have := moduleCommands_subject hk
    rw [hs] at this
    cases this
    exact ⟨hm', hk⟩
  all_goals cases hs

theorem script_module {S : Setup} {P : Plan} {m : Mod} {k : Command} (hm : m ∈ P.modules) (hk : k ∈ moduleCommands S P m) :
    k ∈ script S P := by
  simp only [script, List.mem_append, List.mem_flatMap]
  exact Or.inl (Or.inl (Or.inl (Or.inl ⟨m, hm, hk⟩)))

/-- Every file is an output of one command. -/
theorem script_one {S : Setup} {P : Plan} {k k' : Command} {f : File} (h : k ∈ script S P) (h' : k' ∈ script S P)
    (hf : f ∈ outputs k) (hf' : f ∈ outputs k') : k = k' := by
  rcases mem_script h with ⟨m, hm, hk⟩ | ⟨p, _, rfl⟩ | rfl | rfl | ⟨_, rfl⟩ | rfl <;>
  rcases mem_script h' with ⟨m', hm', hk'⟩ | ⟨p', _, rfl⟩ | rfl | rfl | ⟨_, rfl⟩ | rfl
  · rcases mem_moduleCommands hk with ⟨h1, rfl⟩ | ⟨h1, rfl | ⟨h2, rfl⟩ | ⟨h2, h3, rfl⟩ | ⟨h2, h3, rfl⟩⟩ | rfl | rfl <;>
    rcases mem_moduleCommands hk' with ⟨h1', rfl⟩ | ⟨h1', rfl | ⟨h2', rfl⟩ | ⟨h2', h3', rfl⟩ | ⟨h2', h3', rfl⟩⟩ | rfl | rfl <;>
    simp only [outputs, List.mem_cons, List.not_mem_nil, or_false] at hf hf' <;>
    (try rcases hf with rfl | rfl) <;> (try subst hf) <;> simp at hf' <;> (try subst hf') <;> simp_all
  all_goals first
    | rfl
    | (rcases mem_moduleCommands hk with ⟨h1, rfl⟩ | ⟨h1, rfl | ⟨h2, rfl⟩ | ⟨h2, h3, rfl⟩ | ⟨h2, h3, rfl⟩⟩ | rfl | rfl <;>
        simp [outputs] at hf hf' <;> subst hf' <;> simp at hf)
    | (rcases mem_moduleCommands hk' with ⟨h1, rfl⟩ | ⟨h1, rfl | ⟨h2, rfl⟩ | ⟨h2, h3, rfl⟩ | ⟨h2, h3, rfl⟩⟩ | rfl | rfl <;>
        simp [outputs] at hf hf' <;> subst hf <;> simp at hf')
    | (simp [outputs] at hf hf'; subst hf; simp at hf'; try subst hf'; try rfl)

end Verif.App.Build
