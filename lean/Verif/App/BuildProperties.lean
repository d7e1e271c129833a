import Verif.App.BuildComplete

/-!
# Properties of builds
-/
namespace Verif.App.Build

variable {T : Tools} {S : Setup} {s s' : State} {goal : File}

/-- Histories in which source files are written and made, builds are run, stopped and cleaned, in any order. -/
abbrev Edits (l : Label) : Prop := l ≠ .configure ∧ l ≠ .delete

/-- **C62.** Whatever happened before, a build that has ended has made what any other build of the same sources has made. -/
theorem c62_builds_agree_partial (h : Reach T S Edits s) (h' : Reach T S Edits s') (hs : SameInputs s s') (hg : isGoal goal = true)
    (hd : Done S s goal) (hd' : Done S s' goal) :
    s.fs goal = s'.fs goal ∧ ∀ k, Needed S s goal k → ∀ f ∈ outputs k, s.fs f = s'.fs f := by
  have key : ∀ k, Needed S s goal k → ∀ f ∈ outputs k, s.fs f = s'.fs f := fun k hn =>
    agree hs h.members.2 h'.members.2 hd hd' (fun _ _ h => h) hg (fun _ _ _ _ _ _ _ h => h) hn fun h => h
  obtain ⟨k, hk, ho⟩ := hd.producer
  exact ⟨key k (.goal hk ho) goal ho, key⟩

/-- **C62.** When a build has ended, all files it needs are what commands would make again. -/
theorem c62_built_files_are_current_partial (h : Reach T S Edits s) (hg : isGoal goal = true) (hd : Done S s goal) :
    ∀ k, Needed S s goal k → ∃ o, make T k s.fs = some o ∧ ∀ f ∈ outputs k, s.fs f = some (o f) := by
  intro k hn
  rw [h.members.1.make_eq hn.mem]
  exact right h.members.2 hd (fun _ _ h => h) hg hn fun h => h

/-- **C62.** If a build ends, one of the same sources from any other state, with nothing built for example, can end too, and in the same
files. -/
theorem c62_clean_build_ends_partial (h : Reach T S Edits s) (h' : Reach T S Edits s') (hs : SameInputs s s') (hg : isGoal goal = true)
    (hd : Done S s goal) : ∃ s'', Runs T S s' s'' ∧ Done S s'' goal ∧ s''.fs goal = s.fs goal := by
  obtain ⟨s'', hr, hd'', hs''⟩ := rebuild hs h.members.2 hd h'.members.1 hg
  exact ⟨s'', hr, hd'', ((c62_builds_agree_partial h (hr.reach ⟨by decide, by decide⟩ h') hs'' hg hd hd'').1).symm⟩

theorem late_prerequisites {fs : Files} {k : Command} {f : File} {k' : Command} (hk : ¬ late k) (hf : f ∈ prerequisites k fs)
    (ho : f ∈ outputs k') : ¬ late k' := by
  intro hl
  have hf' : isGoal f = true := by
    cases k' <;> first | exact hl.elim | (simp only [outputs, List.mem_cons, List.not_mem_nil, or_false] at ho; subst ho; rfl)
  have hm : ∀ (g : Mod → File) (ms : List Mod), (∀ m, isGoal (g m) = false) → f ∉ ms.map g := by
    intro g ms hg hm
    obtain ⟨m, _, rfl⟩ := List.mem_map.1 hm
    rw [hg m] at hf'; cases hf'
  simp only [prerequisites, compared, List.mem_append, Option.mem_toList] at hf
  rcases hf with hf | hf | hf
  · obtain ⟨m, rfl, _⟩ := dyndep_dynamic hf
    cases hf'
  · cases k with
    | ar | link | linkTest => exact hk trivial
    | packageTests ms => exact hm _ ms (fun _ => rfl) hf
    | compileMain m cs =>
      simp only [inputs, List.mem_append, List.mem_cons, List.not_mem_nil, or_false] at hf
      rcases hf with (rfl | rfl) | hf
      · cases hf'
      · cases hf'
      · obtain ⟨c, _, rfl⟩ := List.mem_map.1 hf
        cases hf'
    | compile m | compileTest m =>
      simp only [inputs, List.mem_cons, List.not_mem_nil, or_false] at hf
      rcases hf with rfl | rfl <;> cases hf'
    | _ =>
      simp only [inputs, List.mem_cons, List.not_mem_nil, or_false] at hf
      subst hf
      cases hf'
  · split at hf
    · split at hf
      · exact hm _ _ (fun _ => rfl) hf
      · cases hf
    · cases hf

/-- **C62.** With source files removed too, all files but archives and linked ones are as in any other build of the same sources. -/
theorem c62_objects_agree_partial (h : Reach T S (· ≠ .configure) s) (h' : Reach T S (· ≠ .configure) s') (hs : SameInputs s s')
    (hg : isGoal goal = true) (hd : Done S s goal) (hd' : Done S s' goal) :
    ∀ k, Needed S s goal k → ∀ f ∈ outputs k, isGoal f = false → s.fs f = s'.fs f := by
  intro k hn f hf hgf
  refine agree hs h.inv h'.inv hd hd' (fun _ _ h => h) hg (fun k f k' _ hk hf ho => late_prerequisites hk hf ho) hn ?_ f hf
  intro hl
  cases k <;> first | exact hl.elim | (simp only [outputs, List.mem_cons, List.not_mem_nil, or_false] at hf; subst hf; cases hgf)

/-- **C62.** Archives have the last objects of all modules, after any histories. -/
theorem c62_archives_have_objects {L : Label → Prop} (h : Reach T S L s) (hd : Done S s goal) {a : Archive} {ms : List Mod}
    (hn : Needed S s goal (.ar a ms)) : ∃ f, s.fs (.archive a) = some (.archive f) ∧
      ∀ m ∈ ms, ∃ x, s.fs (.object m) = some (.bytes x) ∧ f m = some x := by
  obtain ⟨he, fs, hlog, hsame⟩ := (hd.upToDate _ hn).outputs (.archive a) (by simp [outputs])
  obtain ⟨o, ho, hf⟩ := (h.real _ _ fs hlog).2 fun h => h
  have ho : make T (.ar a ms) fs = some o := ho
  have hf : s.fs (.archive a) = some (o (.archive a)) := by
    rcases hf with hf | hf
    · have he : (s.tool.fs (.archive a)).isSome = true := he
      rw [hf] at he; cases he
    · exact hf
  simp only [make] at ho
  cases hm : ms.mapM (fun m => (readBytes fs (.object m)).map fun s => (m, s)) with
  | none => rw [hm] at ho; cases ho
  | some objects =>
    rw [hm] at ho
    simp only [Option.bind_eq_bind, Option.bind_some, Option.pure_def, Option.some.injEq] at ho
    rw [← ho] at hf
    refine ⟨_, hf, fun m hmm => ?_⟩
    have hsm : fs (.object m) = s.fs (.object m) := hsame _ (by simpa [compared, inputs, dyndep] using hmm)
    have hl := (lookup_objects hm m).1 hmm
    cases hlm : objects.lookup m with
    | none => exact absurd hlm hl
    | some x =>
      refine ⟨x, ?_, rfl⟩
      have hmem : (m, x) ∈ objects := by
        rw [List.lookup_eq_some_iff] at hlm
        obtain ⟨l₁, l₂, rfl, _⟩ := hlm
        simp
      obtain ⟨m', _, e⟩ := mapM_inv hm _ hmem
      cases hb : readBytes fs (.object m') with
      | none => rw [hb] at e; cases e
      | some y =>
        rw [hb] at e
        cases e
        rw [← hsm]
        simp only [readBytes] at hb
        split at hb
        · rename_i e'
          cases hb; exact e'
        · cases hb

/-- **C62.** The archive of a package has objects of all its modules, after any histories. -/
theorem c62_archives_have_all_modules {L : Label → Prop} (h : Reach T S L s) {p : String} (hd : Done S s (.archive (.package p))) {m : Mod}
    (hm : (s.fs (.present m)).isSome = true) (hp : m.package = p) (ht : m.test = false) :
    ∃ f x, s.fs (.archive (.package p)) = some (.archive f) ∧ s.fs (.object m) = some (.bytes x) ∧ f m = some x := by
  obtain ⟨k, hk, ho⟩ := hd.producer
  obtain ⟨a, ms, rfl⟩ : ∃ a ms, k = .ar a ms := by
    cases k with
    | ar a ms => exact ⟨a, ms, rfl⟩
    | _ => simp [outputs] at ho
  have ea : a = .package p := by simpa [outputs, eq_comm] using ho
  subst ea
  obtain ⟨f, hf, hall⟩ := c62_archives_have_objects h hd (.goal hk ho)
  have hpk : p ∈ s.plan.packages := by
    rcases mem_script hk with ⟨m', _, hk'⟩ | ⟨p', hp', e⟩ | e | e | ⟨_, e⟩ | e
    · have := moduleCommands_subject hk'
      cases this
    · cases e; exact hp'
    all_goals cases e
  have hmem : m ∈ s.plan.modules := (hd.plan.modules m).2 ⟨hm, by rw [hp]; exact hpk, fun h => by rw [ht] at h; cases h⟩
  obtain ⟨x, h1, h2⟩ := hall m ((ar_modules hk m).2 ⟨⟨hp, ht⟩, hmem⟩)
  exact ⟨f, x, hf, h1, h2⟩

end Verif.App.Build
