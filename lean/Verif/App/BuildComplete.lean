import Verif.App.BuildProofs

/-!
# Builds that end
-/
namespace Verif.App.Build
open Ninja (Right)

theorem Runs.reach {T : Tools} {S : Setup} {L : Label → Prop} {s s' : State} (h : Runs T S s s') (hL : L .tool) (hr : Reach T S L s) :
    Reach T S L s' := by
  induction h with
  | refl => exact hr
  | step k o _ hk hm ih => exact .step ih hL (.run k o hk hm)

theorem Runs.plan {T : Tools} {S : Setup} {s s' : State} (h : Runs T S s s') : s'.plan = s.plan := by
  induction h with
  | refl => rfl
  | step k o _ hk hm ih => exact ih

theorem Runs.members {T : Tools} {S : Setup} {s s' : State} (h : Runs T S s s') (hM : Members S s) : Members S s' := by
  induction h with
  | refl => exact hM
  | step k o _ hk hm ih => exact ih.step (.run (T := T) k o hk hm) (by decide) (by decide)

theorem runs_of {T : Tools} {S : Setup} {s : State} {K' : List Command} {t : Ninja.State File Content Command} (hM : Members S s)
    (hK : ∀ k ∈ K', k ∈ script S s.plan) (h : Ninja.Runs (rules T) K' s.tool t) : Runs T S s ⟨t, s.plan⟩ := by
  suffices hs : ∀ t₀ t, Ninja.Runs (rules T) K' t₀ t → t₀ = s.tool → Runs T S s ⟨t, s.plan⟩ from hs _ _ h rfl
  clear h t
  intro t₀ t h
  induction h with
  | refl => rintro rfl; exact .refl _
  | step k o _ hk hm ih =>
    intro e
    have hr := ih e
    refine .step (s' := ⟨_, s.plan⟩) k o hr (hK k hk) ?_
    rw [(hr.members hM).make_eq (hK k hk)]
    exact hm

theorem plans_congr {S : Setup} {fs fs' : Files} {P : Plan} (h : ∀ f, isInput f = true → fs f = fs' f) (hP : Plans S fs P) :
    Plans S fs' P := by
  have hc : ∀ p, readConfig fs' p = readConfig fs p := fun p => readConfig_congr (h _ rfl).symm
  refine ⟨fun p => ?_, fun m => ?_, fun c hc' => ?_, ?_⟩
  · rw [hP.packages]
    exact ⟨reachable_congr fun p => (h _ rfl).symm, reachable_congr fun p => h _ rfl⟩
  · rw [hP.modules, h (.present m) rfl]
  · obtain ⟨C, q, C', h1, h2, h3, h4⟩ := hP.contexts c hc'
    exact ⟨C, q, C', by rw [hc]; exact h1, h2, by rw [hc]; exact h3, h4⟩
  · rw [hP.application]
    simp only [hc]

section
variable {T : Tools} {S : Setup} {s s' : State} {goal : File}

/-- If a build has ended, one from any other state with the same sources and configurations ends. -/
theorem rebuild (hs : SameInputs s s') (hI : Inv T S (fun _ => False) s) (hD : Done S s goal) (hM' : Members S s')
    (hg : isGoal goal = true) : ∃ s'', Runs T S s' s'' ∧ Done S s'' goal ∧ SameInputs s s'' := by
  obtain ⟨rank, hr⟩ := hD.ranked hI (fun _ _ h => h) hg
  have hone : ∀ k ∈ wanted S (fun _ => False) s goal, ∀ k' ∈ wanted S (fun _ => False) s goal, ∀ f, f ∈ (rules T).outputs k →
      f ∈ (rules T).outputs k' → k = k' := fun k hk k' hk' f hf hf' =>
    script_one (mem_wanted.1 hk).1.mem (mem_wanted.1 hk').1.mem hf hf'
  obtain ⟨t, ht⟩ := Ninja.complete (R := rules T) (K' := wanted S (fun _ => False) s goal) (fs := s.fs) (rank := rank) (s₀ := s'.tool)
    (fun k hk => ⟨right hI hD (fun _ _ h => h) hg (mem_wanted.1 hk).1 (fun h => h), hr k hk⟩) hone (fun k _ => outputs_ne_nil k)
    (hD.sources hI hs (fun _ _ h => h) hg fun _ _ _ _ _ _ _ h => h)
  have hruns := runs_of (S := S) hM' (fun k hk => hs.1 ▸ (mem_wanted.1 hk).1.mem) ht.runs
  have hin : ∀ f, isInput f = true → s.fs f = t.fs f := fun f hf => by
    rw [hs.2 f hf]
    refine (ht.rest f fun k _ hm => ?_).symm
    have := not_input (show f ∈ outputs k from hm)
    rw [hf] at this; cases this
  have hout : ∀ k, Needed S s goal k → ∀ g ∈ outputs k, t.fs g = s.fs g ∧ ∃ fs₀, t.log g = some (k, fs₀) ∧
      ∀ r ∈ reads T k s.fs, fs₀ r = s.fs r := fun k hn g hg' => ht.done k (mem_wanted.2 ⟨hn, fun h => h⟩) trivial g hg'
  have hdyn : ∀ k, Needed S s goal k → prerequisites k t.fs = prerequisites k s.fs := by
    intro k hn
    refine prerequisites_congr fun f hf => ?_
    obtain ⟨m, rfl, _⟩ := dyndep_dynamic hf
    exact (hout _ (hn.resolver hf) _ (by simp [outputs])).1
  have hcomp : ∀ k, Needed S s goal k → compared k t.fs = compared k s.fs := fun k hn =>
    List.append_cancel_left (hdyn k hn)
  have hneed : ∀ k, Needed S (⟨t, s'.plan⟩ : State) goal k → Needed S s goal k := by
    intro k hn
    induction hn with
    | goal hk ho => exact .goal (hs.1 ▸ hk) ho
    | input hn hf hk ho ih => exact .input ih (by rw [← hdyn _ ih]; exact hf) (hs.1 ▸ hk) ho
  have hpre : ∀ k, Needed S s goal k → ∀ i ∈ prerequisites k s.fs, t.fs i = s.fs i := by
    intro k hn i hi
    by_cases hinp : isInput i = true
    · exact (hin i hinp).symm
    · obtain ⟨k', hk', hm⟩ := hI.made i (by simpa using hinp) ((hD.upToDate k hn).prerequisites i hi)
      exact (hout k' (.input hn hi hk' hm) i hm).1
  refine ⟨⟨t, s'.plan⟩, hruns, ⟨?_, ?_, ?_, ?_⟩, hs.1, hin⟩
  · rw [← hs.1]
    exact plans_congr hin hD.plan
  · rw [← hs.1]
    exact hD.producer
  · intro k hn
    have hn := hneed k hn
    refine ⟨fun i hi => ?_, fun g hg' => ?_⟩
    · have hi : i ∈ prerequisites k s.fs := by rw [← hdyn k hn]; exact hi
      show (t.fs i).isSome = true
      rw [hpre k hn i hi]
      exact (hD.upToDate k hn).prerequisites i hi
    · obtain ⟨h1, fs₀, h2, h3⟩ := hout k hn g hg'
      refine ⟨?_, fs₀, h2, fun i hi => ?_⟩
      · show (t.fs g).isSome = true
        rw [h1]
        exact ((hD.upToDate k hn).outputs g hg').1
      · have hi : i ∈ compared k s.fs := by rw [← hcomp k hn]; exact hi
        have hi' : i ∈ prerequisites k s.fs := List.mem_append_right _ hi
        rw [h3 i (List.mem_append_left _ hi')]
        exact (hpre k hn i hi').symm
  · obtain ⟨rank, hrank⟩ := hD.acyclic
    exact ⟨rank, fun k hn i hi g hg' => hrank k (hneed k hn) i (by rw [← hdyn k (hneed k hn)]; exact hi) g hg'⟩

/-- A build ends if there are contents of files that all commands would make. -/
theorem build (fs : Files) (rank : File → Nat) (hM' : Members S s') (hin : ∀ f, isInput f = true → fs f = s'.fs f)
    (hP : Plans S fs s'.plan) (hgoal : ∃ k ∈ script S s'.plan, goal ∈ outputs k)
    (hright : ∀ k ∈ script S s'.plan, Right (rules T) fs k)
    (hrank : ∀ k ∈ script S s'.plan, ∀ r ∈ reads T k fs, ∀ g ∈ outputs k, rank r < rank g)
    (hmade : ∀ k ∈ script S s'.plan, ∀ r ∈ reads T k fs, (∃ k' ∈ script S s'.plan, r ∈ outputs k') ∨ isInput r = true)
    (hex : ∀ k ∈ script S s'.plan, ∀ r ∈ prerequisites k fs, (fs r).isSome = true) :
    ∃ s'', Runs T S s' s'' ∧ Done S s'' goal ∧ (∀ f, isInput f = true → fs f = s''.fs f) ∧
      ∀ k ∈ script S s'.plan, ∀ g ∈ outputs k, s''.fs g = fs g := by
  obtain ⟨t, ht⟩ := Ninja.complete (R := rules T) (K' := script S s'.plan) (fs := fs) (rank := rank) (s₀ := s'.tool)
    (fun k hk => ⟨hright k hk, hrank k hk⟩) (fun k hk k' hk' f hf hf' => script_one hk hk' hf hf') (fun k _ => outputs_ne_nil k)
    (fun k hk r hr => (hmade k hk r hr).imp id fun h => hin r h)
  have hruns := runs_of (S := S) hM' (fun k hk => hk) ht.runs
  have hin' : ∀ f, isInput f = true → fs f = t.fs f := fun f hf => by
    rw [hin f hf]
    refine (ht.rest f fun k _ hm => ?_).symm
    have := not_input (show f ∈ outputs k from hm)
    rw [hf] at this; cases this
  have hout : ∀ k ∈ script S s'.plan, ∀ g ∈ outputs k, t.fs g = fs g ∧ ∃ fs₀, t.log g = some (k, fs₀) ∧
      ∀ r ∈ reads T k fs, fs₀ r = fs r := fun k hn g hg' => ht.done k hn trivial g hg'
  have hreads : ∀ k ∈ script S s'.plan, ∀ r ∈ reads T k fs, t.fs r = fs r := by
    intro k hk r hr
    rcases hmade k hk r hr with ⟨k', hk', hm⟩ | h
    · exact (hout k' hk' r hm).1
    · exact (hin' r h).symm
  have hdyn : ∀ k ∈ script S s'.plan, prerequisites k t.fs = prerequisites k fs := fun k hk =>
    prerequisites_congr fun f hf => hreads k hk f (mem_reads_dyndep hf)
  refine ⟨⟨t, s'.plan⟩, hruns, ⟨plans_congr hin' hP, hgoal, ?_, ?_⟩, hin', fun k hk g hg => (hout k hk g hg).1⟩
  · intro k hn
    have hk := hn.mem
    refine ⟨fun i hi => ?_, fun g hg' => ?_⟩
    · have hi : i ∈ prerequisites k fs := by rw [← hdyn k hk]; exact hi
      show (t.fs i).isSome = true
      rw [hreads k hk i (List.mem_append_left _ hi)]
      exact hex k hk i hi
    · obtain ⟨h1, fs₀, h2, h3⟩ := hout k hk g hg'
      obtain ⟨o, _, ho⟩ := hright k hk
      refine ⟨?_, fs₀, h2, fun i hi => ?_⟩
      · show (t.fs g).isSome = true
        rw [h1, ho g hg']; rfl
      · have hi' : i ∈ prerequisites k fs := by rw [← hdyn k hk]; exact List.mem_append_right _ hi
        rw [h3 i (List.mem_append_left _ hi')]
        exact (hreads k hk i (List.mem_append_left _ hi')).symm
  · exact ⟨rank, fun k hn i hi g hg' => hrank k hn.mem i (List.mem_append_left _ (by rw [← hdyn k hn.mem]; exact hi)) g hg'⟩

end

/-! ### What was made -/

/-- The rules as they are. -/
def realReads (T : Tools) (k : Command) (fs : Files) : List File :=
  match k with
  | .ar a _ => .archive a :: reads T k fs
  | _ => reads T k fs

def real (T : Tools) : Ninja.Rules File Content Command where
  outputs := outputs
  make := make T
  reads := realReads T
  reads_local k fs fs' h := by
    cases k with
    | ar a ms =>
      have hr := reads_local T (.ar a ms) fs fs' fun f hf => h f (List.mem_cons_of_mem _ hf)
      refine ⟨?_, by simp only [realReads, hr.2]⟩
      have ha := h (.archive a) List.mem_cons_self
      simp only [make]
      rw [mapM_congr (g := fun m => (readBytes fs (.object m)).map fun s => (m, s)), readArchive_congr ha]
      intro m hm
      rw [readBytes_congr (h (.object m) (List.mem_cons_of_mem _ (mem_reads_inputs (List.mem_map.2 ⟨m, hm, rfl⟩))))]
    | _ => exact reads_local T _ fs fs' h

theorem Reach.real {T : Tools} {S : Setup} {L : Label → Prop} {s : State} (h : Reach T S L s) : Ninja.Inv (real T) (fun _ => False) s.tool := by
  induction h with
  | initial hi => exact fun f k fs hl => by rw [hi.log f] at hl; cases hl
  | step _ _ hs ih =>
    refine ih.step ?_
    cases hs with
    | edit m text =>
      refine .modify _ _ fun f hf k hk => ?_
      have := not_input hk
      simp only [decide_eq_true_eq] at hf
      rcases hf with rfl | rfl <;> cases this
    | delete m =>
      refine .modify _ _ fun f hf k hk => ?_
      have := not_input hk
      simp only [decide_eq_true_eq] at hf
      rcases hf with rfl | rfl <;> cases this
    | configure p c =>
      refine .modify _ _ fun f hf k hk => ?_
      have := not_input hk
      simp only [decide_eq_true_eq] at hf
      subst hf; cases this
    | start P hP => exact .remove _
    | run k o hk hm => exact .run (R := Build.real T) k o fun _ => hm
    | crash k new hk ha ho => exact .crash (R := Build.real T) k new ho
    | clean D hD => exact .remove _
    | forget D => exact .forget _

end Verif.App.Build
