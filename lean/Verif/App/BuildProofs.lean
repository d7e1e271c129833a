import Verif.App.BuildLemmas

/-!
# Proofs about builds
-/
namespace Verif.App.Build
open Ninja (Right)

/-! ### Dependencies -/

/-- Modules that are imported, whether they exist or not. -/
def targets (T : Tools) (m : Mod) (fs : Files) : Option (List (Import × Mod)) := do
  let config ← readConfig fs m.package
  let text ← readBytes fs (.source m)
  let imports ← T.parse m text
  imports.mapM fun i => (target config m.package i).map fun t => (i, t)

theorem resolveImport_eq (fs : Files) (c : Config) (p : String) (l : List Import) (r : List (Import × Mod)) :
    l.mapM (resolveImport fs c p) = some r ↔
      l.mapM (fun i => (target c p i).map fun t => (i, t)) = some r ∧ ∀ x ∈ r, (fs (.present x.2)).isSome = true := by
  induction l generalizing r with
  | nil =>
    simp only [List.mapM_nil, Option.pure_def, Option.some.injEq]
    constructor
    · rintro rfl; exact ⟨rfl, by simp⟩
    · exact (·.1)
  | cons i l ih =>
    rw [List.mapM_cons, List.mapM_cons]
    simp only [Option.bind_eq_bind, Option.pure_def]
    cases ht : target c p i with
    | none => simp [resolveImport, ht]
    | some t =>
      by_cases hp : (fs (.present t)).isSome = true
      · have e : resolveImport fs c p i = some (i, t) := by simp [resolveImport, ht, hp]
        rw [e]
        simp only [Option.map_some, Option.bind_some]
        constructor
        · intro h
          cases hl : l.mapM (resolveImport fs c p) with
          | none => rw [hl] at h; cases h
          | some r' =>
            rw [hl] at h; cases h
            obtain ⟨h1, h2⟩ := (ih r').1 hl
            exact ⟨by rw [h1]; rfl, fun x hx => by
              rcases List.mem_cons.1 hx with rfl | hx
              · exact hp
              · exact h2 x hx⟩
        · rintro ⟨h, hx⟩
          cases hl : l.mapM (fun i => (target c p i).map fun t => (i, t)) with
          | none => rw [hl] at h; cases h
          | some r' =>
            rw [hl] at h; cases h
            rw [(ih r').2 ⟨hl, fun x hx' => hx x (List.mem_cons_of_mem _ hx')⟩]
            rfl
      · have e : resolveImport fs c p i = none := by simp [resolveImport, ht, hp]
        rw [e]
        simp only [Option.map_some, Option.bind_some, Option.bind_none]
        constructor
        · intro h; cases h
        · rintro ⟨h, hx⟩
          cases hl : l.mapM (fun i => (target c p i).map fun t => (i, t)) with
          | none => rw [hl] at h; cases h
          | some r' =>
            rw [hl] at h; cases h
            exact absurd (hx _ List.mem_cons_self) hp

theorem resolve_eq {T : Tools} {m : Mod} {ps : List Mod} {fs : Files} {is : List (Import × Mod)} :
    resolve T m ps fs = some is ↔ targets T m fs = some is ∧ ∀ x ∈ is, (fs (.present x.2)).isSome = true := by
  simp only [resolve, targets]
  cases readConfig fs m.package with
  | none => simp
  | some c =>
    cases readBytes fs (.source m) with
    | none => simp
    | some text =>
      cases hi : T.parse m text with
      | none => simp [hi]
      | some imports =>
        simp only [Option.bind_eq_bind, Option.bind_some, hi]
        exact resolveImport_eq fs c m.package imports is

theorem targets_congr {T : Tools} {m : Mod} {fs fs' : Files} (hs : fs' (.source m) = fs (.source m))
    (hc : fs' (.config m.package) = fs (.config m.package)) : targets T m fs' = targets T m fs := by
  simp only [targets, readConfig_congr hc, readBytes_congr hs]

theorem make_resolve {T : Tools} {m : Mod} {ps : List Mod} {fs : Files} {o : File → Content}
    (h : ideal T (.resolve m ps) fs = some o) : ∃ is, resolve T m ps fs = some is ∧ o (.dependency m) = .dependencies is ps ∧
      o (.dynamic m) = .dynamic (is.map (·.2) ++ ps) := by
  simp only [ideal, hide, make] at h
  cases hr : resolve T m ps fs with
  | none => rw [hr] at h; cases h
  | some is =>
    rw [hr] at h
    cases h
    exact ⟨is, rfl, by simp [pair], by simp [pair]⟩

/-! ### Invariants -/

structure Inv (T : Tools) (S : Setup) (W : Command → Prop) (s : State) : Prop where
  tool : Ninja.Inv (rules T) W s.tool
  config : ∀ (f : File) (k : Command) (fs : Files), s.tool.log f = some (k, fs) → ∀ p, fs (.config p) = s.fs (.config p)
  made : ∀ f, isInput f = false → (s.fs f).isSome = true → ∃ k ∈ script S s.plan, f ∈ outputs k

theorem Initial.inv {T : Tools} {S : Setup} {W : Command → Prop} {s : State} (h : Initial s) : Inv T S W s where
  tool f k fs hl := by rw [h.log f] at hl; cases hl
  config f k fs hl := by rw [h.log f] at hl; cases hl
  made f hf he := by rw [h.outputs f hf] at he; cases he

theorem Step.tool {T : Tools} {S : Setup} {W : Command → Prop} {l : Label} {s s' : State} (h : Step T S l s s')
    (hW : ∀ k o, k ∈ script S s.plan → make T k s.fs = some o → ¬ W k → ideal T k s.fs = some o) :
    Ninja.Step (rules T) W s.tool s'.tool := by
  cases h with
  | edit m text =>
    refine .modify _ _ fun f hf k hk => ?_
    have := not_input hk
    simp only [decide_eq_true_eq] at hf
    rcases hf with rfl | rfl <;> cases this
  | delete m =>
    refine .modify _ _ fun f hf k hk => ?_
    have := not_input hk
    simp only [decide_eq_true_eq] at hf
    rcases hf with rfl | rfl <;> cases this
  | configure p c =>
    refine .modify _ _ fun f hf k hk => ?_
    have := not_input hk
    simp only [decide_eq_true_eq] at hf
    subst hf; cases this
  | start P hP => exact .remove _
  | run k o hk hm => exact .run (R := rules T) k o fun hw => hW k o hk hm hw
  | crash k new hk ha ho => exact .crash (R := rules T) k new ho
  | clean D hD => exact .remove _
  | forget D => exact .forget _

theorem Step.config {T : Tools} {S : Setup} {l : Label} {s s' : State} (h : Step T S l s s') (hl : l ≠ .configure) (p : String) :
    s'.fs (.config p) = s.fs (.config p) := by
  cases h with
  | configure p c => exact absurd rfl hl
  | edit m text => simp [State.fs, Ninja.State.change]
  | delete m => simp [State.fs, Ninja.State.change]
  | start P hP => simp [State.fs, Ninja.State.change, isInput]
  | run k o hk hm =>
    have : File.config p ∉ outputs k := fun h => by have := not_input h; cases this
    simp [State.fs, Ninja.State.finish, this]
  | crash k new hk ha ho =>
    have : File.config p ∉ outputs k := fun h => by have := not_input h; cases this
    simp [State.fs, Ninja.State.change, this]
  | clean D hD =>
    have : D (.config p) = false := by
      cases hd : D (.config p) with
      | false => rfl
      | true => have := hD _ hd; cases this
    simp [State.fs, Ninja.State.change, this]
  | forget D => rfl

theorem Step.logged {T : Tools} {S : Setup} {l : Label} {s s' : State} (h : Step T S l s s') (f : File) :
    s'.tool.log f = s.tool.log f ∨ s'.tool.log f = none ∨ ∃ k, s'.tool.log f = some (k, s.fs) := by
  cases h with
  | run k o hk hm =>
    by_cases hf : f ∈ outputs k
    · exact Or.inr (Or.inr ⟨k, by simp [Ninja.State.finish, hf, State.fs]⟩)
    · exact Or.inl (by simp [Ninja.State.finish, hf])
  | forget D =>
    by_cases hd : D f = true
    · exact Or.inr (Or.inl (by simp [Ninja.State.forget, hd]))
    · exact Or.inl (by simp [Ninja.State.forget, hd])
  | _ => exact Or.inl rfl

theorem Inv.step {T : Tools} {S : Setup} {W : Command → Prop} {l : Label} {s s' : State} (hI : Inv T S W s)
    (h : Step T S l s s') (hl : l ≠ .configure)
    (hW : ∀ k o, k ∈ script S s.plan → make T k s.fs = some o → ¬ W k → ideal T k s.fs = some o) : Inv T S W s' where
  tool := hI.tool.step (h.tool hW)
  config f k fs he p := by
    rw [h.config hl p]
    rcases h.logged f with e | e | ⟨k', e⟩
    · exact hI.config f k fs (e ▸ he) p
    · rw [e] at he; cases he
    · rw [e] at he
      cases he
      rfl
  made f hf he := by
    cases h with
    | configure p c => exact absurd rfl hl
    | edit m text =>
      have : ¬ (f = .source m ∨ f = .present m) := by rintro (rfl | rfl) <;> cases hf
      exact hI.made f hf (by simpa [State.fs, Ninja.State.change, this] using he)
    | delete m =>
      have : ¬ (f = .source m ∨ f = .present m) := by rintro (rfl | rfl) <;> cases hf
      exact hI.made f hf (by simpa [State.fs, Ninja.State.change, this] using he)
    | start P hP =>
      by_cases hk : ∃ k ∈ script S P, f ∈ outputs k
      · exact hk
      · have : (!isInput f && (script S P).all fun k => decide (f ∉ outputs k)) = true := by
          simp only [hf, Bool.not_false, Bool.true_and, List.all_eq_true, decide_eq_true_eq]
          exact fun k hk' hm => hk ⟨k, hk', hm⟩
        simp only [State.fs, Ninja.State.change] at he
        rw [if_pos this] at he
        cases he
    | run k o hk hm =>
      by_cases hfk : f ∈ outputs k
      · exact ⟨k, hk, hfk⟩
      · exact hI.made f hf (by simpa [State.fs, Ninja.State.finish, hfk] using he)
    | crash k new hk ha ho =>
      by_cases hfk : f ∈ outputs k
      · exact ⟨k, hk, hfk⟩
      · exact hI.made f hf (by simpa [State.fs, Ninja.State.change, hfk] using he)
    | clean D hD =>
      by_cases hd : D f = true
      · simp [State.fs, Ninja.State.change, hd] at he
      · exact hI.made f hf (by simpa [State.fs, Ninja.State.change, hd] using he)
    | forget D => exact hI.made f hf he

/-! ### Archives -/

def belongs : Archive → Mod → Prop
  | .package p, m => m.package = p ∧ m.test = false
  | .tests, m => m.test = true

theorem reachable_congr {S : Setup} {fs fs' : Files} (h : ∀ p, fs' (.config p) = fs (.config p)) {p : String}
    (hr : Reachable S fs p) : Reachable S fs' p := by
  induction hr with
  | main => exact .main
  | prelude => exact .prelude
  | ffi => exact .ffi
  | dependency _ hc hd ih => exact .dependency ih (by rw [readConfig_congr (h _)]; exact hc) hd

/-- Archives have no objects of modules that are gone. -/
structure Members (S : Setup) (s : State) : Prop where
  modules : ∀ m ∈ s.plan.modules, (s.fs (.present m)).isSome = true ∧ Reachable S s.fs m.package ∧ (m.test = true → m.package = S.main)
  members : ∀ (a : Archive) (f : Mod → Option String) (m : Mod), s.fs (.archive a) = some (.archive f) → f m ≠ none →
    belongs a m ∧ m ∈ s.plan.modules

theorem ar_modules {S : Setup} {P : Plan} {a : Archive} {ms : List Mod} (h : .ar a ms ∈ script S P) (m : Mod) :
    m ∈ ms ↔ belongs a m ∧ m ∈ P.modules := by
  rcases mem_script h with ⟨m', hm', hk⟩ | ⟨p, _, e⟩ | e | e | ⟨_, e⟩ | e
  · have := moduleCommands_subject hk
    cases this
  · cases e
    simp only [packageModules, List.mem_filter, Bool.and_eq_true, beq_iff_eq, Bool.not_eq_true', belongs]
    exact and_comm
  · cases e
    simp only [testModules, List.mem_filter, belongs]
    exact and_comm
  all_goals cases e

theorem lookup_objects {fs : Files} {ms : List Mod} {objects : List (Mod × String)}
    (h : ms.mapM (fun m => (readBytes fs (.object m)).map fun s => (m, s)) = some objects) (m : Mod) :
    m ∈ ms ↔ objects.lookup m ≠ none := by
  induction ms generalizing objects with
  | nil => cases h; simp
  | cons m' ms ih =>
    rw [List.mapM_cons] at h
    cases hb : readBytes fs (.object m') with
    | none => rw [hb] at h; cases h
    | some b =>
      rw [hb] at h
      cases hl : ms.mapM (fun m => (readBytes fs (.object m)).map fun s => (m, s)) with
      | none => rw [hl] at h; cases h
      | some os =>
        rw [hl] at h
        cases h
        by_cases e : m = m'
        · subst e; simp
        · have e' : (m == m') = false := by simpa using e
          simp only [List.mem_cons, e, false_or, List.lookup_cons, e', Bool.false_eq_true, if_false]
          exact ih hl

theorem objects_hide {a : Archive} {ms ms' : List Mod} {fs : Files} :
    ms.mapM (fun m => (readBytes (hide (.ar a ms') fs) (.object m)).map fun s => (m, s)) =
      ms.mapM (fun m => (readBytes fs (.object m)).map fun s => (m, s)) :=
  mapM_congr fun m _ => by rw [readBytes_congr (fs := fs)]; simp [hide]

theorem Members.make_eq {T : Tools} {S : Setup} {s : State} (h : Members S s) {k : Command} (hk : k ∈ script S s.plan) :
    make T k s.fs = ideal T k s.fs := by
  cases k with
  | ar a ms =>
    simp only [ideal, make, objects_hide]
    cases ho : ms.mapM (fun m => (readBytes s.fs (.object m)).map fun s => (m, s)) with
    | none => rfl
    | some objects =>
      simp only [Option.bind_eq_bind, Option.bind_some, Option.pure_def, Option.some.injEq]
      funext f
      congr 1
      funext m
      cases hl : objects.lookup m with
      | some x => rfl
      | none =>
        have hn : m ∉ ms := fun hm => (lookup_objects ho m).1 hm hl
        have e : readArchive (hide (.ar a ms) s.fs) a = none := by simp [readArchive, hide]
        rw [e]
        show ((readArchive s.fs a).getD fun _ => none) m = none
        cases hr : readArchive s.fs a with
        | none => rfl
        | some g =>
          show g m = none
          by_contra hg
          have : s.fs (.archive a) = some (.archive g) := by
            simp only [readArchive] at hr
            split at hr
            · rename_i f' e'
              cases hr; exact e'
            · cases hr
          exact hn ((ar_modules hk m).2 (h.members a g m this hg))
  | _ => rfl

theorem Members.step {T : Tools} {S : Setup} {l : Label} {s s' : State} (hM : Members S s) (h : Step T S l s s')
    (hl : l ≠ .configure) (hd : l ≠ .delete) : Members S s' := by
  have hc := h.config hl
  have hpres : ∀ m, (s.fs (.present m)).isSome = true → (s'.fs (.present m)).isSome = true := by
    intro m hm
    cases h with
    | configure p c => exact absurd rfl hl
    | delete m => exact absurd rfl hd
    | edit m' text =>
      by_cases e : m = m'
      · subst e; simp [State.fs, Ninja.State.change]
      · simpa [State.fs, Ninja.State.change, e] using hm
    | start P hP => simpa [State.fs, Ninja.State.change, isInput] using hm
    | run k o hk _ =>
      have : File.present m ∉ outputs k := fun h => by have := not_input h; cases this
      simpa [State.fs, Ninja.State.finish, this] using hm
    | crash k new hk ha ho =>
      have : File.present m ∉ outputs k := fun h => by have := not_input h; cases this
      simpa [State.fs, Ninja.State.change, this] using hm
    | clean D hD =>
      have : D (.present m) = false := by
        cases hd : D (.present m) with
        | false => rfl
        | true => have := hD _ hd; cases this
      simpa [State.fs, Ninja.State.change, this] using hm
    | forget D => exact hm
  have hkeep : s'.plan = s.plan → ∀ m ∈ s'.plan.modules,
      (s'.fs (.present m)).isSome = true ∧ Reachable S s'.fs m.package ∧ (m.test = true → m.package = S.main) := by
    intro e m hm
    rw [e] at hm
    obtain ⟨h1, h2, h3⟩ := hM.modules m hm
    exact ⟨hpres m h1, reachable_congr hc h2, h3⟩
  cases h with
  | configure p c => exact absurd rfl hl
  | delete m => exact absurd rfl hd
  | edit m' text => exact ⟨hkeep rfl, fun a f m he hf => hM.members a f m (by simpa [State.fs, Ninja.State.change] using he) hf⟩
  | start P hP =>
    have hP' : ∀ m, m ∈ P.modules ↔ (s.fs (.present m)).isSome = true ∧ Reachable S s.fs m.package ∧ (m.test = true → m.package = S.main) :=
      fun m => by rw [hP.modules, hP.packages]
    refine ⟨fun m hm => ?_, fun a f m he hf => ?_⟩
    · obtain ⟨h1, h2, h3⟩ := (hP' m).1 hm
      exact ⟨hpres m h1, reachable_congr hc h2, h3⟩
    · have : s.fs (.archive a) = some (.archive f) := by
        simp only [State.fs, Ninja.State.change] at he
        split at he
        · cases he
        · exact he
      obtain ⟨h1, h2⟩ := hM.members a f m this hf
      exact ⟨h1, (hP' m).2 (hM.modules m h2)⟩
  | run k o hk hm =>
    refine ⟨hkeep rfl, fun a f m he hf => ?_⟩
    by_cases hka : .archive a ∈ outputs k
    · cases k with
      | ar a' ms =>
        have ea : a = a' := by simpa [outputs] using hka
        subst ea
        have he : o (.archive a) = .archive f := by
          simpa [State.fs, Ninja.State.finish, hka] using he
        rw [hM.make_eq hk] at hm
        simp only [ideal, make, objects_hide] at hm
        cases ho : ms.mapM (fun m => (readBytes s.fs (.object m)).map fun s => (m, s)) with
        | none => rw [ho] at hm; cases hm
        | some objects =>
          rw [ho] at hm
          simp only [Option.bind_eq_bind, Option.bind_some, Option.pure_def, Option.some.injEq] at hm
          rw [← hm] at he
          have e : readArchive (hide (.ar a ms) s.fs) a = none := by simp [readArchive, hide]
          rw [e] at he
          simp only [Option.getD_none, Content.archive.injEq] at he
          have hlook : objects.lookup m ≠ none := by
            intro hl
            rw [← he] at hf
            simp [hl] at hf
          exact (ar_modules hk m).1 ((lookup_objects ho m).2 hlook)
      | _ => simp [outputs] at hka
    · exact hM.members a f m (by simpa [State.fs, Ninja.State.finish, hka] using he) hf
  | crash k new hk ha ho =>
    refine ⟨hkeep rfl, fun a f m he hf => ?_⟩
    have : .archive a ∉ outputs k := fun h => by
      cases k with
      | ar a' ms => exact ha a' ms rfl
      | _ => simp [outputs] at h
    exact hM.members a f m (by simpa [State.fs, Ninja.State.change, this] using he) hf
  | clean D hD =>
    refine ⟨hkeep rfl, fun a f m he hf => hM.members a f m ?_ hf⟩
    simp only [State.fs, Ninja.State.change] at he
    split at he
    · cases he
    · exact he
  | forget D => exact ⟨hkeep rfl, hM.members⟩

theorem Initial.members {S : Setup} {s : State} (h : Initial s) : Members S s where
  modules m hm := by rw [h.plan.1] at hm; cases hm
  members a f m he := by rw [h.outputs _ rfl] at he; cases he

/-! ### Reachable states -/

/-- Archives and linked programs. -/
def late : Command → Prop
  | .ar _ _ | .link _ | .linkTest _ => True
  | _ => False

theorem late_make {T : Tools} {k : Command} {fs : Files} {o : File → Content} (hm : make T k fs = some o) (h : ¬ late k) :
    ideal T k fs = some o := by
  cases k with
  | ar a ms => exact absurd trivial h
  | _ => exact hm

theorem Reach.inv {T : Tools} {S : Setup} {s : State} (h : Reach T S (· ≠ .configure) s) : Inv T S late s := by
  induction h with
  | initial hi => exact hi.inv
  | step _ hl hs ih => exact ih.step hs hl fun k o _ hm hw => late_make hm hw

theorem Reach.members {T : Tools} {S : Setup} {s : State} (h : Reach T S (fun l => l ≠ .configure ∧ l ≠ .delete) s) :
    Members S s ∧ Inv T S (fun _ => False) s := by
  induction h with
  | initial hi => exact ⟨hi.members, hi.inv⟩
  | step _ hl hs ih => exact ⟨ih.1.step hs hl.1 hl.2, ih.2.step hs hl.1 fun k o hk hm _ => by rw [← ih.1.make_eq hk]; exact hm⟩

/-! ### Finished builds -/

section
variable {T : Tools} {S : Setup} {W : Command → Prop} {s s' : State} {goal : File}

theorem Needed.mem {k : Command} (h : Needed S s goal k) : k ∈ script S s.plan := by cases h <;> assumption

theorem Needed.user {m : Mod} {ps : List Mod} (hg : isGoal goal = true) (h : Needed S s goal (.resolve m ps)) :
    ∃ k, Needed S s goal k ∧ dyndep k = some (.dynamic m) := by
  cases h with
  | goal hk ho =>
    simp only [outputs, List.mem_cons, List.not_mem_nil, or_false] at ho
    rcases ho with rfl | rfl <;> cases hg
  | @input k _ f hn hf hk ho =>
    refine ⟨k, hn, ?_⟩
    simp only [outputs, List.mem_cons, List.not_mem_nil, or_false] at ho
    have hl : ∀ ms : List Mod, f ∉ ms.map File.interface := by
      intro ms hm
      obtain ⟨m', _, e⟩ := List.mem_map.1 hm
      rcases ho with rfl | rfl <;> cases e
    simp only [prerequisites, compared, List.mem_append, Option.mem_toList] at hf
    have hlist : ∀ f', dyndep k = some f' → f ∉ (match s.fs f' with
      | some (.dynamic ms) => ms.map File.interface
      | _ => []) := by
      intro f' _ hm
      split at hm
      · exact hl _ hm
      · cases hm
    have hin : f ∈ inputs k → dyndep k = some (.dynamic m) := by
      intro hi
      rcases ho with rfl | rfl <;> cases k <;> simp [inputs] at hi <;> (subst hi; rfl)
    rcases hf with hf | hf | hf
    · cases k <;> simp [dyndep] at hf <;> (subst hf; simp at ho; subst ho; rfl)
    · exact hin hf
    · cases hd : dyndep k with
      | none => simp [hd] at hf
      | some f' =>
        rw [hd] at hf
        exact absurd hf (hlist f' hd)

theorem interface_module {m : Mod} {k : Command} {P : Plan} (h : k ∈ script S P) (hm : .interface m ∈ outputs k) : m ∈ P.modules := by
  have : subject k = some m := by
    cases k <;> simp [outputs] at hm <;> (subst hm; rfl)
  exact (script_subject h this).1

/-- Files of dependencies are right. -/
theorem resolved (hI : Inv T S W s) (hD : Done S s goal) (hW : ∀ m ps, ¬ W (.resolve m ps)) (hg : isGoal goal = true) {m : Mod}
    {ps : List Mod} (hn : Needed S s goal (.resolve m ps)) :
    ∃ is, targets T m s.fs = some is ∧ s.fs (.dependency m) = some (.dependencies is ps) ∧
      s.fs (.dynamic m) = some (.dynamic (is.map (·.2) ++ ps)) ∧ resolve T m ps s.fs = some is := by
  obtain ⟨k, hk, hdyn⟩ := hn.user hg
  have hu := hD.upToDate _ hn
  have get : ∀ g ∈ outputs (.resolve m ps), ∃ (is : List (Import × Mod)) (o : File → Content), targets T m s.fs = some is ∧ s.fs g = some (o g) ∧
      o (.dependency m) = .dependencies is ps ∧ o (.dynamic m) = .dynamic (is.map (·.2) ++ ps) := by
    intro g hg
    obtain ⟨he, fs, hlog, hsame⟩ := hu.outputs g hg
    obtain ⟨o, ho, hf⟩ := (hI.tool g _ fs hlog).2 (hW m ps)
    obtain ⟨is, hr, h1, h2⟩ := make_resolve ho
    refine ⟨is, o, ?_, ?_, h1, h2⟩
    · have := (resolve_eq.1 hr).1
      rwa [targets_congr (hsame (.source m) (by simp [compared, inputs, dyndep])) (hI.config g _ fs hlog m.package)] at this
    · rcases hf with hf | hf
      · have he' : (s.tool.fs g).isSome = true := he
        rw [hf] at he'; cases he'
      · exact hf
  obtain ⟨is, o, ht, hf, h1, _⟩ := get (.dependency m) (by simp [outputs])
  obtain ⟨is', o', ht', hf', _, h2⟩ := get (.dynamic m) (by simp [outputs])
  rw [ht] at ht'; cases ht'
  rw [h1] at hf
  rw [h2] at hf'
  refine ⟨is, ht, hf, hf', resolve_eq.2 ⟨ht, fun x hx => ?_⟩⟩
  have hpre : .interface x.2 ∈ prerequisites k s.fs := by
    simp only [prerequisites, compared, hdyn, hf', List.mem_append]
    exact Or.inr (Or.inr (List.mem_map.2 ⟨x.2, List.mem_append_left _ (List.mem_map.2 ⟨x, hx, rfl⟩), rfl⟩))
  obtain ⟨k', hk', hm⟩ := hI.made _ rfl ((hD.upToDate k hk).prerequisites _ hpre)
  exact ((hD.plan.modules x.2).1 (interface_module hk' hm)).1

/-- The command that makes dependencies of a module. -/
theorem resolver {k : Command} {m : Mod} (hk : k ∈ script S s.plan) (hd : dyndep k = some (.dynamic m)) :
    .resolve m (preludes S s.plan) ∈ script S s.plan := by
  have hs : subject k = some m := by cases k <;> simp [dyndep] at hd <;> (subst hd; rfl)
  obtain ⟨hm, hc⟩ := script_subject hk hs
  have hp : m.package ≠ S.prelude := by
    rcases mem_moduleCommands hc with ⟨_, rfl⟩ | ⟨hp, _⟩ | rfl | rfl
    · cases hd
    · exact hp
    · cases hd
    · cases hd
  refine script_module hm ?_
  simp only [moduleCommands, if_neg hp]
  split
  · simp
  · split <;> simp

theorem Needed.resolver {k : Command} {m : Mod} (hn : Needed S s goal k) (hd : dyndep k = some (.dynamic m)) :
    Needed S s goal (.resolve m (preludes S s.plan)) :=
  .input hn (f := .dynamic m) (by simp [prerequisites, hd]) (Build.resolver hn.mem hd) (by simp [outputs])

theorem dyndep_dynamic {k : Command} {f : File} (h : dyndep k = some f) : ∃ m, f = .dynamic m ∧ subject k = some m := by
  cases k <;> simp [dyndep] at h <;> exact ⟨_, h.symm, rfl⟩

theorem extra_cases (k : Command) : (∃ m, dyndep k = some (.dynamic m) ∧ ∀ T fs, extra T k fs = match readDependencies fs m with
      | some (is, ps) => (is.map (·.2) ++ ps).map .interface
      | none => []) ∨ (∃ m ps, k = .resolve m ps) ∨ ∀ T fs, extra T k fs = [] := by
  cases k with
  | compile m => exact Or.inl ⟨m, rfl, fun _ _ => rfl⟩
  | compileTest m => exact Or.inl ⟨m, rfl, fun _ _ => rfl⟩
  | compileMain m _ => exact Or.inl ⟨m, rfl, fun _ _ => rfl⟩
  | resolve m ps => exact Or.inr (Or.inl ⟨m, ps, rfl⟩)
  | _ => exact Or.inr (Or.inr fun _ _ => rfl)

/-- The tool knows of all files that compilers read. -/
theorem extra_compared (hI : Inv T S W s) (hD : Done S s goal) (hW : ∀ m ps, ¬ W (.resolve m ps)) (hg : isGoal goal = true) {k : Command}
    (hn : Needed S s goal k) (hk : ∀ m ps, k ≠ .resolve m ps) : ∀ f ∈ extra T k s.fs, f ∈ compared k s.fs := by
  intro f hf
  rcases extra_cases k with ⟨m, hd, he⟩ | ⟨m, ps, rfl⟩ | he
  · obtain ⟨is, _, h1, h2, _⟩ := resolved hI hD hW hg (hn.resolver hd)
    rw [he] at hf
    simp only [readDependencies, h1] at hf
    simp only [compared, hd, h2, List.mem_append]
    exact Or.inr hf
  · exact absurd rfl (hk m ps)
  · rw [he] at hf; cases hf

theorem reads_cases (hI : Inv T S W s) (hD : Done S s goal) (hW : ∀ m ps, ¬ W (.resolve m ps)) (hg : isGoal goal = true) {k : Command}
    (hn : Needed S s goal k) {f : File} (hf : f ∈ reads T k s.fs) : f ∈ prerequisites k s.fs ∨ isInput f = true := by
  rcases List.mem_append.1 hf with hf | hf
  · exact Or.inl hf
  · by_cases hk : ∃ m ps, k = .resolve m ps
    · obtain ⟨m, ps, rfl⟩ := hk
      refine Or.inr ?_
      simp only [extra, List.mem_cons] at hf
      rcases hf with rfl | hf
      · rfl
      · split at hf
        · obtain ⟨t, _, rfl⟩ := List.mem_map.1 hf
          rfl
        · cases hf
    · exact Or.inl (List.mem_append_right _ (extra_compared hI hD hW hg hn (fun m ps e => hk ⟨m, ps, e⟩) f hf))

/-- When a build has ended, outputs are what commands make now. -/
theorem right (hI : Inv T S W s) (hD : Done S s goal) (hW : ∀ m ps, ¬ W (.resolve m ps)) (hg : isGoal goal = true) {k : Command}
    (hn : Needed S s goal k) (hk : ¬ W k) : Right (rules T) s.fs k := by
  by_cases hr : ∃ m ps, k = .resolve m ps
  · obtain ⟨m, ps, rfl⟩ := hr
    obtain ⟨is, _, h1, h2, h3⟩ := resolved hI hD hW hg hn
    refine ⟨pair (.dependencies is ps) (.dynamic (is.map (·.2) ++ ps)) (.dependency m), ?_, fun g hg => ?_⟩
    · show ideal T (.resolve m ps) s.fs = _
      simp only [ideal, hide, make, h3]
      rfl
    · change g ∈ outputs (.resolve m ps) at hg
      simp only [outputs, List.mem_cons, List.not_mem_nil, or_false] at hg
      rcases hg with rfl | rfl
      · rw [h1]; simp [pair]
      · rw [h2]; simp [pair]
  · have hu := hD.upToDate k hn
    refine hI.tool.right hk (fun g hg' => ?_) (outputs_ne_nil k)
    obtain ⟨he, fs, hlog, hsame⟩ := hu.outputs g hg'
    refine ⟨he, fs, hlog, fun _ => ideal_congr (fun f hf => hsame f (List.mem_append_left _ hf)) fun f hf => hsame f ?_⟩
    exact extra_compared hI hD hW hg hn (fun m ps e => hr ⟨m, ps, e⟩) f hf

theorem SameInputs.symm (h : SameInputs s s') : SameInputs s' s := ⟨h.1.symm, fun f hf => (h.2 f hf).symm⟩

theorem SameInputs.needed (hs : SameInputs s s') (hI : Inv T S W s) (hI' : Inv T S W s') (hD : Done S s goal) (hD' : Done S s' goal)
    (hW : ∀ m ps, ¬ W (.resolve m ps)) (hg : isGoal goal = true) {k : Command} (hn : Needed S s goal k) : Needed S s' goal k := by
  induction hn with
  | goal hk ho => exact .goal (hs.1 ▸ hk) ho
  | @input k k' f hn hf hk ho ih =>
    refine .input ih (f := f) ?_ (hs.1 ▸ hk) ho
    cases hd : dyndep k with
    | none =>
      simp only [prerequisites, compared, hd] at hf ⊢
      exact hf
    | some d =>
      obtain ⟨m, rfl, _⟩ := dyndep_dynamic hd
      obtain ⟨is, h1, _, h2, _⟩ := resolved hI hD hW hg (hn.resolver hd)
      obtain ⟨is', h1', _, h2', _⟩ := resolved hI' hD' hW hg (ih.resolver hd)
      rw [targets_congr (fs := s'.fs) (hs.2 _ rfl) (hs.2 _ rfl), h1'] at h1
      cases h1
      simp only [prerequisites, compared, hd, h2] at hf
      simp only [prerequisites, compared, hd, h2']
      rwa [hs.1] at hf

open Classical in
/-- Commands that are needed and not `W`. -/
noncomputable def wanted (S : Setup) (W : Command → Prop) (s : State) (goal : File) : List Command :=
  (script S s.plan).filter fun k => decide (Needed S s goal k ∧ ¬ W k)

theorem mem_wanted {k : Command} : k ∈ wanted S W s goal ↔ Needed S s goal k ∧ ¬ W k := by
  simp only [wanted, List.mem_filter, decide_eq_true_eq]
  exact ⟨(·.2), fun h => ⟨h.1.mem, h⟩⟩

theorem Done.ranked (hI : Inv T S W s) (hD : Done S s goal) (hW : ∀ m ps, ¬ W (.resolve m ps)) (hg : isGoal goal = true) :
    ∃ rank : File → Nat, ∀ k ∈ wanted S W s goal, ∀ r ∈ reads T k s.fs, ∀ g ∈ outputs k, rank r < rank g := by
  obtain ⟨rank, hr⟩ := hD.acyclic
  refine ⟨fun f => if isInput f then 0 else rank f + 1, fun k hk r hr' g hg' => ?_⟩
  have hn := (mem_wanted.1 hk).1
  simp only [not_input hg', Bool.false_eq_true, if_false]
  split
  · omega
  · rename_i hi
    rcases reads_cases hI hD hW hg hn hr' with hp | hp
    · have := hr k hn r hp g hg'
      omega
    · exact absurd hp hi

theorem Done.sources (hI : Inv T S W s) (hD : Done S s goal) (hs : SameInputs s s') (hW : ∀ m ps, ¬ W (.resolve m ps)) (hg : isGoal goal = true)
    (hlate : ∀ k f k', Needed S s goal k → ¬ W k → f ∈ prerequisites k s.fs → f ∈ outputs k' → ¬ W k') :
    ∀ k ∈ wanted S W s goal, ∀ r ∈ reads T k s.fs, (∃ k' ∈ wanted S W s goal, r ∈ outputs k') ∨ s.fs r = s'.fs r := by
  intro k hk r hr
  obtain ⟨hn, hw⟩ := mem_wanted.1 hk
  by_cases hi : isInput r = true
  · exact Or.inr (hs.2 r hi)
  · rcases reads_cases hI hD hW hg hn hr with hp | hp
    · obtain ⟨k', hk', hm⟩ := hI.made r (by simpa using hi) ((hD.upToDate k hn).prerequisites r hp)
      exact Or.inl ⟨k', mem_wanted.2 ⟨.input hn hp hk' hm, hlate k r k' hn hw hp hm⟩, hm⟩
    · exact absurd hp hi

theorem agree (hs : SameInputs s s') (hI : Inv T S W s) (hI' : Inv T S W s') (hD : Done S s goal) (hD' : Done S s' goal)
    (hW : ∀ m ps, ¬ W (.resolve m ps)) (hg : isGoal goal = true)
    (hlate : ∀ k f k', Needed S s goal k → ¬ W k → f ∈ prerequisites k s.fs → f ∈ outputs k' → ¬ W k')
    {k : Command} (hn : Needed S s goal k) (hk : ¬ W k) : ∀ g ∈ outputs k, s.fs g = s'.fs g := by
  obtain ⟨rank, hr⟩ := hD.ranked hI hW hg
  refine Ninja.unique (R := rules T) (K' := wanted S W s goal) (rank := rank) (fun k hk => ⟨?_, hr k hk⟩) (fun k hk => ?_)
    (hD.sources hI hs hW hg hlate) k (mem_wanted.2 ⟨hn, hk⟩)
  · obtain ⟨hn, hk⟩ := mem_wanted.1 hk
    exact right hI hD hW hg hn hk
  · obtain ⟨hn, hk⟩ := mem_wanted.1 hk
    exact right hI' hD' hW hg (hs.needed hI hI' hD hD' hW hg hn) hk

end

end Verif.App.Build
