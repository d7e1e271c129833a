import Mathlib.Data.List.Basic

/-!
# A build tool that runs commands when their inputs changed

The build tool that `lib/infra/src/ninja_build_script_runner.rs:21-52` runs (`turtle`, a clone of `ninja`), by its documentation. A command reads
files and writes its outputs. For every output, the tool remembers the command that wrote it last and the contents of files when it was
run. What a command makes depends on the files it `reads` only; which of them the tool knows of is up to the build script.

Simplifications: contents are compared, not times of changes (a tool that compares times runs more commands, but never skips one that
this tool would run as long as clocks do not go backwards); files do not change while a command runs; nobody else writes outputs. A
command that fails leaves its outputs alone; one that is killed leaves anything in them, and the tool does not remember that it wrote them.
-/
namespace Verif.App.Ninja

/-- Commands, what they read and what they write. -/
structure Rules (F C K : Type) where
  outputs : K → List F
  /-- The contents of outputs, or nothing if the command fails. -/
  make : K → (F → Option C) → Option (F → C)
  reads : K → (F → Option C) → List F
  reads_local : ∀ k fs fs', (∀ f ∈ reads k fs, fs' f = fs f) → make k fs' = make k fs ∧ reads k fs' = reads k fs

structure State (F C K : Type) where
  fs : F → Option C
  log : F → Option (K × (F → Option C))

variable {F C K : Type} [DecidableEq F]

/-- Files change. -/
def State.change (s : State F C K) (D : F → Bool) (new : F → Option C) : State F C K where
  fs f := if D f then new f else s.fs f
  log := s.log

/-- A command ends and is remembered. -/
def State.finish (s : State F C K) (outs : List F) (k : K) (o : F → C) : State F C K where
  fs f := if f ∈ outs then some (o f) else s.fs f
  log f := if f ∈ outs then some (k, s.fs) else s.log f

/-- Commands are forgotten. -/
def State.forget (s : State F C K) (D : F → Bool) : State F C K where
  fs := s.fs
  log f := if D f then none else s.log f

/-- Steps. Commands of which `wild` holds do whatever they do, and nothing is claimed of them. -/
inductive Step (R : Rules F C K) (wild : K → Prop) : State F C K → State F C K → Prop
  /-- Files that are not outputs of commands change, appear or disappear. -/
  | modify {s : State F C K} (D : F → Bool) (new : F → Option C) : (∀ f, D f = true → ∀ k, f ∉ R.outputs k) →
      Step R wild s (s.change D new)
  | run {s : State F C K} (k : K) (o : F → C) : (¬ wild k → R.make k s.fs = some o) →
      Step R wild s (s.finish (R.outputs k) k o)
  /-- A command is killed and leaves anything in its outputs. -/
  | crash {s : State F C K} (k : K) (new : F → Option C) : (∀ f ∈ R.outputs k, s.log f = none) →
      Step R wild s (s.change (fun f => decide (f ∈ R.outputs k)) new)
  /-- Files are removed. -/
  | remove {s : State F C K} (D : F → Bool) : Step R wild s (s.change D fun _ => none)
  | forget {s : State F C K} (D : F → Bool) : Step R wild s (s.forget D)

/-- What is remembered about an output is how it was made. -/
def Inv (R : Rules F C K) (wild : K → Prop) (s : State F C K) : Prop :=
  ∀ f k fs, s.log f = some (k, fs) → f ∈ R.outputs k ∧
    (¬ wild k → ∃ o, R.make k fs = some o ∧ (s.fs f = none ∨ s.fs f = some (o f)))

theorem Inv.step {R : Rules F C K} {wild : K → Prop} {s s' : State F C K} (h : Inv R wild s) (hs : Step R wild s s') :
    Inv R wild s' := by
  intro f k fs hl
  cases hs with
  | modify D new hD =>
    obtain ⟨hm, hr⟩ := h f k fs hl
    refine ⟨hm, fun hw => ?_⟩
    obtain ⟨o, ho, hf⟩ := hr hw
    have : D f = false := by
      cases hd : D f with
      | false => rfl
      | true => exact absurd hm (hD f hd k)
    exact ⟨o, ho, by simpa [State.change, this] using hf⟩
  | run k' o' hm' =>
    by_cases hf : f ∈ R.outputs k'
    · simp only [State.finish, hf, if_true, Option.some.injEq, Prod.mk.injEq] at hl
      obtain ⟨rfl, rfl⟩ := hl
      exact ⟨hf, fun hw => ⟨o', hm' hw, Or.inr (by simp [State.finish, hf])⟩⟩
    · simp only [State.finish, hf, if_false] at hl
      obtain ⟨hm, hr⟩ := h f k fs hl
      exact ⟨hm, fun hw => by simpa [State.finish, hf] using hr hw⟩
  | crash k' new ho =>
    obtain ⟨hm, hr⟩ := h f k fs hl
    have : f ∉ R.outputs k' := fun hf => by
      have := ho f hf
      simp only [State.change] at hl
      rw [this] at hl; cases hl
    exact ⟨hm, fun hw => by simpa [State.change, this] using hr hw⟩
  | remove D =>
    obtain ⟨hm, hr⟩ := h f k fs hl
    refine ⟨hm, fun hw => ?_⟩
    obtain ⟨o, ho, hf⟩ := hr hw
    refine ⟨o, ho, ?_⟩
    simp only [State.change]
    split
    · exact Or.inl rfl
    · exact hf
  | forget D =>
    simp only [State.forget] at hl
    split at hl
    · cases hl
    · exact h f k fs hl

/-- The outputs of a command are what it makes now. -/
def Right (R : Rules F C K) (fs : F → Option C) (k : K) : Prop :=
  ∃ o, R.make k fs = some o ∧ ∀ g ∈ R.outputs k, fs g = some (o g)

/-- If outputs of a command exist, and it would make the same as when it was run, they are right. -/
theorem Inv.right {R : Rules F C K} {wild : K → Prop} {s : State F C K} (h : Inv R wild s) {k : K} (hw : ¬ wild k)
    (hl : ∀ g ∈ R.outputs k, (s.fs g).isSome = true ∧ ∃ fs, s.log g = some (k, fs) ∧ ((R.make k fs).isSome = true → R.make k fs = R.make k s.fs))
    (hne : R.outputs k ≠ []) : Right R s.fs k := by
  have h1 : ∀ g ∈ R.outputs k, ∃ o, R.make k s.fs = some o ∧ s.fs g = some (o g) := by
    intro g hg
    obtain ⟨hs, fs, hlog, hr⟩ := hl g hg
    obtain ⟨o, ho, hf⟩ := (h g k fs hlog).2 hw
    rw [hr (by rw [ho]; rfl)] at ho
    rcases hf with hf | hf
    · rw [hf] at hs; cases hs
    · exact ⟨o, ho, hf⟩
  obtain ⟨g₀, hg₀⟩ := List.exists_mem_of_ne_nil _ hne
  obtain ⟨o, ho, _⟩ := h1 g₀ hg₀
  refine ⟨o, ho, fun g hg => ?_⟩
  obtain ⟨o', ho', hf⟩ := h1 g hg
  rw [ho] at ho'
  rw [hf, Option.some.inj ho']

/-- Outputs are determined by the files that are not outputs. -/
theorem unique {R : Rules F C K} {K' : List K} {fs fs' : F → Option C} {rank : F → Nat}
    (h : ∀ k ∈ K', Right R fs k ∧ ∀ r ∈ R.reads k fs, ∀ g ∈ R.outputs k, rank r < rank g)
    (h' : ∀ k ∈ K', Right R fs' k)
    (hb : ∀ k ∈ K', ∀ r ∈ R.reads k fs, (∃ k' ∈ K', r ∈ R.outputs k') ∨ fs r = fs' r) :
    ∀ k ∈ K', ∀ g ∈ R.outputs k, fs g = fs' g := by
  suffices hs : ∀ n, ∀ k ∈ K', ∀ g ∈ R.outputs k, rank g ≤ n → fs g = fs' g from
    fun k hk g hg => hs (rank g) k hk g hg (Nat.le_refl _)
  intro n
  induction n using Nat.strongRecOn with
  | _ n ih =>
    intro k hk g hg hn
    obtain ⟨⟨o, ho, hgo⟩, hr⟩ := h k hk
    obtain ⟨o', ho', hgo'⟩ := h' k hk
    have hag : ∀ r ∈ R.reads k fs, fs' r = fs r := by
      intro r hr'
      rcases hb k hk r hr' with ⟨k', hk', hm⟩ | e
      · have := hr r hr' g hg
        exact (ih (rank r) (by omega) k' hk' r hm (Nat.le_refl _)).symm
      · exact e.symm
    rw [(R.reads_local k fs fs' hag).1, ho] at ho'
    rw [hgo g hg, hgo' g hg, Option.some.inj ho']

/-! ### A build that ends -/

inductive Runs (R : Rules F C K) (K' : List K) : State F C K → State F C K → Prop
  | refl (s : State F C K) : Runs R K' s s
  | step {s s' : State F C K} (k : K) (o : F → C) : Runs R K' s s' → k ∈ K' → R.make k s'.fs = some o →
      Runs R K' s (s'.finish (R.outputs k) k o)

/-- The commands `S` of `K'` are done as in `fs`. -/
structure Partly (R : Rules F C K) (K' : List K) (fs : F → Option C) (s₀ s : State F C K) (S : K → Prop) : Prop where
  runs : Runs R K' s₀ s
  done : ∀ k ∈ K', S k → ∀ g ∈ R.outputs k, s.fs g = fs g ∧ ∃ fs₀, s.log g = some (k, fs₀) ∧ ∀ r ∈ R.reads k fs, fs₀ r = fs r
  closed : ∀ k ∈ K', S k → ∀ r ∈ R.reads k fs, ∀ k' ∈ K', r ∈ R.outputs k' → S k'
  rest : ∀ f, (∀ k ∈ K', f ∉ R.outputs k) → s.fs f = s₀.fs f

section
variable {R : Rules F C K} {K' : List K} {fs : F → Option C} {rank : F → Nat} {s₀ : State F C K}

theorem Partly.add {s : State F C K} {S : K → Prop} (h : Partly R K' fs s₀ s S)
    (hr : ∀ k ∈ K', Right R fs k)
    (hone : ∀ k ∈ K', ∀ k' ∈ K', ∀ f, f ∈ R.outputs k → f ∈ R.outputs k' → k = k')
    (hb : ∀ k ∈ K', ∀ r ∈ R.reads k fs, (∃ k' ∈ K', r ∈ R.outputs k') ∨ fs r = s₀.fs r)
    {k : K} (hk : k ∈ K') (hread : ∀ r ∈ R.reads k fs, ∀ k' ∈ K', r ∈ R.outputs k' → S k') (hS : ¬ S k) :
    ∃ s', Partly R K' fs s₀ s' (fun k' => k' = k ∨ S k') := by
  obtain ⟨o, ho, hgo⟩ := hr k hk
  have hag : ∀ r ∈ R.reads k fs, s.fs r = fs r := by
    intro r hr'
    by_cases hex : ∃ k' ∈ K', r ∈ R.outputs k'
    · obtain ⟨k', hk', hm⟩ := hex
      exact (h.done k' hk' (hread r hr' k' hk' hm) r hm).1
    · rcases hb k hk r hr' with hex' | e
      · exact absurd hex' hex
      · rw [e]; exact h.rest r fun k' hk' hm => hex ⟨k', hk', hm⟩
  have hmake : R.make k s.fs = some o := by rw [(R.reads_local k fs s.fs hag).1, ho]
  have hdis : ∀ k₁ ∈ K', S k₁ → ∀ g ∈ R.outputs k₁, g ∉ R.outputs k := fun k₁ hk₁ hS₁ g hg hg' =>
    hS (hone k₁ hk₁ k hk g hg hg' ▸ hS₁)
  refine ⟨s.finish (R.outputs k) k o, .step k o h.runs hk hmake, ?_, ?_, ?_⟩
  · rintro k₁ hk₁ (rfl | hS₁) g hg
    · exact ⟨by simp [State.finish, hg, hgo g hg], s.fs, by simp [State.finish, hg], hag⟩
    · have hg' := hdis k₁ hk₁ hS₁ g hg
      simpa [State.finish, hg'] using h.done k₁ hk₁ hS₁ g hg
  · rintro k₁ hk₁ (rfl | hS₁) r hr' k' hk' hm
    · exact Or.inr (hread r hr' k' hk' hm)
    · exact Or.inr (h.closed k₁ hk₁ hS₁ r hr' k' hk' hm)
  · intro f hf
    simp only [State.finish, hf k hk, if_false]
    exact h.rest f hf

theorem Partly.addAll {n : Nat} {s : State F C K} {S : K → Prop} (h : Partly R K' fs s₀ s S)
    (hr : ∀ k ∈ K', Right R fs k ∧ ∀ r ∈ R.reads k fs, ∀ g ∈ R.outputs k, rank r < rank g)
    (hone : ∀ k ∈ K', ∀ k' ∈ K', ∀ f, f ∈ R.outputs k → f ∈ R.outputs k' → k = k')
    (hb : ∀ k ∈ K', ∀ r ∈ R.reads k fs, (∃ k' ∈ K', r ∈ R.outputs k') ∨ fs r = s₀.fs r)
    (L : List K) (hL : ∀ k ∈ L, k ∈ K' ∧ ∃ g ∈ R.outputs k, rank g = n)
    (hn : ∀ k ∈ K', (∃ g ∈ R.outputs k, rank g < n) → S k) :
    ∃ s' S', Partly R K' fs s₀ s' S' ∧ (∀ k, S k → S' k) ∧ ∀ k ∈ L, S' k := by
  induction L with
  | nil => exact ⟨s, S, h, fun _ h => h, by simp⟩
  | cons k L ih =>
    obtain ⟨s₁, S₁, h₁, hsub, hall⟩ := ih fun k' hk' => hL k' (List.mem_cons_of_mem _ hk')
    by_cases hS : S₁ k
    · exact ⟨s₁, S₁, h₁, hsub, fun k' hk' => by
        rcases List.mem_cons.1 hk' with rfl | hk'
        · exact hS
        · exact hall k' hk'⟩
    · obtain ⟨hk, g, hg, hgn⟩ := hL k List.mem_cons_self
      obtain ⟨s₂, h₂⟩ := h₁.add (fun k hk => (hr k hk).1) hone hb hk (fun r hr' k' hk' hm =>
        hsub k' (hn k' hk' ⟨r, hm, by have := (hr k hk).2 r hr' g hg; omega⟩)) hS
      exact ⟨s₂, _, h₂, fun k' hk' => Or.inr (hsub k' hk'), fun k' hk' => by
        rcases List.mem_cons.1 hk' with rfl | hk'
        · exact Or.inl rfl
        · exact Or.inr (hall k' hk')⟩

/-- If there is a state in which all outputs are right, a build ends in it from any state with the same other files. -/
theorem complete
    (hr : ∀ k ∈ K', Right R fs k ∧ ∀ r ∈ R.reads k fs, ∀ g ∈ R.outputs k, rank r < rank g)
    (hone : ∀ k ∈ K', ∀ k' ∈ K', ∀ f, f ∈ R.outputs k → f ∈ R.outputs k' → k = k')
    (hne : ∀ k ∈ K', R.outputs k ≠ [])
    (hb : ∀ k ∈ K', ∀ r ∈ R.reads k fs, (∃ k' ∈ K', r ∈ R.outputs k') ∨ fs r = s₀.fs r) :
    ∃ s, Partly R K' fs s₀ s (fun _ => True) := by
  have key : ∀ n, ∃ s S, Partly R K' fs s₀ s S ∧ ∀ k ∈ K', (∃ g ∈ R.outputs k, rank g < n) → S k := by
    intro n
    induction n with
    | zero => exact ⟨s₀, fun _ => False, ⟨.refl _, fun _ _ h => h.elim, fun _ _ h => h.elim, fun _ _ => rfl⟩,
        fun k _ ⟨g, _, h⟩ => by omega⟩
    | succ n ih =>
      obtain ⟨s, S, h, hn⟩ := ih
      obtain ⟨s', S', h', hsub, hall⟩ := h.addAll (n := n) hr hone hb
        (K'.filter fun k => (R.outputs k).any fun g => decide (rank g = n))
        (fun k hk => by
          rw [List.mem_filter] at hk
          obtain ⟨hk, ha⟩ := hk
          simp only [List.any_eq_true, decide_eq_true_eq] at ha
          exact ⟨hk, ha⟩) hn
      refine ⟨s', S', h', fun k hk ⟨g, hg, hlt⟩ => ?_⟩
      rcases Nat.lt_or_eq_of_le (Nat.lt_succ_iff.1 hlt) with h1 | h1
      · exact hsub k (hn k hk ⟨g, hg, h1⟩)
      · refine hall k (List.mem_filter.2 ⟨hk, ?_⟩)
        simp only [List.any_eq_true, decide_eq_true_eq]
        exact ⟨g, hg, h1⟩
  have hbound : ∃ n, ∀ k ∈ K', ∃ g ∈ R.outputs k, rank g < n := by
    clear key hr hone hb
    induction K' with
    | nil => exact ⟨0, by simp⟩
    | cons k K' ih =>
      obtain ⟨n, hn⟩ := ih fun k hk => hne k (List.mem_cons_of_mem _ hk)
      obtain ⟨g, hg⟩ := List.exists_mem_of_ne_nil _ (hne k List.mem_cons_self)
      refine ⟨max n (rank g + 1), fun k' hk' => ?_⟩
      rcases List.mem_cons.1 hk' with rfl | hk'
      · exact ⟨g, hg, by omega⟩
      · obtain ⟨g', hg', h⟩ := hn k' hk'
        exact ⟨g', hg', by omega⟩
  obtain ⟨n, hn⟩ := hbound
  obtain ⟨s, S, h, hS⟩ := key n
  exact ⟨s, h.runs, fun k hk _ => h.done k hk (hS k hk (hn k hk)), fun _ _ _ _ _ _ _ _ => trivial, h.rest⟩

end

end Verif.App.Ninja
