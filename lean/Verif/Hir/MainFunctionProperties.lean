import Verif.Hir.MainFunction
/-
C80: how a program starts.
-/
namespace Verif.Hir.MainFunction

/-! ### Specification -/

/-- A type or alias of an interface is the context that a package exports. -/
def IsContextType (configuration : Configuration) (interface : Interface) (name : Name) : Prop :=
  ∃ d, (d ∈ interface.types ∨ d ∈ interface.aliases) ∧ d.originalName = configuration.systemContextTypeName ∧
    d.isPublic = true ∧ d.name = name

/-- A function of an interface makes contexts. -/
def IsNewContext (configuration : Configuration) (interface : Interface) (name : Name) : Prop :=
  ∃ d ∈ interface.functions, d.originalName = configuration.newSystemContextFunctionName ∧ d.name = name

/-- A program that makes contexts by functions one after the other: the world after them and the contexts. -/
def makeContexts {W : Type} (run : Name → List Value → W → Value × W) : List (Name × Name) → W → List (Name × Value) × W
  | [], w => ([], w)
  | (key, f) :: fs, w =>
    let (v, w) := run f [] w
    let (vs, w) := makeContexts run fs w
    ((key, v) :: vs, w)

/-! ### Contexts of packages -/

theorem findSome_spec {configuration : Configuration} {l : List InterfaceType} :
    (∀ name, l.findSome? (fun d => if d.originalName = configuration.systemContextTypeName ∧ d.isPublic then some d.name
      else none) = some name → ∃ d ∈ l, d.originalName = configuration.systemContextTypeName ∧ d.isPublic = true ∧
        d.name = name) ∧
    (l.findSome? (fun d => if d.originalName = configuration.systemContextTypeName ∧ d.isPublic then some d.name
      else none) = none → ∀ d ∈ l, ¬ (d.originalName = configuration.systemContextTypeName ∧ d.isPublic = true)) := by
  constructor
  · intro name h
    obtain ⟨d, hd, hf⟩ := List.exists_of_findSome?_eq_some h
    split at hf
    · rename_i hc
      exact ⟨d, hd, hc.1, hc.2, by simpa using hf⟩
    · simp at hf
  · intro h d hd hc
    have := List.findSome?_eq_none_iff.mp h d hd
    rw [if_pos hc] at this
    simp at this

/-- The context of a package is a public type or alias that is named so, with a function that makes contexts; a package is
refused exactly if it does not have both. -/
theorem c80_contexts_of_packages (interface : Interface) (configuration : Configuration) :
    (∀ c, qualifyContext interface configuration = some c → IsContextType configuration interface c.contextTypeName ∧
      IsNewContext configuration interface c.newContextFunctionName) ∧
    (qualifyContext interface configuration = none ↔
      (¬ ∃ name, IsContextType configuration interface name) ∨ ¬ ∃ name, IsNewContext configuration interface name) := by
  obtain ⟨t1, t2⟩ := findSome_spec (configuration := configuration) (l := interface.types)
  obtain ⟨a1, a2⟩ := findSome_spec (configuration := configuration) (l := interface.aliases)
  have f1 : ∀ d, interface.functions.find? (fun d => d.originalName = configuration.newSystemContextFunctionName) = some d →
      IsNewContext configuration interface d.name := by
    intro d h
    exact ⟨d, List.mem_of_find?_eq_some h, by simpa using List.find?_some h, rfl⟩
  have f2 : interface.functions.find? (fun d => d.originalName = configuration.newSystemContextFunctionName) = none →
      ¬ ∃ name, IsNewContext configuration interface name := by
    rintro h ⟨name, d, hd, hc, -⟩
    exact absurd (List.find?_eq_none.mp h d hd) (by simpa using hc)
  unfold qualifyContext
  generalize interface.types.findSome? _ = t at *
  generalize interface.aliases.findSome? _ = a at *
  generalize interface.functions.find? _ = f at *
  have hta : ∀ name, t.or a = some name → IsContextType configuration interface name := by
    intro name h
    cases t with
    | some n =>
      simp only [Option.some_or, Option.some.injEq] at h
      subst h
      obtain ⟨d, h1, h2⟩ := t1 _ rfl
      exact ⟨d, .inl h1, h2⟩
    | none =>
      simp only [Option.none_or] at h
      obtain ⟨d, h1, h2⟩ := a1 _ h
      exact ⟨d, .inr h1, h2⟩
  have hta' : t.or a = none → ¬ ∃ name, IsContextType configuration interface name := by
    rintro h ⟨name, d, hd, h1, h2, -⟩
    obtain ⟨rfl, rfl⟩ := Option.or_eq_none_iff.mp h
    rcases hd with hd | hd
    · exact t2 rfl d hd ⟨h1, h2⟩
    · exact a2 rfl d hd ⟨h1, h2⟩
  simp only
  cases hc : t.or a with
  | none =>
    refine ⟨fun c h => by simp at h, ⟨fun _ => .inl (hta' hc), fun _ => rfl⟩⟩
  | some name =>
    cases f with
    | none => exact ⟨fun c h => by simp at h, ⟨fun _ => .inr (f2 rfl), fun _ => rfl⟩⟩
    | some d =>
      refine ⟨fun c h => ?_, ⟨fun h => by simp at h, ?_⟩⟩
      · simp only [Option.some.injEq] at h
        subst h
        exact ⟨hta _ hc, f1 d rfl⟩
      · rintro (h | h)
        · exact absurd ⟨name, hta _ hc⟩ h
        · exact absurd ⟨d.name, f1 d rfl⟩ h

theorem mapM_some {α β : Type} {f : α → Option β} : ∀ {l : List α} {r : List β}, l.mapM f = some r →
    r.length = l.length ∧ ∀ b ∈ r, ∃ a ∈ l, f a = some b
  | [], r, h => by
    simp only [List.mapM_nil, Option.pure_def, Option.some.injEq] at h
    subst h; simp
  | a :: l, r, h => by
    simp only [List.mapM_cons, Option.bind_eq_bind, Option.pure_def, Option.bind_eq_some_iff, Option.some.injEq] at h
    obtain ⟨b, hb, bs, hbs, rfl⟩ := h
    obtain ⟨h1, h2⟩ := mapM_some hbs
    refine ⟨by simp [h1], fun c hc => ?_⟩
    rcases List.mem_cons.mp hc with rfl | hc
    · exact ⟨a, List.mem_cons_self .., hb⟩
    · obtain ⟨x, hx, hf⟩ := h2 c hc
      exact ⟨x, List.mem_cons_of_mem _ hx, hf⟩

theorem mapM_keys {α β : Type} {f : α → Option β} : ∀ {l : List (Name × α)} {r : List (Name × β)},
    l.mapM (fun p => (f p.2).map fun c => (p.1, c)) = some r → r.map (·.1) = l.map (·.1)
  | [], r, h => by
    simp only [List.mapM_nil, Option.pure_def, Option.some.injEq] at h
    subst h; rfl
  | a :: l, r, h => by
    simp only [List.mapM_cons, Option.bind_eq_bind, Option.pure_def, Option.bind_eq_some_iff, Option.some.injEq,
      Option.map_eq_some_iff] at h
    obtain ⟨b, ⟨d, hd, rfl⟩, bs, hbs, rfl⟩ := h
    simp [mapM_keys hbs]

theorem mapM_functions {declarations : List Name} : ∀ {l : List (Name × ContextConfiguration)} {r : List (Name × Name)},
    l.mapM (fun p => (declarations.find? fun d => d = p.2.newContextFunctionName).map fun d => (p.1, d)) = some r →
      r = l.map fun p => (p.1, p.2.newContextFunctionName)
  | [], r, h => by
    simp only [List.mapM_nil, Option.pure_def, Option.some.injEq] at h
    subst h; rfl
  | a :: l, r, h => by
    simp only [List.mapM_cons, Option.bind_eq_bind, Option.pure_def, Option.bind_eq_some_iff, Option.some.injEq,
      Option.map_eq_some_iff] at h
    obtain ⟨b, ⟨d, hd, rfl⟩, bs, hbs, rfl⟩ := h
    have := List.find?_some hd
    simp only [decide_eq_true_eq] at this
    rw [mapM_functions hbs, List.map_cons, this]

/-- A program has the contexts of all packages, by their names. -/
theorem c80_all_packages {configuration : Configuration} {interfaces : List (Name × Interface)} {c : MainConfiguration}
    (h : qualify configuration interfaces = some c) :
    c.contexts.map (·.1) = interfaces.map (·.1) ∧
    ∀ p ∈ c.contexts, ∃ interface, (p.1, interface) ∈ interfaces ∧ qualifyContext interface configuration = some p.2 := by
  unfold qualify at h
  simp only [Option.map_eq_some_iff] at h
  obtain ⟨contexts, h1, rfl⟩ := h
  constructor
  · exact mapM_keys (f := fun i => qualifyContext i configuration) h1
  · intro p hp
    obtain ⟨⟨k, i⟩, h2, h3⟩ := (mapM_some h1).2 p hp
    simp only [Option.map_eq_some_iff] at h3
    obtain ⟨d, h4, rfl⟩ := h3
    exact ⟨i, h2, h4⟩

/-! ### The start of a program -/

theorem evalFields_calls {W : Type} (run : Name → List Value → W → Value × W) (fs : List (Name × Name)) (w : W) :
    evalFields run (fs.map fun p => (p.1, .call p.2 [])) w = makeContexts run fs w := by
  induction fs generalizing w with
  | nil => rfl
  | cons p fs ih =>
    obtain ⟨key, f⟩ := p
    simp [evalFields, eval, evalList, makeContexts, ih]

/-- A program that starts makes the context of every package once, in some order, and then calls the main function once
with a record of them; nothing else is done. What the module defined it still defines. -/
theorem c80_start {order : List (Name × Name) → List (Name × Name)} (ho : ∀ l, (order l).Perm l) {m m' : Module}
    {c : MainConfiguration} (h : compile order m c = .ok m') :
    ∃ main ∈ m.definitions, main.originalName = c.sourceMainFunctionName ∧
    ∃ wrapper body, m'.definitions = m.definitions ++ [wrapper] ∧ wrapper.originalName = c.objectMainFunctionName ∧
      wrapper.exported = true ∧ wrapper.body = some body ∧
    ∃ functions : List (Name × Name), functions.Perm (c.contexts.map fun p => (p.1, p.2.newContextFunctionName)) ∧
      (∀ p ∈ functions, p.2 ∈ m.declarations) ∧
      ∀ {W : Type} (run : Name → List Value → W → Value × W) (w : W), eval run body w =
        run main.name [.record c.contextTypeName (makeContexts run functions w).1] (makeContexts run functions w).2 := by
  unfold compile at h
  split at h
  · simp at h
  · rename_i main hm
    split at h
    · simp at h
    · rename_i functions hf
      simp only [Except.ok.injEq] at h
      subst h
      refine ⟨main, List.mem_of_find?_eq_some hm, by simpa using List.find?_some hm, _, _, rfl, rfl, rfl, rfl,
        order functions, ?_, ?_, ?_⟩
      · refine (ho functions).trans ?_
        rw [mapM_functions hf]
      · intro p hp
        obtain ⟨⟨k, conf⟩, _, h2⟩ := (mapM_some hf).2 p ((ho functions).subset hp)
        simp only [Option.map_eq_some_iff] at h2
        obtain ⟨d, h3, rfl⟩ := h2
        exact List.mem_of_find?_eq_some h3
      · intro W run w
        simp only [eval, evalList, evalFields_calls]

/-- The record of contexts has the type that is added to the module, with a field of its context for every package. -/
theorem c80_context_type {order : List (Name × Name) → List (Name × Name)} {m m' : Module} {c : MainConfiguration}
    (h : compile order m c = .ok m') :
    ∃ d, m'.types = m.types ++ [d] ∧ d.name = c.contextTypeName ∧
      d.fields = c.contexts.map (fun p => (p.1, p.2.contextTypeName)) ∧ m'.declarations = m.declarations := by
  unfold compile at h
  split at h
  · simp at h
  · split at h
    · simp at h
    · simp only [Except.ok.injEq] at h
      subst h
      exact ⟨_, rfl, rfl, rfl, rfl⟩

/-- A module is refused for its main function exactly if it does not define one. -/
theorem c80_no_main (order : List (Name × Name) → List (Name × Name)) (m : Module) (c : MainConfiguration) :
    compile order m c = .error .mainFunctionNotFound ↔
      ∀ d ∈ m.definitions, d.originalName ≠ c.sourceMainFunctionName := by
  unfold compile
  constructor
  · intro h
    split at h
    · rename_i hm
      intro d hd
      simpa using List.find?_eq_none.mp hm d hd
    · split at h <;> simp at h
  · intro h
    rw [List.find?_eq_none.mpr fun d hd => by simpa using h d hd]

/-! ### Examples -/

/-- A configuration as the application has. -/
def sample : Configuration := ⟨"main".toList, "_pen_main".toList, "context".toList, "Context".toList, "UnsafeNew".toList⟩

/-- Interfaces of two packages, one with an alias. -/
def sampleInterfaces : List (Name × Interface) :=
  [("Http".toList, ⟨[⟨"h.Context".toList, "Context".toList, true⟩], [], [⟨"h.UnsafeNew".toList, "UnsafeNew".toList⟩]⟩),
   ("Os".toList, ⟨[⟨"o.c".toList, "Context".toList, false⟩], [⟨"o.Context".toList, "Context".toList, true⟩],
    [⟨"o.f".toList, "f".toList⟩, ⟨"o.UnsafeNew".toList, "UnsafeNew".toList⟩]⟩)]

example : ((qualify sample sampleInterfaces).map (·.contexts)) =
    some [("Http".toList, ⟨"h.Context".toList, "h.UnsafeNew".toList⟩), ("Os".toList, ⟨"o.Context".toList, "o.UnsafeNew".toList⟩)] := by
  decide +kernel

/-- The trace of the start of a program, whose hash table has the other order. -/
example : ((qualify sample sampleInterfaces).bind fun c =>
    match compile List.reverse ⟨[], ["h.UnsafeNew".toList, "o.UnsafeNew".toList], [⟨"m.main".toList, "main".toList, none, false⟩]⟩ c with
    | .ok m => m.definitions.getLast?.bind fun d => d.body.map fun b =>
      (eval (fun f _ (w : List Name) => (.opaque w.length, w ++ [f])) b []).2
    | .error _ => none) = some ["o.UnsafeNew".toList, "h.UnsafeNew".toList, "m.main".toList] := by decide +kernel

end Verif.Hir.MainFunction
