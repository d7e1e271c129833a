import Verif.Mir.TypeSoundness

/-
Calls and runs of well-typed modules: proofs.
-/
namespace Verif.Mir.Typed

variable {m : TModule} {id : Ty → TypeId} {S : Ty → Prop} {u : Bool}

theorem functions_function {g : Name} {σ : Ty} (h : (g, σ) ∈ m.functions) : ∃ as r, σ = .function as r := by
  simp only [TModule.functions, List.mem_append, List.mem_map, Prod.mk.injEq] at h
  rcases h with (⟨d, _, _, rfl⟩ | ⟨d, _, _, rfl⟩) | ⟨d, _, _, rfl⟩ <;> exact ⟨_, _, rfl⟩

theorem find_definition {g : Name} (p : Program) (h : p.globals = m.definitions.map (·.erase id)) :
    p.find g = (m.definitions.find? (·.name == g)).map (·.erase id) := by
  simp only [Program.find, h, List.find?_map]
  rfl

theorem functions_cases {g : Name} {as : List Ty} {r : Ty} (h : (g, .function as r) ∈ m.functions) :
    (∃ d ∈ m.native, d.name = g ∧ d.args = as ∧ d.result = r) ∨
    ∃ d ∈ m.definitions, d.name = g ∧ d.args.map (·.2) = as ∧ d.result = r := by
  simp only [TModule.functions, List.mem_append, List.mem_map, Prod.mk.injEq, Ty.function.injEq] at h
  rcases h with (⟨d, hd, h1, h2, h3⟩ | ⟨d, hd, h1, h2, h3⟩) | ⟨d, hd, h1, h2, h3⟩
  · exact .inl ⟨d, by simp [TModule.native, hd], h1, h2, h3⟩
  · exact .inl ⟨d, by simp [TModule.native, hd], h1, h2, h3⟩
  · exact .inr ⟨d, hd, h1, h2, h3⟩

theorem native_names : m.native.map (·.name) = (m.program id).foreign := by
  simp [TModule.native, TModule.program]

theorem function_names : m.functions.map (·.1) = m.native.map (·.name) ++ m.definitions.map (·.name) := by
  simp [TModule.functions, TModule.native]
  rfl

/-- A name is found where it is declared. -/
theorem find_defined (hn : (m.functions.map (·.1)).Nodup) {d : TDefinition} (hd : d ∈ m.definitions) :
    (m.program id).find d.name = some (d.erase id) := by
  rw [find_definition _ rfl]
  rw [function_names] at hn
  have hn := (List.nodup_append.1 hn).2.1
  have : m.definitions.find? (·.name == d.name) = some d := by
    generalize m.definitions = ds at hd hn
    induction ds with
    | nil => cases hd
    | cons e ds ih =>
      simp only [List.map_cons, List.nodup_cons] at hn
      rcases List.mem_cons.1 hd with rfl | hd
      · simp
      · have hne : e.name ≠ d.name := fun h => hn.1 (h ▸ List.mem_map.2 ⟨d, hd, rfl⟩)
        simp [hne, ih hd hn.2]
  simp [this]

theorem find_native (hn : (m.functions.map (·.1)).Nodup) {d : TDeclaration} (hd : d ∈ m.native) :
    (m.program id).find d.name = none := by
  rw [find_definition _ rfl]
  rw [function_names] at hn
  have hn := (List.nodup_append.1 hn).2.2
  simp only [Option.map_eq_none_iff, List.find?_eq_none, beq_iff_eq]
  intro e he h
  exact hn d.name (List.mem_map.2 ⟨d, hd, rfl⟩) e.name (List.mem_map.2 ⟨e, he, rfl⟩) h.symm

theorem globals_of_wellTyped (h : WellTyped m) : Globals m id where
  functions g σ hs := functions_function ((scope_iff h.functionNames _ _).1 hs)
  known g σ hs := by
    have hs := (scope_iff h.functionNames _ _).1 hs
    obtain ⟨as, r, rfl⟩ := functions_function hs
    rcases functions_cases hs with ⟨d, hd, rfl, -⟩ | ⟨d, hd, rfl, -⟩
    · have : d.name ∈ (m.program id).foreign := native_names (id := id) ▸ List.mem_map.2 ⟨d, hd, rfl⟩
      simp [Program.isGlobal, this]
    · simp [Program.isGlobal, find_defined h.functionNames hd]
  information t := by
    obtain ⟨τ, h1, h2⟩ := h.information
    simp only [TModule.program]
    cases hf : m.information.find? (fun x => id x.1 == t) with
    | none => rfl
    | some x =>
      simp only [Option.map_some, Option.getD_some]
      rw [(scope_iff h.functionNames _ _).2 h1, (scope_iff h.functionNames _ _).2 (h2 x (List.mem_of_find?_eq_some hf))]

mutual
theorem obs_typed (hg : Globals m id) : (v : Value) → (τ : Ty) → ValT m id S u v τ →
    ObsHasType m.context.types id S v.obs τ
  | .none, τ, h => by
      cases h; exact .none
  | .boolean b, τ, h => by
      cases h; exact .boolean _
  | .number n, τ, h => by
      cases h; exact .number _
  | .string s, τ, h => by
      cases h; exact .string _
  | .record t vs, τ, h => by
      cases h with
      | record h hv => exact .record h (obsList_typed hg vs _ hv)
  | .variant t v, τ, h => by
      cases h with
      | variant h1 h2 h3 => exact .variant h1 h2 (obs_typed hg v _ h3)
  | .closure .., τ, h => by
      cases h; exact .function _ _
  | .global g, τ, h => by
      cases h with
      | global h => obtain ⟨as, r, rfl⟩ := hg.functions _ _ h; exact .function _ _
theorem obsList_typed (hg : Globals m id) : (vs : List Value) → (ts : List Ty) → List.Forall₂ (ValT m id S u) vs ts →
    List.Forall₂ (ObsHasType m.context.types id S) (Value.obsList vs) ts
  | [], ts, h => by cases h; exact .nil
  | v :: vs, ts, h => by
      cases h with
      | cons h hs => exact .cons (obs_typed hg v _ h) (obsList_typed hg vs _ hs)
end

mutual
theorem value_typed : (o : Obs) → (τ : Ty) → (v : Value) → ObsHasType m.context.types id S o τ → o.value = some v →
    ValT m id S u v τ
  | .none, τ, v, h, hv => by
      cases hv; cases h; exact .none
  | .boolean b, τ, v, h, hv => by
      cases hv; cases h; exact .boolean _
  | .number n, τ, v, h, hv => by
      cases hv; cases h; exact .number _
  | .string s, τ, v, h, hv => by
      cases hv; cases h; exact .string _
  | .record t os, τ, v, h, hv => by
      simp only [Obs.value] at hv
      obtain ⟨vs, hvs, rfl⟩ := Option.map_eq_some_iff.1 hv
      cases h with
      | record h hos => exact .record h (valueList_typed os _ vs hos hvs)
  | .variant t o, τ, v, h, hv => by
      simp only [Obs.value] at hv
      obtain ⟨w, hw, rfl⟩ := Option.map_eq_some_iff.1 hv
      cases h with
      | variant h1 h2 h3 => exact .variant h1 h2 (value_typed o _ w h3 hw)
  | .function, τ, v, h, hv => by cases hv
theorem valueList_typed : (os : List Obs) → (ts : List Ty) → (vs : List Value) →
    List.Forall₂ (ObsHasType m.context.types id S) os ts → Obs.valueList os = some vs →
    List.Forall₂ (ValT m id S u) vs ts
  | [], ts, vs, h, hv => by cases h; cases hv; exact .nil
  | o :: os, ts, vs, h, hv => by
      simp only [Obs.valueList] at hv
      obtain ⟨v, h1, hv⟩ := Option.bind_eq_some_iff.1 hv
      obtain ⟨vs', h2, rfl⟩ := Option.map_eq_some_iff.1 hv
      cases h with
      | cons h hs => exact .cons (value_typed o _ v h h1) (valueList_typed os _ vs' hs h2)
end

theorem RT.catch {r : Ty} {a : R Value} (h : RT m id S u (fun v => ValT m id S u v r) r a) (q : Ty) :
    RT m id S u (fun v => ValT m id S u v r) q a.catch := by
  cases a with
  | ok v l => exact h
  | ret v l => exact h
  | timeout => trivial
  | stuck => exact h

theorem apply_typed (h : WellTyped m) (hs : WellScoped m id S) (w : World) (hw : Honest m id S w)
    (hT : u = false → ∀ d ∈ m.definitions, (d.body.erase id).total = true) (n : Nat) :
    CallerT m id S u (applyU u w (m.program id) captureAll n) := by
  have hg : Globals m id := globals_of_wellTyped h
  induction n with
  | zero =>
    intro f args r vs l _ _ _ q
    simp only [applyU]
    trivial
  | succ n ih =>
    intro f args r vs l hf hvs hl q
    cases hf with
    | @closure Γ f env args r th body ρ hb he h1 h2 =>
      have hc : ValT m id S u (.closure f (env.map (·.1)) (args.map (·.1)) th (body.erase id) ρ) (.function (args.map (·.2)) r) :=
        .closure hb he h1 h2
      have hE : EnvT m id S u Γ ρ := fun x σ hx => ⟨fun v hv => h1 x σ v hx hv, fun hn => h2 x σ hx hn⟩
      obtain ⟨ρ', hρ', hE'⟩ := (hE.set (x := f) hc).setMany hvs
      simp only [applyU, hρ']
      refine (eval_typed hg hs.ids w _ ih body r _ r ρ' l hb ?_ hl).catch q
      rw [insertMany_append, insertMany_agrees _ _ he]
      exact hE'
    | @global g _ hsc =>
      have hmem := (scope_iff h.functionNames _ _).1 hsc
      simp only [applyU]
      rcases functions_cases hmem with ⟨d, hd, rfl, rfl, rfl⟩ | ⟨d, hd, rfl, rfl, rfl⟩
      · rw [find_native h.functionNames hd]
        have : d.name ∈ (m.program id).foreign := native_names (id := id) ▸ List.mem_map.2 ⟨d, hd, rfl⟩
        simp only [List.contains_iff_mem.2 this, if_true, callForeign]
        have ho := obsList_typed hg vs _ hvs
        obtain ⟨⟨v, hv⟩, ht⟩ := hw d hd l _ ho
        rw [hv]
        refine ⟨value_typed _ _ v ht hv, fun e he => ?_⟩
        rcases List.mem_cons.1 he with rfl | he
        · exact ⟨d, hd, rfl, ho, ht⟩
        · exact hl e he
      · rw [find_defined h.functionNames hd]
        have hE : EnvT m id S u m.scope (fun _ => none) := fun x σ hx => ⟨nofun, fun _ => hx⟩
        obtain ⟨ρ', hρ', hE'⟩ := hE.setMany hvs
        simp only [TDefinition.erase, hρ']
        refine (eval_typed hg hs.ids w _ ih d.body d.result _ d.result ρ' l ⟨h.bodies d hd, hs.scopes d hd, hs.tags d hd, ?_, fun hu => hT hu d hd⟩ hE' hl).catch q
        exact insertMany_other _ _ _ (hs.args d hd)

end Verif.Mir.Typed
