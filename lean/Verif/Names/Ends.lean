import Verif.Names.Analyze
import Verif.Hir.EndsExpr

/-!
# The analysis of every module ends

Name resolution and the analysis are modelled with a bound on the depth to which they look into a module. For
every module there is a bound from which on the result no longer changes, and it is never the result of the
bound.
-/

namespace Verif.Names

open Verif.Hir Res

/-! ## The validators -/

theorem checkOpen_ends {A : Aliases} (h : AllEnd A) (os : List String) (t : Ty) : Ends fun n => checkOpen n A os t := by
  unfold checkOpen
  exact (h t).bind fun c => .const (by split <;> [split <;> simp; simp])

theorem checkFields_ends {A : Aliases} (h : AllEnd A) (os : List String) (e : Expr) :
    Ends fun n => checkFields n A os e := by
  cases e with
  | record t fs => simpa only [checkFields] using checkOpen_ends h os t
  | update t r fs => simpa only [checkFields] using checkOpen_ends h os t
  | deconstruct t r f =>
    simp only [checkFields]
    exact (orErr_ends _ _).bind fun t => checkOpen_ends h os t
  | _ => simpa only [checkFields] using .ok ()

theorem checkUnused_ends {A : Aliases} (h : AllEnd A) (e : Expr) : Ends fun n => checkUnused n A e := by
  cases e with
  | let_ x t a b =>
    simp only [checkUnused]
    refine (orErr_ends _ _).bind fun t => ?_
    cases x with
    | some x => exact .ok _
    | none =>
      refine (h t).bind fun c => .ite (.ok _) ((h.subsumeCheck _ _).bind fun b => .const (by split <;> simp))
  | _ => simpa only [checkUnused] using .ok ()

/-- The expressions that are visited are parts of the expression, or built-in functions. -/
theorem children_kids {e k : Expr} (h : k ∈ children e) : k ∈ kids e ∨ ∃ b, k = .builtIn b := by
  cases e <;> simp only [children, kids, List.not_mem_nil, List.mem_cons, List.mem_append] at h ⊢ <;> try (left; assumption)
  case builtInCall t b args => exact h.elim (fun h => .inr ⟨b, h⟩) .inl
  case ifType => left; exact or_assoc.mpr h
  case comprehension t e b bs =>
    left
    rcases h with h | h | h
    · obtain ⟨b, hb, hk⟩ := List.mem_flatMap.mp h
      exact .inr (List.mem_flatMap.mpr ⟨b, hb, List.mem_append_left _ hk⟩)
    · exact .inl h
    · cases h

theorem shift_ends {ε α : Type} {f : Nat → Res ε α} (h : Ends f) (c : Nat) : Ends fun n => f (n + c) := by
  obtain ⟨x, hx, N, hN, h0⟩ := h
  exact ⟨x, hx, N - c, fun n hn => hN _ (by omega), fun n hn => h0 _ (by omega)⟩

theorem visitAll_ends {f : Nat → Expr → Res Err Unit} (hf : ∀ e, Ends fun n => f n e) (e : Expr) :
    Ends fun n => visitAll (f n) n e := by
  have key : ∀ e c, Ends fun n => visitAll (f (n + c)) n e := by
    intro e
    induction e using Expr.induction with
    | h e ih =>
      intro c
      refine .succ ?_
      simp only [visitAll]
      refine (shift_ends (shift_ends (hf e) c) 1).bind fun _ => forList_ends fun k hk => ?_
      have e1 : (fun n => visitAll (f (n + 1 + c)) n k) = fun n => visitAll (f (n + (1 + c))) n k :=
        funext fun n => by rw [Nat.add_assoc]
      rw [e1]
      rcases children_kids hk with hk | ⟨b, rfl⟩
      · exact ih k hk (1 + c)
      · refine .succ ?_
        simp only [visitAll]
        refine (shift_ends (shift_ends (hf _) (1 + c)) 1).bind fun _ => forList_ends fun k hk => ?_
        simp [children] at hk
  exact key e 0

theorem validateTypes_ends (m : Module) : Ends fun n => validateTypes n m := by
  unfold validateTypes
  exact (forList_ends fun _ _ => forList_ends fun _ _ => typeExists_ends _ _).bind fun _ =>
    (forList_ends fun _ _ => typeExists_ends _ _).bind fun _ =>
    (forList_ends fun _ _ => typeExists_ends _ _).bind fun _ =>
    forList_ends fun _ _ => typesExist_ends _ _

theorem validatePossible_ends {m : Module} (h : validateAliases m.toHir.types = true) :
    Ends fun n => validatePossible n m := by
  unfold validatePossible
  refine forList_ends fun t ht => ?_
  unfold isImpossible
  refine ((Ends.mapList fun f hf => ?_).bind fun _ => .ok _).bind fun b => .const (by split <;> simp)
  refine isTypeRecursive_ends h (names := m.toHir.types.records.map (·.1)) (fun r fs hr => ?_) t.name _ [] le_rfl _
  exact List.mem_map.mpr ⟨_, lastLookup_some hr, rfl⟩

theorem validateDefinition_ends {m : Hir.Module} (h : AllEnd m.ctx.types) (os : List String) (d : Definition) :
    Ends fun n => validateDefinition n os m d := by
  unfold validateDefinition
  exact (infer_ends h _ _).bind fun e => (visitAll_ends (fun e => checkFields_ends h os e) e).bind fun _ =>
    visitAll_ends (fun e => checkUnused_ends h e) e

theorem analyze_ends (m : Module) : Ends fun n => analyze n m := by
  unfold analyze
  refine .ite (.err _) (.ite (.err _) ((validateTypes_ends m).bind fun _ => ?_))
  cases h : validateAliases m.toHir.types with
  | false => exact .err _
  | true =>
    have hA : AllEnd m.toHir.ctx.types := fun t => (types_end h t).1
    exact (validatePossible_ends h).bind fun _ =>
      (forList_ends fun d _ => validateDefinition_ends hA _ d).bind fun _ =>
      (Ends.mapList fun d _ => analyzeDefinition_ends hA _ d).bind fun _ => .ok _

/-! ## Name resolution -/

/-- The transformation of expressions no longer changes from some depth on. -/
theorem mapVariablesStep_congr {r r' : (String → Expr) → Expr → Expr} {e : Expr}
    (h : ∀ k ∈ kids e, ∀ σ, r σ k = r' σ k) (σ : String → Expr) : mapVariablesStep r σ e = mapVariablesStep r' σ e := by
  have branches : ∀ bs : List (Branch Expr), (∀ b ∈ bs, ∀ k ∈ branchKids b, ∀ σ, r σ k = r' σ k) → ∀ σ,
      mapBranches r σ bs = mapBranches r' σ bs := by
    intro bs
    induction bs with
    | nil => intro _ σ; rfl
    | cons b bs ih =>
      intro hb σ
      simp only [mapBranches]
      rw [ih (fun c hc => hb c (List.mem_cons_of_mem _ hc))]
      have h1 : b.iteratees.map (fun i => (i.1, r σ i.2)) = b.iteratees.map (fun i => (i.1, r' σ i.2)) :=
        List.map_congr_left fun i hi => by
          rw [hb b List.mem_cons_self i.2 (List.mem_append_left _ (List.mem_map.mpr ⟨i, hi, rfl⟩))]
      have h2 : b.condition.map (r (hide b.names σ)) = b.condition.map (r' (hide b.names σ)) := by
        cases hc : b.condition with
        | none => rfl
        | some c =>
          simp only [Option.map_some]
          rw [hb b List.mem_cons_self c (List.mem_append_right _ (by simp [hc]))]
      rw [h1, h2]
  cases e <;> simp only [mapVariablesStep, kids, List.mem_cons, List.not_mem_nil, or_false, forall_eq_or_imp,
    forall_eq, List.mem_append, List.cons_append] at h ⊢
  case call t f args => rw [h.1, List.map_congr_left fun a ha => h.2 a ha σ]
  case builtInCall t f args => rw [List.map_congr_left fun a ha => h a ha σ]
  case ifType n a bs els =>
    rw [h.1, List.map_congr_left fun (b : Ty × Expr) hb => by rw [h.2 b.2 (.inl (List.mem_map.mpr ⟨b, hb, rfl⟩))]]
    cases els with
    | none => rfl
    | some f => simp [h.2 f.2 (.inr (by simp))]
  case list t es =>
    rw [List.map_congr_left fun e he => ?_]
    have := h _ (List.mem_map.mpr ⟨e, he, rfl⟩) σ
    cases e <;> simp_all [listElem]
  case comprehension t e b bs =>
    rw [branches (b :: bs) (fun c hc k hk => h.2 k (List.mem_flatMap.mpr ⟨c, hc, hk⟩)) σ]
    simp only [h.1]
  case map k v es =>
    rw [List.map_congr_left fun e he => ?_]
    have := fun x hx => h x (List.mem_flatMap.mpr ⟨e, he, hx⟩) σ
    cases e <;> simp_all [mapElem]
  case record t fs => rw [List.map_congr_left fun f hf => by rw [h f.2 (List.mem_map.mpr ⟨f, hf, rfl⟩)]]
  case update t r fs => rw [h.1, List.map_congr_left fun f hf => by rw [h.2 f.2 (List.mem_map.mpr ⟨f, hf, rfl⟩)]]
  all_goals simp [h]

theorem mapTypesStep_congr {f : Ty → Ty} {r r' : Expr → Expr} {e : Expr}
    (h : ∀ k ∈ kids e, r k = r' k) : mapTypesStep f r e = mapTypesStep f r' e := by
  cases e <;> simp only [mapTypesStep, kids, List.mem_cons, List.not_mem_nil, or_false, forall_eq_or_imp,
    forall_eq, List.mem_append, List.cons_append] at h ⊢
  case call t f args => rw [h.1, List.map_congr_left fun a ha => h.2 a ha]
  case builtInCall t f args => rw [List.map_congr_left fun a ha => h a ha]
  case ifType n a bs els =>
    rw [h.1, List.map_congr_left fun (b : Ty × Expr) hb => by rw [h.2 b.2 (.inl (List.mem_map.mpr ⟨b, hb, rfl⟩))]]
    cases els with
    | none => rfl
    | some f => simp [h.2 f.2 (.inr (by simp))]
  case list t es =>
    rw [List.map_congr_left fun e he => ?_]
    have := h _ (List.mem_map.mpr ⟨e, he, rfl⟩)
    cases e <;> simp_all [listElem]
  case comprehension t e b bs =>
    have hb : ∀ c ∈ b :: bs, (⟨c.names, c.iteratees.map fun i => (i.1.map f, r i.2), c.condition.map r⟩ : Branch Expr)
        = ⟨c.names, c.iteratees.map fun i => (i.1.map f, r' i.2), c.condition.map r'⟩ := by
      intro c hc
      have hk := fun k hk => h.2 k (List.mem_flatMap.mpr ⟨c, hc, hk⟩)
      have h1 : c.iteratees.map (fun i => (i.1.map f, r i.2)) = c.iteratees.map (fun i => (i.1.map f, r' i.2)) :=
        List.map_congr_left fun i hi => by rw [hk i.2 (List.mem_append_left _ (List.mem_map.mpr ⟨i, hi, rfl⟩))]
      have h2 : c.condition.map r = c.condition.map r' := by
        cases hc : c.condition with
        | none => rfl
        | some d =>
          simp only [Option.map_some]
          rw [hk d (List.mem_append_right _ (by simp [hc]))]
      rw [h1, h2]
    rw [h.1, hb b List.mem_cons_self, List.map_congr_left fun c hc => hb c (List.mem_cons_of_mem _ hc)]
  case map k v es =>
    rw [List.map_congr_left fun e he => ?_]
    have := fun x hx => h x (List.mem_flatMap.mpr ⟨e, he, hx⟩)
    cases e <;> simp_all [mapElem]
  case record t fs => rw [List.map_congr_left fun f hf => by rw [h f.2 (List.mem_map.mpr ⟨f, hf, rfl⟩)]]
  case update t r fs => rw [h.1, List.map_congr_left fun f hf => by rw [h.2 f.2 (List.mem_map.mpr ⟨f, hf, rfl⟩)]]
  all_goals simp [h]

/-- A bound that is large enough for every element of a list. -/
theorem exists_bound {α : Type} {P : α → Nat → Prop} (hP : ∀ a i j, i ≤ j → P a i → P a j) :
    ∀ as : List α, (∀ a ∈ as, ∃ N, P a N) → ∃ N, ∀ a ∈ as, P a N
  | [], _ => ⟨0, by simp⟩
  | a :: as, h => by
    obtain ⟨N, hN⟩ := h a List.mem_cons_self
    obtain ⟨M, hM⟩ := exists_bound hP as fun b hb => h b (List.mem_cons_of_mem _ hb)
    refine ⟨max N M, fun b hb => ?_⟩
    rcases List.mem_cons.mp hb with rfl | hb
    · exact hP _ _ _ (le_max_left _ _) hN
    · exact hP _ _ _ (le_max_right _ _) (hM b hb)

theorem mapVariables_steady (e : Expr) : ∃ N, ∀ d, N ≤ d → ∀ σ, mapVariables d σ e = mapVariables N σ e := by
  have key : ∃ N, ∀ d d', N ≤ d → N ≤ d' → ∀ σ, mapVariables d σ e = mapVariables d' σ e := by
    induction e using Expr.induction with
    | h e ih =>
      obtain ⟨N, hN⟩ := exists_bound
        (P := fun k N => ∀ d d', N ≤ d → N ≤ d' → ∀ σ, mapVariables d σ k = mapVariables d' σ k)
        (fun k i j hij h d d' hd hd' => h d d' (by omega) (by omega)) (kids e) ih
      refine ⟨N + 1, fun d d' hd hd' σ => ?_⟩
      obtain ⟨d, rfl⟩ : ∃ c, d = c + 1 := ⟨d - 1, by omega⟩
      obtain ⟨d', rfl⟩ : ∃ c, d' = c + 1 := ⟨d' - 1, by omega⟩
      exact mapVariablesStep_congr (fun k hk => hN k hk d d' (by omega) (by omega)) σ
  obtain ⟨N, hN⟩ := key
  exact ⟨N, fun d hd => hN d N hd le_rfl⟩

theorem mapTypes_steady (f : Ty → Ty) (e : Expr) : ∃ N, ∀ d, N ≤ d → mapTypes f d e = mapTypes f N e := by
  have key : ∃ N, ∀ d d', N ≤ d → N ≤ d' → mapTypes f d e = mapTypes f d' e := by
    induction e using Expr.induction with
    | h e ih =>
      obtain ⟨N, hN⟩ := exists_bound
        (P := fun k N => ∀ d d', N ≤ d → N ≤ d' → mapTypes f d k = mapTypes f d' k)
        (fun k i j hij h d d' hd hd' => h d d' (by omega) (by omega)) (kids e) ih
      refine ⟨N + 1, fun d d' hd hd' => ?_⟩
      obtain ⟨d, rfl⟩ : ∃ c, d = c + 1 := ⟨d - 1, by omega⟩
      obtain ⟨d', rfl⟩ : ∃ c, d' = c + 1 := ⟨d' - 1, by omega⟩
      exact mapTypesStep_congr (fun k hk => hN k hk d d' (by omega) (by omega))
  obtain ⟨N, hN⟩ := key
  exact ⟨N, fun d hd => hN d N hd le_rfl⟩

/-- From some bound on a function no longer changes. -/
def Steady {α : Type} (f : Nat → α) : Prop := ∃ N, ∀ n, N ≤ n → f n = f N

theorem Steady.const {α : Type} (x : α) : Steady fun _ => x := ⟨0, fun _ _ => rfl⟩

theorem Steady.comp {α β : Type} {f : Nat → α} {g : Nat → α → β} (hf : Steady f) (hg : ∀ a, Steady fun n => g n a) :
    Steady fun n => g n (f n) := by
  obtain ⟨N, hN⟩ := hf
  obtain ⟨M, hM⟩ := hg (f N)
  refine ⟨max N M, fun n hn => ?_⟩
  have h1 : f n = f N := hN n (le_trans (le_max_left _ _) hn)
  have h2 : f (max N M) = f N := hN _ (le_max_left _ _)
  simp only [h1, h2]
  exact (hM n (le_trans (le_max_right _ _) hn)).trans (hM _ (le_max_right _ _)).symm

theorem Steady.list {α β : Type} {f : Nat → α → β} (as : List α) (hf : ∀ a, Steady fun n => f n a) :
    Steady fun n => as.map (f n) := by
  induction as with
  | nil => exact .const _
  | cons a as ih =>
    simp only [List.map_cons]
    exact (hf a).comp (g := fun n b => b :: as.map (f n)) fun b => ih.comp (g := fun _ bs => b :: bs) fun _ => .const _

theorem Module.mapVariables_steady (σ : String → Expr) (m : Module) : Steady fun d => m.mapVariables d σ := by
  unfold Module.mapVariables
  refine (Steady.list m.definitions fun f => ?_).comp (g := fun _ ds => { m with definitions := ds }) fun _ => .const _
  obtain ⟨N, hN⟩ := Names.mapVariables_steady f.body
  exact ⟨N, fun n hn => by simp only [hN n hn]⟩

theorem Module.mapTypes_steady (g : Ty → Ty) (m : Module) : Steady fun d => m.mapTypes d g := by
  unfold Module.mapTypes
  refine (Steady.list m.definitions fun f => ?_).comp (g := fun _ ds => ({ types := _, aliases := _, foreigns := _, declarations := _, definitions := ds } : Module)) fun _ => .const _
  obtain ⟨N, hN⟩ := Names.mapTypes_steady (mapType g) f.body
  exact ⟨N, fun n hn => by simp only [hN n hn]⟩

theorem compile_steady (pre : String) (m : Module) (is : List Import) (ps : List Interface) :
    Steady fun d => compile d pre m is ps := by
  unfold compile
  by_cases h : is.all (·.valid) = true
  · simp only [h, if_true]
    refine Steady.comp (f := fun d => transformModule d pre (compileImported d m is ps)) (g := fun _ m => some m) ?_
      fun _ => .const _
    refine Steady.comp (f := fun d => compileImported d m is ps) (g := fun d m => transformModule d pre m) ?_ ?_
    · unfold compileImported
      refine (Module.mapTypes_steady _ m).comp
        (g := fun d m => compileImports (m.mapVariables d (renamed (variableNames is m)))
          (is.map (·.interface) ++ ps)) fun m => ?_
      exact (Module.mapVariables_steady _ m).comp (g := fun _ m => compileImports m _) fun _ => .const _
    · intro m
      unfold transformModule
      refine Steady.comp (f := fun d => qualifyFunctions d pre m)
        (g := fun d m => (builtInTypes d (qualifyTypes d pre m)).mapVariables d builtInVariable) ?_ fun m => ?_
      · exact Module.mapVariables_steady _ _
      · refine Steady.comp (f := fun d => qualifyTypes d pre m)
          (g := fun d m => (builtInTypes d m).mapVariables d builtInVariable) ?_ fun m => ?_
        · exact Module.mapTypes_steady _ _
        · refine Steady.comp (f := fun d => builtInTypes d m)
            (g := fun d m => m.mapVariables d builtInVariable) ?_ fun m => ?_
          · exact Module.mapTypes_steady _ _
          · exact Module.mapVariables_steady _ _
  · simp only [h]
    exact .const _

end Verif.Names
