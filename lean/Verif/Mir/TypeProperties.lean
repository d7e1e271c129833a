import Verif.Mir.TypeCalls
import Verif.Mir.WholeProperties

/-
C63: modules the type checker of the mid-level intermediate representation accepts do not go wrong.
-/
namespace Verif.Mir.Typed

/-- The checker accepts a module exactly if it is well typed. -/
theorem c63_checker (m : TModule) : checkModule m = true ↔ WellTyped m := checkModule_iff m

/-- Accepted modules do not go wrong. A function of an accepted module is called from native code with arguments of its
types. If it returns, its result has its result type, and all native functions it called got arguments of the types they
are declared with. The run in which a variant that no alternative matches stops the program has no type error at all. -/
theorem c63_sound (m : TModule) (h : checkModule m = true) (id : Ty → TypeId) (tagged : Ty → Prop)
    (hs : WellScoped m id tagged) (w : World) (hw : Honest m id tagged w) (fuel : Nat) (g : Name) (types : List Ty)
    (result : Ty) (hg : (g, .function types result) ∈ m.functions) (args : List Obs)
    (hargs : List.Forall₂ (ObsHasType m.context.types id tagged) args types) (vs : List Value)
    (hvs : Obs.valueList args = some vs) :
    (∀ v log, ((m.program id).run w captureAll fuel g args).outcome = .value v log →
      ObsHasType m.context.types id tagged v result ∧ ∀ e ∈ log, EventTyped m id tagged e) ∧
    (∀ v log, ((m.program id).run w captureAll fuel g args).outcome ≠ .returned v log) ∧
    applyU true w (m.program id) captureAll fuel (.global g) vs [] ≠ .stuck := by
  have hT := (checkModule_iff m).1 h
  have hc := apply_typed (u := true) hT hs w hw nofun fuel (.global g) types result vs []
    (.global ((scope_iff hT.functionNames _ _).2 hg)) (valueList_typed args types vs hargs hvs) (by simp) result
  have hr := applyU_reached true w (m.program id) captureAll fuel (.global g) vs []
  have he : (m.program id).run w captureAll fuel g args = apply w (m.program id) captureAll fuel (.global g) vs [] := by
    simp [Program.run, hvs]
  rw [he]
  have hret : ∀ n v l, applyU true w (m.program id) captureAll n (.global g) vs [] ≠ .ret v l := by
    intro n v l
    cases n with
    | zero => simp [applyU]
    | succ n =>
      simp only [applyU]
      split
      · split
        · rename_i ρ _
          generalize evalU true w (m.program id) captureAll _ ρ _ _ = a
          cases a <;> simp [R.catch]
        · simp
      · split
        · simp only [callForeign]
          cases (w.foreign [] g (Value.obsList vs)).value <;> simp [R.ofOption]
        · simp
  have hret := hret fuel
  generalize applyU true w (m.program id) captureAll fuel (.global g) vs [] = a at hc hr hret
  generalize apply w (m.program id) captureAll fuel (.global g) vs [] = b at hr
  refine ⟨fun v log ho => ?_, fun v log ho => ?_, fun e => by subst e; exact hc⟩
  · cases hr with
    | same =>
      cases a with
      | ok v' l =>
        simp only [R.outcome, Outcome.value.injEq] at ho
        obtain ⟨rfl, rfl⟩ := ho
        exact ⟨obs_typed (globals_of_wellTyped hT) v' _ hc.1, hc.2⟩
      | ret => simp [R.outcome] at ho
      | timeout => simp [R.outcome] at ho
      | stuck => exact hc.elim
    | unreachable => simp [R.outcome] at ho
  · cases hr with
    | same =>
      cases a with
      | ok v' l => simp [R.outcome] at ho
      | ret v l => exact hret v l rfl
      | timeout => simp [R.outcome] at ho
      | stuck => exact hc.elim
    | unreachable => simp [R.outcome] at ho

/-- If all cases have default alternatives, there is no type error at run time. -/
theorem c63_total (m : TModule) (h : checkModule m = true) (id : Ty → TypeId) (tagged : Ty → Prop)
    (hs : WellScoped m id tagged) (ht : ∀ d ∈ m.definitions, (d.body.erase id).total = true) (w : World)
    (hw : Honest m id tagged w) (fuel : Nat) (g : Name) (types : List Ty) (result : Ty)
    (hg : (g, .function types result) ∈ m.functions) (args : List Obs)
    (hargs : List.Forall₂ (ObsHasType m.context.types id tagged) args types) (hf : ∃ vs, Obs.valueList args = some vs) :
    (m.program id).run w captureAll fuel g args ≠ .stuck := by
  obtain ⟨vs, hvs⟩ := hf
  have hT := (checkModule_iff m).1 h
  have hc := apply_typed (u := false) hT hs w hw (fun _ => ht) fuel (.global g) types result vs []
    (.global ((scope_iff hT.functionNames _ _).2 hg)) (valueList_typed args types vs hargs hvs) (by simp) result
  rw [applyU_false] at hc
  simp only [Program.run, hvs]
  intro e
  rw [e] at hc
  exact hc

/-- What the middle end makes of an accepted module whose cases have default alternatives, run with a heap, has no type
error either, and gives a result of the type it should have. -/
theorem c63_middle_end_partial (m : TModule) (h : checkModule m = true) (id : Ty → TypeId) (tagged : Ty → Prop)
    (hs : WellScoped m id tagged) (ht : ∀ d ∈ m.definitions, (d.body.erase id).total = true) (w : World)
    (hw : Honest m id tagged w) (fuel : Nat) (g : Name) (types : List Ty) (result : Ty)
    (hg : (g, .function types result) ∈ m.functions) (args : List Obs)
    (hargs : List.Forall₂ (ObsHasType m.context.types id tagged) args types) (hf : ∃ vs, Obs.valueList args = some vs)
    (hfe : FrontEnd (m.program id)) (q : Program) (hq : middleEnd (m.program id) = some q) :
    ((q.hrun w fuel g args).outcome = some .timeout ∨
      ∃ v log, (q.hrun w fuel g args).outcome = some (.value v log) ∧ ObsHasType m.context.types id tagged v result) := by
  have hne := c63_total m h id tagged hs ht w hw fuel g types result hg args hargs hf
  obtain ⟨vs, hvs⟩ := hf
  obtain ⟨h1, h2, -⟩ := c63_sound m h id tagged hs w hw fuel g types result hg args hargs vs hvs
  rw [c50_behaviour_partial _ q hfe hq w fuel g args hne]
  generalize (m.program id).run w captureAll fuel g args = a at h1 h2 hne
  cases a with
  | ok v l => exact .inr ⟨v.obs, l, rfl, (h1 _ _ rfl).1⟩
  | ret v l => exact absurd rfl (h2 v.obs l)
  | timeout => exact .inl rfl
  | stuck => exact absurd rfl hne

end Verif.Mir.Typed
