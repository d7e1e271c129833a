import Verif.Hir.Accepted

/-! # Modules that pass the analysis -/

namespace Verif.Hir

open Verif.Res

theorem typeExists_ok {M : TypeModule} {t : Ty} {u : Unit} (h : typeExists M t = .ok u) :
    ∀ x ∈ collectReferences t, referenceExists M x = true := by
  unfold typeExists at h
  split at h
  · rename_i hf
    intro x hx
    have := List.find?_eq_none.mp hf x hx
    simpa using this
  · cases h

/-- The types of modules that pass the analysis expand. -/
theorem ctxOk_of_analyze {m : Module}
    (h1 : forList (fun a : String × Ty => typeExists m.types a.2) m.types.aliases = .ok ())
    (h2 : forList (fun r : String × List RecordField =>
      forList (fun f : RecordField => typeExists m.types f.type) r.2) m.types.records = .ok ())
    (h3 : validateAliases m.types = true) : CtxOk m.types m.ctx := by
  have ha : aliasReferencesExist m.types = true := by
    unfold aliasReferencesExist
    rw [List.all_eq_true]
    intro a ha
    rw [List.all_eq_true]
    exact typeExists_ok (forList_ok h1 a ha)
  have hw : ∀ {t}, typeExists m.types t = .ok () → ∃ c, Canon m.ctx.types t c := by
    intro t ht
    obtain ⟨e, he⟩ := expands_of_references t fun x hx => references_expand h3 ha x (typeExists_ok ht x hx)
    exact ⟨_, e, he, rfl⟩
  refine ⟨hw, ?_⟩
  intro n fs hn f hf
  have hn' : lastLookup m.types.records n = some fs := hn
  have := lastLookup_some hn'
  exact hw (forList_ok (forList_ok h2 _ this) f hf)

/-- Programs without the constructs `Tame` excludes. -/
def TameModule (m : Module) : Prop := ∀ d ∈ m.definitions, Tame m.ctx.types false (.lambda d.params d.result d.body)

structure Analyzed (m m' : Module) (n : Nat) : Prop where
  ctx : CtxOk m.types m.ctx
  vars : VarsOk m.ctx m.vars
  written : ∀ d ∈ m.definitions, typesExist n m.types (.lambda d.params d.result d.body) = .ok ()
  types : m'.types = m.types
  declarations : m'.declarations = m.declarations
  definitions : List.Forall₂ (fun d d' => analyzeDefinition n m.ctx m.vars d = .ok d') m.definitions m'.definitions

theorem varsOk_of_analyze {m : Module} {n : Nat} (hC : CtxOk m.types m.ctx)
    (h3 : forList (fun d : String × (List Ty × Ty) => typeExists m.types (.function d.2.1 d.2.2))
      m.declarations = .ok ())
    (h4 : forList (fun d : Definition => typesExist n m.types (.lambda d.params d.result d.body))
      m.definitions = .ok ()) : VarsOk m.ctx m.vars := by
  intro x t ht
  rcases List.mem_append.mp (lastLookup_some ht) with h | h
  · obtain ⟨d, hd, he⟩ := List.mem_map.mp h
    cases he
    exact hC.written (forList_ok h3 d hd)
  · obtain ⟨d, hd, he⟩ := List.mem_map.mp h
    cases he
    have := forList_ok h4 d hd
    cases n with
    | zero => simp [typesExist] at this
    | succ n =>
      simp only [typesExist, bind_eq_ok] at this
      obtain ⟨_, w1, _, w2, _⟩ := this
      obtain ⟨c, hc⟩ := hC.written w2
      obtain ⟨as, has⟩ := forall₂_of_exists (as := d.params.map (·.2)) (P := Canon m.ctx.types) (by
        intro a ha
        obtain ⟨p, hp, rfl⟩ := List.mem_map.mp ha
        exact hC.written (forList_ok w1 p hp))
      exact ⟨_, Canon.function has hc⟩

theorem analyzed {m m' : Module} {n : Nat} (h : analyze n m = .ok m') : Analyzed m m' n := by
  unfold analyze at h
  split at h
  · cases h
  simp only [bind_eq_ok] at h
  obtain ⟨_, h1, _, h2, _, h3, _, h4, h⟩ := h
  split at h
  swap
  · cases h
  rename_i h5
  obtain ⟨ds, h6, h7⟩ := bind_eq_ok.mp h
  cases h7
  have hC := ctxOk_of_analyze h1 h2 h5
  exact ⟨hC, varsOk_of_analyze hC h3 h4, forList_ok h4, rfl, rfl, mapList_eq_ok.mp h6⟩

theorem analyzeDefinition_ok {m : Module} {n : Nat} {d d' : Definition}
    (h : analyzeDefinition n m.ctx m.vars d = .ok d') : ∃ e t e2 e3,
      infer n m.ctx (m.vars.insertAll d.params) d.body = .ok e ∧
      check n m.ctx (m.vars.insertAll d.params) e = .ok t ∧ expectSub n m.ctx t d.result = .ok () ∧
      validateTry n m.ctx (some d.result) e = .ok () ∧
      coerce n m.ctx (m.vars.insertAll d.params) e = .ok e2 ∧
      coerceTo n m.ctx (m.vars.insertAll d.params) e2 d.result = .ok e3 ∧
      d' = ⟨d.name, d.params, d.result, e3⟩ := by
  unfold analyzeDefinition at h
  simp only [bind_eq_ok] at h
  obtain ⟨e, h1, t, h2, _, h3, _, h4, e2, h5, e3, h6, _, _, _, _, h7⟩ := h
  cases h7
  exact ⟨e, t, e2, e3, h1, h2, h3, h4, h5, h6, rfl⟩

theorem Analyzed.ctx_eq {m m' : Module} {n : Nat} (h : Analyzed m m' n) : m'.ctx = m.ctx := by
  unfold Module.ctx; rw [h.types]

theorem Analyzed.signatures {m m' : Module} {n : Nat} (h : Analyzed m m' n) :
    (m'.definitions.map fun d => (d.name, d.params, d.result)) =
      m.definitions.map fun d => (d.name, d.params, d.result) := by
  have := h.definitions
  generalize m.definitions = l at this
  generalize m'.definitions = l' at this
  induction this with
  | nil => rfl
  | cons h1 _ ih =>
    obtain ⟨_, _, _, _, _, _, _, _, _, _, rfl⟩ := analyzeDefinition_ok h1
    simp [ih]

theorem Analyzed.vars_eq {m m' : Module} {n : Nat} (h : Analyzed m m' n) : m'.vars = m.vars := by
  unfold Module.vars
  rw [h.declarations]
  have h1 := congrArg (List.map fun p : String × List (String × Ty) × Ty => (p.1, lambdaType p.2.1 p.2.2)) h.signatures
  simp only [List.map_map] at h1
  have h2 : ∀ l : List Definition, l.map (fun d => (d.name, lambdaType d.params d.result)) =
      l.map ((fun p : String × List (String × Ty) × Ty => (p.1, lambdaType p.2.1 p.2.2)) ∘
        fun d => (d.name, d.params, d.result)) := fun _ => rfl
  rw [h2, h2, h1]

/-- Analyzed definitions have the types of their signatures. -/
theorem moduleOk_of_analyze {m m' : Module} {n : Nat} (h : analyze n m = .ok m') (ht : TameModule m) :
    ModuleOk m' := by
  have A := analyzed h
  intro d' hd'
  obtain ⟨d, hd, h1⟩ := forall₂_mem_right A.definitions hd'
  obtain ⟨e, t, e2, e3, g1, g2, g3, g4, g5, g6, rfl⟩ := analyzeDefinition_ok h1
  have hw := A.written d hd
  rw [A.ctx_eq, A.vars_eq]
  simp only
  cases n with
  | zero => simp [typesExist] at hw
  | succ n =>
    simp only [typesExist, bind_eq_ok] at hw
    obtain ⟨_, w1, _, w2, w3⟩ := hw
    obtain ⟨c, hc⟩ := A.ctx.written w2
    have hps : ∀ p ∈ d.params, ∃ c, Canon m.ctx.types p.2 c := fun p hp => A.ctx.written (forList_ok w1 p hp)
    obtain ⟨as, has⟩ := forall₂_of_exists (as := d.params.map (·.2)) (P := Canon m.ctx.types) (by
      intro a ha
      obtain ⟨p, hp, rfl⟩ := List.mem_map.mp ha
      exact hps p hp)
    refine ⟨as, c, Canon.function has hc, ?_⟩
    have hΓ := A.vars.insertAll hps
    have E : Elab m.types m.ctx (n + 1) := elab_all A.ctx (n + 1)
    cases ht d hd with
    | lambda hT => exact E.to hΓ hT .never ⟨n, w3⟩ g1 g2 g4 g5 g3 hc hc g6
    | lambdaTry hr hT =>
      refine E.to hΓ hT (fun _ rt hrt => ?_) ⟨n, w3⟩ g1 g2 g4 g5 g3 hc hc g6
      cases hrt
      exact ⟨c, rfl, hc, fun h => hr (h ▸ hc)⟩

end Verif.Hir
