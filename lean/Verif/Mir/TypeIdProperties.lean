import Verif.Mir.TypeIds
import Verif.Mir.TypeExamples

/-
C64: type information exists for all types of tags, and tags of different types differ.
-/
namespace Verif.Mir.Typed

theorem mem_module_collect {m : TModule} (h : ∀ d ∈ m.definitions, d.body.noBareDefault = true) (τ : Ty) :
    τ ∈ m.collect ↔ τ ∈ m.tags := by
  simp only [TModule.collect, TModule.tags, List.mem_flatMap]
  constructor
  · rintro ⟨d, hd, ht⟩
    exact ⟨d, hd, (mem_collect τ d.body (h d hd)).1 ht⟩
  · rintro ⟨d, hd, ht⟩
    exact ⟨d, hd, (mem_collect τ d.body (h d hd)).2 ht⟩

theorem mapM_some_iff {α β : Type} (f : α → Option β) (as : List α) :
    (∃ bs, as.mapM f = some bs) ↔ ∀ a ∈ as, ∃ b, f a = some b := by
  induction as with
  | nil => simp
  | cons a as ih =>
    simp only [List.mapM_cons, Option.pure_def, Option.bind_eq_bind, Option.bind_eq_some_iff, Option.some.injEq,
      List.mem_cons, forall_eq_or_imp]
    constructor
    · rintro ⟨_, b, hb, bs, hbs, rfl⟩
      exact ⟨⟨b, hb⟩, ih.1 ⟨bs, hbs⟩⟩
    · rintro ⟨⟨b, hb⟩, h⟩
      obtain ⟨bs, hbs⟩ := ih.2 h
      exact ⟨_, b, hb, bs, hbs, rfl⟩

theorem mapM_mem_iff {α β : Type} {f : α → Option β} {as : List α} {bs : List β} (h : as.mapM f = some bs) (b : β) :
    b ∈ bs ↔ ∃ a ∈ as, f a = some b := by
  induction as generalizing bs with
  | nil =>
    simp only [List.mapM_nil, Option.pure_def, Option.some.injEq] at h
    subst h
    simp
  | cons x xs ih =>
    simp only [List.mapM_cons, Option.pure_def, Option.bind_eq_bind, Option.bind_eq_some_iff, Option.some.injEq] at h
    obtain ⟨y, h1, ys, h2, rfl⟩ := h
    simp only [List.mem_cons, ih h2, exists_eq_or_imp, h1, Option.some.injEq]
    exact or_congr_left eq_comm

theorem information_find {m : TModule} {τ : Ty} :
    (∃ x, m.information.find? (·.1 == τ) = some x) ↔ ∃ f, (τ, f) ∈ m.information := by
  constructor
  · rintro ⟨⟨σ, f⟩, h⟩
    have h1 := List.find?_some h
    have h2 := List.mem_of_find?_eq_some h
    obtain rfl : σ = τ := by simpa using h1
    exact ⟨f, h2⟩
  · rintro ⟨f, h⟩
    cases hx : m.information.find? (·.1 == τ) with
    | some x => exact ⟨x, rfl⟩
    | none =>
      have := List.find?_eq_none.1 hx _ h
      simp at this

/-- Code generation finds type information exactly if the module gives it for all types of tags of its expressions. -/
theorem c64_found_partial (m : TModule) (h : ∀ d ∈ m.definitions, d.body.noBareDefault = true) (id : Ty → TypeId) :
    (∃ gs, m.informationGlobals id = some gs) ↔ ∀ d ∈ m.definitions, ∀ τ ∈ d.body.tags, ∃ f, (τ, f) ∈ m.information := by
  rw [TModule.informationGlobals, mapM_some_iff]
  constructor
  · intro hs d hd τ ht
    obtain ⟨b, hb⟩ := hs τ ((mem_module_collect h τ).2 (List.mem_flatMap.2 ⟨d, hd, ht⟩))
    obtain ⟨x, hx, -⟩ := Option.map_eq_some_iff.1 hb
    exact information_find.1 ⟨x, hx⟩
  · intro hs τ ht
    obtain ⟨d, hd, ht⟩ := List.mem_flatMap.1 ((mem_module_collect h τ).1 ht)
    obtain ⟨x, hx⟩ := information_find.2 (hs d hd τ ht)
    exact ⟨_, by rw [hx]; rfl⟩

theorem informationName_inj (id : Ty → TypeId) (σ τ : Ty) (e : informationName id σ = informationName id τ) : id σ = id τ := by
  have h := congrArg String.toList e
  unfold informationName at h
  rw [String.toList_append, String.toList_append] at h
  exact String.toList_injective (List.append_cancel_left h)

attribute [local irreducible] informationName

/-- The global that the tag of a variant points to exists for all tags of expressions, once for every tag, with the
function that the module gives for the type. -/
theorem c64_globals_partial (m : TModule) (h : ∀ d ∈ m.definitions, d.body.noBareDefault = true) (id : Ty → TypeId)
    (hid : ∀ σ τ, σ ∈ m.tags → τ ∈ m.tags → id σ = id τ → σ = τ) (hm : (m.information.map (·.1)).Nodup)
    (gs : List (String × Name)) (hg : m.informationGlobals id = some gs) :
    (∀ d ∈ m.definitions, ∀ τ ∈ d.body.tags, ∀ f, (τ, f) ∈ m.information ↔ (informationName id τ, f) ∈ gs) ∧
    ∀ n f, (n, f) ∈ gs → ∃ d ∈ m.definitions, ∃ τ ∈ d.body.tags, n = informationName id τ := by
  unfold TModule.informationGlobals at hg
  have hmem := mapM_mem_iff hg
  have hname := informationName_inj id
  have huniq : ∀ τ x f, m.information.find? (·.1 == τ) = some x → ((τ, f) ∈ m.information ↔ x.2 = f) := by
    intro τ ⟨σ, g⟩ f hx
    have h1 := List.find?_some hx
    have h2 := List.mem_of_find?_eq_some hx
    obtain rfl : σ = τ := by simpa using h1
    constructor
    · intro hf
      exact congrArg Prod.snd (List.inj_on_of_nodup_map hm h2 hf rfl)
    · rintro rfl; exact h2
  constructor
  · intro d hd τ ht f
    have htags : τ ∈ m.tags := List.mem_flatMap.2 ⟨d, hd, ht⟩
    rw [hmem]
    constructor
    · intro hf
      obtain ⟨x, hx⟩ := information_find.2 ⟨f, hf⟩
      refine ⟨τ, (mem_module_collect h τ).2 htags, ?_⟩
      rw [hx, Option.map_some, (huniq τ x f hx).1 hf]
    · rintro ⟨σ, hσ, hs⟩
      obtain ⟨x, hx, he⟩ := Option.map_eq_some_iff.1 hs
      simp only [Prod.mk.injEq] at he
      have := hid σ τ ((mem_module_collect h σ).1 hσ) htags (hname σ τ he.1)
      subst this
      exact (huniq σ x f hx).2 he.2
  · intro n f hf
    obtain ⟨σ, hσ, hs⟩ := (hmem _).1 hf
    obtain ⟨x, hx, he⟩ := Option.map_eq_some_iff.1 hs
    simp only [Prod.mk.injEq] at he
    obtain ⟨d, hd, ht⟩ := List.mem_flatMap.1 ((mem_module_collect h σ).1 hσ)
    exact ⟨d, hd, σ, ht, he.1.symm⟩

/-- Different types are written differently, and have different ids if the hash of what is written differs. -/
theorem c64_ids_partial (hash : List Char → TypeId) (σ τ : Ty) (hσ : σ.Plain) (hτ : τ.Plain)
    (hh : hash σ.chars = hash τ.chars → σ.chars = τ.chars) : typeId hash σ = typeId hash τ ↔ σ = τ := by
  constructor
  · intro h
    exact (chars_inj σ τ hσ hτ [] [] trivial trivial (by rw [hh h])).1
  · rintro rfl; rfl

/-- A collision-free hash, for examples: the string itself. -/
def identityHash (s : List Char) : TypeId := String.ofList s

theorem identityHash_inj {s t : List Char} (h : identityHash s = identityHash t) : s = t := by
  have := congrArg String.toList h
  simpa [identityHash] using this

/-- The conditions are met by the module of C63. -/
example : (∀ d ∈ sampleTyped.definitions, d.body.noBareDefault = true) ∧ sampleTyped.tags ≠ [] ∧
    (∀ τ ∈ sampleTyped.tags, τ.Plain) := by
  refine ⟨by decide, by decide, ?_⟩
  intro τ ht
  have : τ = .number ∨ τ = .boolean ∨ τ = .none ∨ τ = .record "p" := by
    revert τ
    decide
  rcases this with rfl | rfl | rfl | rfl
  · trivial
  · trivial
  · trivial
  · refine ⟨by decide, by decide, ?_⟩
    intro c hc
    have : c = 'p' := by simpa using hc
    subst this
    decide

/-- Types that are written with the types in them. -/
example : (Ty.function [.number, .record "a:p"] (.function [] .none)).chars = "(\\(number,a:p)(\\()none))".toList := by decide

/-! ### Counterexamples -/

/-- `case x { _ -> a variant of a boolean }`: a default alternative without others. -/
def bareDefault : TModule where
  types := []
  foreignDeclarations := []
  foreignDefinitions := []
  declarations := [⟨"describe", [.variant], .byteString⟩]
  definitions :=
    [⟨"f", [("x", .variant)], .variant, false,
      .case (.variable "x") (.default "y" (.op (.variant .boolean) (.cons (.literal (.boolean true)) .nil)))⟩]
  information := [(.boolean, "describe")]
  fallback := "describe"

/-- What the default alternative of a case makes variants of is not collected if it is the only alternative: no global is
generated for the tag. -/
theorem c64_default_counterexample (id : Ty → TypeId) :
    checkModule bareDefault = true ∧ Ty.boolean ∈ bareDefault.tags ∧ bareDefault.informationGlobals id = some [] := by
  refine ⟨by decide +kernel, by decide, rfl⟩

/-- Types that are written in the same way, as names of records are not quoted. -/
theorem c64_names_counterexample (hash : List Char → TypeId) :
    typeId hash (.record "number") = typeId hash .number ∧
    typeId hash (.function [.record "a", .record "b"] .none) = typeId hash (.function [.record "a,b"] .none) ∧
    typeId hash (.function [] .none) = typeId hash (.function [.record ""] .none) := ⟨rfl, rfl, rfl⟩

end Verif.Mir.Typed
