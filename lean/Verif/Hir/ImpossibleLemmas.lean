import Verif.Hir.ValidatorLemmas

/-! # Partial completeness of the impossible record check -/

namespace Verif.Hir

open Res

/-- Types that have a value no matter what the record definitions are. -/
inductive Immediate (Γ : Aliases) : Ty → Prop
  | any : Immediate Γ .any
  | boolean : Immediate Γ .boolean
  | error : Immediate Γ .error
  | none : Immediate Γ .none
  | number : Immediate Γ .number
  | string : Immediate Γ .string
  | function (as r) : Immediate Γ (.function as r)
  | list (e) : Immediate Γ (.list e)
  | map (k v) : Immediate Γ (.map k v)
  | left {l r} : Immediate Γ l → Immediate Γ (.union l r)
  | right {l r} : Immediate Γ r → Immediate Γ (.union l r)
  | ref {x t} : Γ x = some t → Immediate Γ t → Immediate Γ (.reference x)

/-- `IsRecord Γ r t`: `t` is the record `r`, possibly through aliases. -/
inductive IsRecord (Γ : Aliases) (r : String) : Ty → Prop
  | here : IsRecord Γ r (.record r)
  | ref {x t} : Γ x = some t → IsRecord Γ r t → IsRecord Γ r (.reference x)

/-- A chain of record-typed fields from a type to the record `name`, avoiding the records `c`. -/
inductive Chain (Γ : Aliases) (Δ : Records) (name : String) (c : List String) : Ty → Prop
  | here : name ∉ c → Chain Γ Δ name c (.record name)
  | ref {x t} : Γ x = some t → Chain Γ Δ name c t → Chain Γ Δ name c (.reference x)
  | step {r fs f} : r ∉ c → r ≠ name → Δ r = some fs → f ∈ fs → Chain Γ Δ name c f.type →
      Chain Γ Δ name c (.record r)

theorem Chain.split {Γ : Aliases} {Δ : Records} {name : String} {c : List String} {t : Ty} {r : String}
    (hr : r ≠ name) (h : Chain Γ Δ name c t) : Chain Γ Δ name (r :: c) t ∨
      ∃ fs f, Δ r = some fs ∧ f ∈ fs ∧ Chain Γ Δ name (r :: c) f.type := by
  induction h with
  | here h => exact Or.inl (.here (by simp [Ne.symm hr, h]))
  | ref h _ ih => exact ih.imp (.ref h) id
  | @step r' fs f h1 h2 h3 h4 _ ih =>
    rcases ih with ih | ih
    · by_cases hn : r' = r
      · subst hn; exact Or.inr ⟨fs, f, h3, h4, ih⟩
      · exact Or.inl (.step (by simp [hn, h1]) h2 h3 h4 ih)
    · exact Or.inr ih

theorem isTypeRecursive_chain {Γ : Aliases} {Δ : Records} {name : String} : ∀ {n c t b},
    isTypeRecursive n Γ Δ name c t = .ok b → Chain Γ Δ name c t → b = true := by
  intro n
  induction n with
  | zero => intro c t b h; simp [isTypeRecursive] at h
  | succ n ih =>
    intro c t b h hc
    cases t with
    | reference x =>
      simp only [isTypeRecursive, Res.bind_eq_ok] at h
      obtain ⟨t, h1, h2⟩ := h
      have h1 := resolve_ok h1
      cases hc with
      | ref h3 h4 => rw [h1] at h3; cases h3; exact ih h2 h4
    | record r =>
      simp only [isTypeRecursive] at h
      split at h
      · rename_i hm
        cases hc with
        | here h' => exact absurd hm h'
        | step h' => exact absurd hm h'
      · split at h
        · cases h; rfl
        · rename_i hne
          simp only [Res.bind_eq_ok, Res.mapList_eq_ok] at h
          obtain ⟨fs, h1, bs, h2, h3⟩ := h
          have h1 := resolveRecord_ok h1
          have key : ∃ f ∈ fs, Chain Γ Δ name (r :: c) f.type := by
            rcases hc.split (r := r) (Ne.symm hne) with h | ⟨fs', f, h4, h5, h6⟩
            · cases h with
              | here h => exact absurd rfl hne
              | step h => simp at h
            · rw [h1] at h4; cases h4; exact ⟨f, h5, h6⟩
          obtain ⟨f, hf, hch⟩ := key
          obtain ⟨b', hb', hr⟩ := forall₂_mem_left h2 hf
          have := ih hr hch
          subst this
          simp only [Res.ok.injEq] at h3
          rw [← h3, List.any_eq_true]
          exact ⟨true, hb', rfl⟩
    | _ => cases hc

theorem Immediate.hasValue {Γ : Aliases} {Δ : Records} {t : Ty} (h : Immediate Γ t) :
    HasValue Γ Δ t := by
  induction h with
  | left _ ih => exact .left ih
  | right _ ih => exact .right ih
  | ref h _ ih => exact .ref h ih
  | _ => constructor

theorem IsRecord.hasValue {Γ : Aliases} {Δ : Records} {r : String} {t : Ty} (h : IsRecord Γ r t)
    (hv : HasValue Γ Δ (.record r)) : HasValue Γ Δ t := by
  induction h with
  | here => exact hv
  | ref h _ ih => exact .ref h ih

theorem IsRecord.chain {Γ : Aliases} {Δ : Records} {r name : String} {t : Ty} (h : IsRecord Γ r t)
    (hc : Chain Γ Δ name [] (.record r)) : Chain Γ Δ name [] t := by
  induction h with
  | here => exact hc
  | ref h _ ih => exact .ref h ih

/-- If every field is immediate or a single record, and no record is reported, all records have values. -/
theorem hasValue_of_guarded {Γ : Aliases} {Δ : Records} {names : List String}
    (known : ∀ r fs, Δ r = some fs → r ∈ names)
    (guarded : ∀ r fs, Δ r = some fs → ∀ f ∈ fs,
      Immediate Γ f.type ∨ ∃ r', (Δ r').isSome ∧ IsRecord Γ r' f.type)
    (accepted : ∀ r fs, Δ r = some fs → ∃ n, isImpossible n Γ Δ r fs = .ok false) :
    ∀ r, (Δ r).isSome → HasValue Γ Δ (.record r) := by
  classical
  intro r hr
  by_contra hno
  obtain ⟨fs0, hfs0⟩ := Option.isSome_iff_exists.mp hr
  -- the defined records without values
  let S := names.filter fun x => decide ((Δ x).isSome ∧ ¬ HasValue Γ Δ (.record x))
  have hS : ∀ x, x ∈ S ↔ (Δ x).isSome ∧ ¬ HasValue Γ Δ (.record x) := by
    intro x
    constructor
    · intro h; simpa using (List.mem_filter.mp h).2
    · intro h
      obtain ⟨fs, hfs⟩ := Option.isSome_iff_exists.mp h.1
      exact List.mem_filter.mpr ⟨known x fs hfs, by simpa using h⟩
  let R := fun b a : String => ∃ fs f, Δ a = some fs ∧ f ∈ fs ∧ IsRecord Γ b f.type
  have hsucc : ∀ v ∈ S, ∃ u ∈ S, R u v := by
    intro v hv
    obtain ⟨hd, hnv⟩ := (hS v).mp hv
    obtain ⟨fs, hfs⟩ := Option.isSome_iff_exists.mp hd
    have : ∃ f ∈ fs, ¬ HasValue Γ Δ f.type := by
      by_contra h
      push Not at h
      exact hnv (.record hfs h)
    obtain ⟨f, hf, hnf⟩ := this
    rcases guarded v fs hfs f hf with hi | ⟨r', hd', hr'⟩
    · exact absurd hi.hasValue hnf
    · exact ⟨r', (hS r').mpr ⟨hd', fun hv => hnf (hr'.hasValue hv)⟩, fs, f, hfs, hf, hr'⟩
  have hne : S ≠ [] := by
    intro h
    have := (hS r).mpr ⟨hr, hno⟩
    rw [h] at this; simp at this
  obtain ⟨v, hv, hcyc⟩ := exists_cycle hne hsucc
  -- a chain from a field of `v` back to `v`
  have chain : ∀ u w, Relation.TransGen R u w → ∃ fs f, Δ w = some fs ∧ f ∈ fs ∧
      Chain Γ Δ u [] f.type := by
    intro u w h
    induction h with
    | single h =>
      obtain ⟨fs, f, h1, h2, h3⟩ := h
      exact ⟨fs, f, h1, h2, h3.chain (.here (by simp))⟩
    | @tail b w _ h ih =>
      obtain ⟨fs, f, h1, h2, h3⟩ := h
      obtain ⟨fs', f', h4, h5, h6⟩ := ih
      by_cases hb : b = u
      · subst hb; exact ⟨fs, f, h1, h2, h3.chain (.here (by simp))⟩
      · exact ⟨fs, f, h1, h2, h3.chain (.step (by simp) hb h4 h5 h6)⟩
  obtain ⟨fs, f, h1, h2, h3⟩ := chain v v hcyc
  obtain ⟨n, hn⟩ := accepted v fs h1
  simp only [isImpossible, Res.bind_eq_ok, Res.mapList_eq_ok] at hn
  obtain ⟨bs, h4, h5⟩ := hn
  obtain ⟨b, hb, h6⟩ := forall₂_mem_left h4 h2
  have := isTypeRecursive_chain h6 h3
  subst this
  simp only [Res.ok.injEq, List.any_eq_false, id] at h5
  exact h5 true hb rfl

end Verif.Hir
