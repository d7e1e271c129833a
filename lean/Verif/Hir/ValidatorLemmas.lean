import Verif.Hir.Validators
import Verif.Hir.AssignLemmas

/-! # Lemmas about the validators of type definitions -/

namespace Verif.Hir

open Res

/-! ## Specifications -/

/-- `Reaches Γ Δ t u`: `u` occurs in the structure of `t`, looking through aliases and into the fields of
records, but not into functions. -/
inductive Reaches (Γ : Aliases) (Δ : Records) : Ty → Ty → Prop
  | refl (t) : Reaches Γ Δ t t
  | list {e u} : Reaches Γ Δ e u → Reaches Γ Δ (.list e) u
  | key {k v u} : Reaches Γ Δ k u → Reaches Γ Δ (.map k v) u
  | value {k v u} : Reaches Γ Δ v u → Reaches Γ Δ (.map k v) u
  | left {l r u} : Reaches Γ Δ l u → Reaches Γ Δ (.union l r) u
  | right {l r u} : Reaches Γ Δ r u → Reaches Γ Δ (.union l r) u
  | ref {x t u} : Γ x = some t → Reaches Γ Δ t u → Reaches Γ Δ (.reference x) u
  | field {n fs f u} : Δ n = some fs → f ∈ fs → Reaches Γ Δ f.type u → Reaches Γ Δ (.record n) u

/-- Types whose values cannot be compared. -/
def Incomparable : Ty → Prop
  | .any | .error | .function _ _ => True
  | _ => False

/-- `HasValue Γ Δ t`: a finite value of type `t` exists. Functions, lists and maps always have one (the
empty list and map, and a function that is never called). -/
inductive HasValue (Γ : Aliases) (Δ : Records) : Ty → Prop
  | any : HasValue Γ Δ .any
  | boolean : HasValue Γ Δ .boolean
  | error : HasValue Γ Δ .error
  | none : HasValue Γ Δ .none
  | number : HasValue Γ Δ .number
  | string : HasValue Γ Δ .string
  | function (as r) : HasValue Γ Δ (.function as r)
  | list (e) : HasValue Γ Δ (.list e)
  | map (k v) : HasValue Γ Δ (.map k v)
  | left {l r} : HasValue Γ Δ l → HasValue Γ Δ (.union l r)
  | right {l r} : HasValue Γ Δ r → HasValue Γ Δ (.union l r)
  | ref {x t} : Γ x = some t → HasValue Γ Δ t → HasValue Γ Δ (.reference x)
  | record {n fs} : Δ n = some fs → (∀ f ∈ fs, HasValue Γ Δ f.type) → HasValue Γ Δ (.record n)

/-! ## Aliases -/

theorem collectReferencesList_eq (as : List Ty) :
    collectReferencesList as = as.flatMap collectReferences := by
  induction as with
  | nil => rfl
  | cons a as ih => simp [collectReferencesList, ih]

/-- A type expands as soon as all its references do. -/
theorem expands_of_references {Γ : Aliases} (t : Ty)
    (h : ∀ x ∈ collectReferences t, ∃ e, Expands Γ (.reference x) e) : ∃ e, Expands Γ t e := by
  induction t using Ty.ind with
  | any => exact ⟨_, .any⟩
  | boolean => exact ⟨_, .boolean⟩
  | error => exact ⟨_, .error⟩
  | none => exact ⟨_, .none⟩
  | number => exact ⟨_, .number⟩
  | string => exact ⟨_, .string⟩
  | record n => exact ⟨_, .record n⟩
  | reference n => exact h n (by simp [collectReferences])
  | list e ih =>
    obtain ⟨e', h1⟩ := ih (by simpa [collectReferences] using h)
    exact ⟨_, .list h1⟩
  | map k v ih1 ih2 =>
    obtain ⟨k', h1⟩ := ih1 fun x hx => h x (by simp [collectReferences, hx])
    obtain ⟨v', h2⟩ := ih2 fun x hx => h x (by simp [collectReferences, hx])
    exact ⟨_, .map h1 h2⟩
  | union k v ih1 ih2 =>
    obtain ⟨k', h1⟩ := ih1 fun x hx => h x (by simp [collectReferences, hx])
    obtain ⟨v', h2⟩ := ih2 fun x hx => h x (by simp [collectReferences, hx])
    exact ⟨_, .union h1 h2⟩
  | function as r iha ihr =>
    obtain ⟨s, h1⟩ := ihr fun x hx => h x (by simp [collectReferences, hx])
    have : ∀ a ∈ as, ∃ b, Expands Γ a b := by
      intro a ha
      refine iha a ha fun x hx => h x ?_
      simp only [collectReferences, collectReferencesList_eq, List.mem_append, List.mem_flatMap]
      exact Or.inl ⟨a, ha, hx⟩
    have : ∃ bs, List.Forall₂ (Expands Γ) as bs := by
      clear iha ihr h
      induction as with
      | nil => exact ⟨[], .nil⟩
      | cons a as ih =>
        obtain ⟨b, hb⟩ := this a (by simp)
        obtain ⟨bs, hbs⟩ := ih fun a ha => this a (by simp [ha])
        exact ⟨b :: bs, .cons hb hbs⟩
    obtain ⟨bs, h2⟩ := this
    rw [List.forall₂_iff_zip] at h2
    exact ⟨_, .function h2.1 (fun p hp => h2.2 hp) h1⟩

theorem lastLookup_some {β : Type} {xs : List (String × β)} {n : String} {b : β}
    (h : lastLookup xs n = some b) : (n, b) ∈ xs := by
  unfold lastLookup at h
  obtain ⟨p, h1, h2⟩ := Option.map_eq_some_iff.mp h
  have h3 := List.mem_of_find?_eq_some h1
  have h4 := List.find?_some h1
  simp only [beq_iff_eq] at h4
  subst h4; subst h2
  simpa using h3

theorem lastLookup_isSome {β : Type} {xs : List (String × β)} {n : String}
    (h : n ∈ xs.map (·.1)) : ∃ b, lastLookup xs n = some b := by
  unfold lastLookup
  obtain ⟨p, h1, h2⟩ := List.mem_map.mp h
  cases hf : xs.reverse.find? (fun p => p.1 == n) with
  | some q => exact ⟨q.2, rfl⟩
  | none =>
    rw [List.find?_eq_none] at hf
    have := hf p (by simpa using h1)
    simp [h2] at this

theorem references_expand {m : TypeModule} (h1 : validateAliases m = true)
    (h2 : aliasReferencesExist m = true) (x : String) (hx : referenceExists m x = true) :
    ∃ e, Expands (collectAliases m) (.reference x) e := by
  unfold validateAliases at h1
  obtain ⟨order, ho⟩ := Option.isSome_iff_exists.mp h1
  obtain ⟨hp, hs, hl⟩ := toposort_some ho
  have hmem : ∀ v, v ∈ order ↔ v ∈ m.aliases.map (·.1) := fun v => by
    rw [hp.mem_iff, List.mem_dedup]
  -- references to records that are not shadowed by aliases
  have lookup : ∀ x, referenceExists m x = true → ∃ t, collectAliases m x = some t ∧
      (t = .record x ∨ (x, t) ∈ m.aliases) := by
    intro x hx
    have : ∃ t, collectAliases m x = some t := by
      apply lastLookup_isSome
      simp only [referenceExists, Bool.or_eq_true, List.contains_eq_mem, decide_eq_true_eq] at hx
      simpa [Function.comp_def] using hx
    obtain ⟨t, ht⟩ := this
    refine ⟨t, ht, ?_⟩
    have := lastLookup_some ht
    rcases List.mem_append.mp this with h | h
    · left
      obtain ⟨d, _, hd⟩ := List.mem_map.mp h
      cases hd; rfl
    · exact Or.inr h
  have step : ∀ v, referenceExists m v = true →
      (∀ w, (v, w) ∈ aliasEdges m → ∃ e, Expands (collectAliases m) (.reference w) e) →
      ∃ e, Expands (collectAliases m) (.reference v) e := by
    intro v hv H
    obtain ⟨t, ht, h3⟩ := lookup v hv
    rcases h3 with rfl | h3
    · exact ⟨_, .reference ht (.record v)⟩
    · have : ∃ e, Expands (collectAliases m) t e := by
        refine expands_of_references t fun y hy => ?_
        have hye : referenceExists m y = true := by
          unfold aliasReferencesExist at h2
          rw [List.all_eq_true] at h2
          have := h2 _ h3
          rw [List.all_eq_true] at this
          exact this y hy
        by_cases hya : y ∈ m.aliases.map (·.1)
        · apply H
          unfold aliasEdges
          rw [List.mem_flatMap]
          refine ⟨(v, t), h3, ?_⟩
          rw [List.mem_map]
          exact ⟨y, List.mem_filter.mpr ⟨hy, by simpa using hya⟩, rfl⟩
        · obtain ⟨u, hu, h4⟩ := lookup y hye
          rcases h4 with rfl | h4
          · exact ⟨_, .reference hu (.record y)⟩
          · exact absurd (List.mem_map.mpr ⟨_, h4, rfl⟩) hya
      obtain ⟨e, he⟩ := this
      exact ⟨e, .reference ht he⟩
  have all := topological_induction
    (P := fun v => ∃ e, Expands (collectAliases m) (.reference v) e) order hs
    (fun v hv => hl v (hp.mem_iff.mp hv)) (by
      intro v hv H
      refine step v ?_ fun w hw => H w hw ?_
      · have := (hmem v).mp hv
        simp [referenceExists]
        right
        simpa using this
      · rw [hmem]
        unfold aliasEdges at hw
        obtain ⟨a, _, h5⟩ := List.mem_flatMap.mp hw
        obtain ⟨n, h6, h7⟩ := List.mem_map.mp h5
        cases h7
        simpa using (List.mem_filter.mp h6).2)
  by_cases hxa : x ∈ m.aliases.map (·.1)
  · exact all x ((hmem x).mpr hxa)
  · obtain ⟨u, hu, h4⟩ := lookup x hx
    rcases h4 with rfl | h4
    · exact ⟨_, .reference hu (.record x)⟩
    · exact absurd (List.mem_map.mpr ⟨_, h4, rfl⟩) hxa

/-! ## Comparability -/

/-- Reachability avoiding the fields of the records in `c`. -/
inductive ReachesAvoiding (Γ : Aliases) (Δ : Records) (c : List String) : Ty → Ty → Prop
  | refl (t) : ReachesAvoiding Γ Δ c t t
  | list {e u} : ReachesAvoiding Γ Δ c e u → ReachesAvoiding Γ Δ c (.list e) u
  | key {k v u} : ReachesAvoiding Γ Δ c k u → ReachesAvoiding Γ Δ c (.map k v) u
  | value {k v u} : ReachesAvoiding Γ Δ c v u → ReachesAvoiding Γ Δ c (.map k v) u
  | left {l r u} : ReachesAvoiding Γ Δ c l u → ReachesAvoiding Γ Δ c (.union l r) u
  | right {l r u} : ReachesAvoiding Γ Δ c r u → ReachesAvoiding Γ Δ c (.union l r) u
  | ref {x t u} : Γ x = some t → ReachesAvoiding Γ Δ c t u → ReachesAvoiding Γ Δ c (.reference x) u
  | field {n fs f u} : n ∉ c → Δ n = some fs → f ∈ fs → ReachesAvoiding Γ Δ c f.type u →
      ReachesAvoiding Γ Δ c (.record n) u

theorem reachesAvoiding_nil {Γ : Aliases} {Δ : Records} {t u : Ty} :
    ReachesAvoiding Γ Δ [] t u ↔ Reaches Γ Δ t u := by
  constructor
  · intro h
    induction h with
    | refl => exact .refl _
    | list _ ih => exact .list ih
    | key _ ih => exact .key ih
    | value _ ih => exact .value ih
    | left _ ih => exact .left ih
    | right _ ih => exact .right ih
    | ref h _ ih => exact .ref h ih
    | field _ h1 h2 _ ih => exact .field h1 h2 ih
  · intro h
    induction h with
    | refl => exact .refl _
    | list _ ih => exact .list ih
    | key _ ih => exact .key ih
    | value _ ih => exact .value ih
    | left _ ih => exact .left ih
    | right _ ih => exact .right ih
    | ref h _ ih => exact .ref h ih
    | field h1 h2 _ ih => exact .field (by simp) h1 h2 ih

/-- The last visit of a record on a path. -/
theorem ReachesAvoiding.split {Γ : Aliases} {Δ : Records} {c : List String} {t u : Ty} (r : String)
    (h : ReachesAvoiding Γ Δ c t u) : ReachesAvoiding Γ Δ (r :: c) t u ∨
      ∃ fs f, Δ r = some fs ∧ f ∈ fs ∧ ReachesAvoiding Γ Δ (r :: c) f.type u := by
  induction h with
  | refl => exact Or.inl (.refl _)
  | list _ ih => exact ih.imp .list id
  | key _ ih => exact ih.imp .key id
  | value _ ih => exact ih.imp .value id
  | left _ ih => exact ih.imp .left id
  | right _ ih => exact ih.imp .right id
  | ref h _ ih => exact ih.imp (.ref h) id
  | @field n fs f u h1 h2 h3 _ ih =>
    rcases ih with ih | ih
    · by_cases hn : n = r
      · subst hn; exact Or.inr ⟨fs, f, h2, h3, ih⟩
      · exact Or.inl (.field (by simp [hn, h1]) h2 h3 ih)
    · exact Or.inr ih

theorem ReachesAvoiding.weaken {Γ : Aliases} {Δ : Records} {c : List String} {r : String} {t u : Ty}
    (h : ReachesAvoiding Γ Δ (r :: c) t u) : ReachesAvoiding Γ Δ c t u := by
  induction h with
  | refl => exact .refl _
  | list _ ih => exact .list ih
  | key _ ih => exact .key ih
  | value _ ih => exact .value ih
  | left _ ih => exact .left ih
  | right _ ih => exact .right ih
  | ref h _ ih => exact .ref h ih
  | field h0 h1 h2 _ ih => exact .field (by simp at h0; exact h0.2) h1 h2 ih

theorem resolve_ok {Γ : Aliases} {x : String} {t : Ty} (h : resolve Γ x = .ok t) : Γ x = some t := by
  unfold resolve at h
  split at h
  · rename_i h'; cases h; exact h'
  · cases h

theorem resolveRecord_ok {Δ : Records} {x : String} {t} (h : resolveRecord Δ x = .ok t) :
    Δ x = some t := by
  unfold resolveRecord at h
  split at h
  · rename_i h'; cases h; exact h'
  · cases h

theorem forall₂_mem_left {α β : Type} {R : α → β → Prop} {as : List α} {bs : List β}
    (h : List.Forall₂ R as bs) {a : α} (ha : a ∈ as) : ∃ b ∈ bs, R a b := by
  induction h with
  | nil => simp at ha
  | cons h1 _ ih =>
    rcases List.mem_cons.mp ha with rfl | ha
    · exact ⟨_, by simp, h1⟩
    · obtain ⟨b, hb, hr⟩ := ih ha; exact ⟨b, by simp [hb], hr⟩

theorem forall₂_mem_right {α β : Type} {R : α → β → Prop} {as : List α} {bs : List β}
    (h : List.Forall₂ R as bs) {b : β} (hb : b ∈ bs) : ∃ a ∈ as, R a b := by
  induction h with
  | nil => simp at hb
  | cons h1 _ ih =>
    rcases List.mem_cons.mp hb with rfl | hb
    · exact ⟨_, by simp, h1⟩
    · obtain ⟨a, ha, hr⟩ := ih hb; exact ⟨a, by simp [ha], hr⟩

theorem comparable_correct {Γ : Aliases} {Δ : Records} : ∀ {n c t b},
    comparableWithCache n Γ Δ c t = .ok b →
      (b = true ↔ ¬ ∃ u, ReachesAvoiding Γ Δ c t u ∧ Incomparable u) := by
  intro n
  induction n with
  | zero => intro c t b h; simp [comparableWithCache] at h
  | succ n ih =>
    intro c t b h
    have good : ∀ {t}, (∀ u, ReachesAvoiding Γ Δ c t u → u = t) → ¬ Incomparable t →
        ¬ ∃ u, ReachesAvoiding Γ Δ c t u ∧ Incomparable u := by
      rintro t h1 h2 ⟨u, hu, hi⟩
      rw [h1 u hu] at hi
      exact h2 hi
    have two : ∀ {l r t : Ty}, (∀ u, (ReachesAvoiding Γ Δ c t u ∧ Incomparable u) ↔
        ((ReachesAvoiding Γ Δ c l u ∧ Incomparable u) ∨ (ReachesAvoiding Γ Δ c r u ∧ Incomparable u))) →
        (do if ← comparableWithCache n Γ Δ c l then comparableWithCache n Γ Δ c r else .ok false :
          Res Err Bool) = .ok b →
        (b = true ↔ ¬ ∃ u, ReachesAvoiding Γ Δ c t u ∧ Incomparable u) := by
      intro l r t hu h
      simp only [Res.bind_eq_ok] at h
      obtain ⟨bl, h1, h2⟩ := h
      have ihl := ih h1
      cases bl with
      | false =>
        simp only [Bool.false_eq_true, if_false] at h2
        cases h2
        simp only [Bool.false_eq_true, false_iff, not_not] at ihl ⊢
        obtain ⟨u, h3⟩ := ihl
        exact ⟨u, (hu u).mpr (Or.inl h3)⟩
      | true =>
        simp only [if_true] at h2
        have ihr := ih h2
        rw [ihr]
        simp only [true_iff] at ihl
        constructor
        · rintro h ⟨u, h3⟩
          rcases (hu u).mp h3 with h3 | h3
          · exact ihl ⟨u, h3⟩
          · exact h ⟨u, h3⟩
        · rintro h ⟨u, h3⟩
          exact h ⟨u, (hu u).mpr (Or.inr h3)⟩
    cases t with
    | any => simp only [comparableWithCache] at h; cases h; simp; exact ⟨_, .refl _, trivial⟩
    | error => simp only [comparableWithCache] at h; cases h; simp; exact ⟨_, .refl _, trivial⟩
    | function as r => simp only [comparableWithCache] at h; cases h; simp; exact ⟨_, .refl _, trivial⟩
    | boolean =>
      simp only [comparableWithCache] at h; cases h
      simpa using good (t := .boolean) (fun u hu => by cases hu; rfl) (by simp [Incomparable])
    | none =>
      simp only [comparableWithCache] at h; cases h
      simpa using good (t := .none) (fun u hu => by cases hu; rfl) (by simp [Incomparable])
    | number =>
      simp only [comparableWithCache] at h; cases h
      simpa using good (t := .number) (fun u hu => by cases hu; rfl) (by simp [Incomparable])
    | string =>
      simp only [comparableWithCache] at h; cases h
      simpa using good (t := .string) (fun u hu => by cases hu; rfl) (by simp [Incomparable])
    | list e =>
      simp only [comparableWithCache] at h
      rw [ih h]
      refine not_congr ⟨?_, ?_⟩
      · rintro ⟨u, h1, h2⟩; exact ⟨u, .list h1, h2⟩
      · rintro ⟨u, h1, h2⟩
        cases h1 with
        | refl => exact absurd h2 (by simp [Incomparable])
        | list h1 => exact ⟨u, h1, h2⟩
    | map k v =>
      simp only [comparableWithCache] at h
      refine two (fun u => ⟨?_, ?_⟩) h
      · rintro ⟨h1, h2⟩
        cases h1 with
        | refl => exact absurd h2 (by simp [Incomparable])
        | key h1 => exact Or.inl ⟨h1, h2⟩
        | value h1 => exact Or.inr ⟨h1, h2⟩
      · rintro (⟨h1, h2⟩ | ⟨h1, h2⟩)
        · exact ⟨.key h1, h2⟩
        · exact ⟨.value h1, h2⟩
    | union k v =>
      simp only [comparableWithCache] at h
      refine two (fun u => ⟨?_, ?_⟩) h
      · rintro ⟨h1, h2⟩
        cases h1 with
        | refl => exact absurd h2 (by simp [Incomparable])
        | left h1 => exact Or.inl ⟨h1, h2⟩
        | right h1 => exact Or.inr ⟨h1, h2⟩
      · rintro (⟨h1, h2⟩ | ⟨h1, h2⟩)
        · exact ⟨.left h1, h2⟩
        · exact ⟨.right h1, h2⟩
    | reference x =>
      simp only [comparableWithCache, Res.bind_eq_ok] at h
      obtain ⟨t, h1, h2⟩ := h
      have h1 := resolve_ok h1
      rw [ih h2]
      refine not_congr ⟨?_, ?_⟩
      · rintro ⟨u, h3, h4⟩; exact ⟨u, .ref h1 h3, h4⟩
      · rintro ⟨u, h3, h4⟩
        cases h3 with
        | refl => exact absurd h4 (by simp [Incomparable])
        | ref h5 h3 => rw [h1] at h5; cases h5; exact ⟨u, h3, h4⟩
    | record r =>
      simp only [comparableWithCache] at h
      split at h
      · rename_i hc
        cases h
        simpa using good (t := .record r) (fun u hu => by
          cases hu with
          | refl => rfl
          | field h => exact absurd hc h) (by simp [Incomparable])
      · rename_i hc
        simp only [Res.bind_eq_ok, Res.mapList_eq_ok] at h
        obtain ⟨fs, h1, bs, h2, h3⟩ := h
        have h1 := resolveRecord_ok h1
        cases h3
        rw [List.all_eq_true]
        constructor
        · rintro hall ⟨u, hu, hi⟩
          have key : ∃ f ∈ fs, ReachesAvoiding Γ Δ (r :: c) f.type u := by
            rcases hu.split r with h | ⟨fs', f, h4, h5, h6⟩
            · cases h with
              | refl => exact absurd hi (by simp [Incomparable])
              | field h _ _ _ => simp at h
            · rw [h1] at h4; cases h4; exact ⟨f, h5, h6⟩
          obtain ⟨f, hf, hr⟩ := key
          obtain ⟨b, hb, hr'⟩ := forall₂_mem_left h2 hf
          exact (ih hr').mp (by simpa using hall b hb) ⟨u, hr, hi⟩
        · intro hno b hb
          obtain ⟨f, hf, hr⟩ := forall₂_mem_right h2 hb
          refine (ih hr).mpr ?_
          rintro ⟨u, hu, hi⟩
          exact hno ⟨u, .field hc h1 hf hu.weaken, hi⟩

/-- Every alias and every record the type reaches is defined, and aliases are not recursive. -/
structure Resolvable (Γ : Aliases) (Δ : Records) (names : List String) (t : Ty) : Prop where
  expands : ∃ e, Expands Γ t e
  known : ∀ n fs, Δ n = some fs → n ∈ names
  defined : ∀ n, Reaches Γ Δ t (.record n) → (Δ n).isSome
  fields : ∀ n fs, Δ n = some fs → ∀ f ∈ fs, ∃ e, Expands Γ f.type e

theorem mapList_settles {α β : Type} {g : Nat → α → Res Err β} : ∀ (as : List α),
    (∀ a ∈ as, ∃ b, Settles (fun n => g n a) (.ok b)) →
    ∃ bs, Settles (fun n => Res.mapList (g n) as) (.ok bs)
  | [], _ => ⟨[], Settles.const _⟩
  | a :: as, h => by
    obtain ⟨b, hb⟩ := h a (by simp)
    obtain ⟨bs, hbs⟩ := mapList_settles as fun a ha => h a (by simp [ha])
    exact ⟨b :: bs, Settles.bind hb (Settles.bind hbs (Settles.const _))⟩

theorem settles_succ {α : Type} {f : Nat → Res Err α} {x : Res Err α}
    (h : Settles (fun n => f (n + 1)) x) : Settles f x := by
  obtain ⟨N, h⟩ := h
  refine ⟨N + 1, fun n hn => ?_⟩
  obtain ⟨m, rfl⟩ : ∃ m, n = m + 1 := ⟨n - 1, by omega⟩
  exact h m (by omega)

theorem comparable_settles {Γ : Aliases} {Δ : Records} {names : List String}
    (known : ∀ n fs, Δ n = some fs → n ∈ names)
    (fields : ∀ n fs, Δ n = some fs → ∀ f ∈ fs, ∃ e, Expands Γ f.type e) :
    ∀ k c t e, (names.filter (· ∉ c)).length ≤ k → Expands Γ t e →
      (∀ n, ReachesAvoiding Γ Δ c t (.record n) → (Δ n).isSome) →
      ∃ b, Settles (fun n => comparableWithCache n Γ Δ c t) (.ok b) := by
  intro k
  induction k using Nat.strong_induction_on with
  | _ k ihk =>
    intro c t e hk he hd
    induction he with
    | any => exact ⟨false, settles_succ ((Settles.const _).congr fun n => by simp [comparableWithCache])⟩
    | boolean => exact ⟨true, settles_succ ((Settles.const _).congr fun n => by simp [comparableWithCache])⟩
    | error => exact ⟨false, settles_succ ((Settles.const _).congr fun n => by simp [comparableWithCache])⟩
    | none => exact ⟨true, settles_succ ((Settles.const _).congr fun n => by simp [comparableWithCache])⟩
    | number => exact ⟨true, settles_succ ((Settles.const _).congr fun n => by simp [comparableWithCache])⟩
    | string => exact ⟨true, settles_succ ((Settles.const _).congr fun n => by simp [comparableWithCache])⟩
    | function => exact ⟨false, settles_succ ((Settles.const _).congr fun n => by simp [comparableWithCache])⟩
    | record r =>
      by_cases hc : r ∈ c
      · exact ⟨true, settles_succ ((Settles.const _).congr fun n => by simp [comparableWithCache, hc])⟩
      · obtain ⟨fs, hfs⟩ := Option.isSome_iff_exists.mp (hd r (.refl _))
        obtain ⟨bs, hbs⟩ := mapList_settles (g := fun n (f : RecordField) =>
            comparableWithCache n Γ Δ (r :: c) f.type) fs (by
          intro f hf
          obtain ⟨e, he⟩ := fields r fs hfs f hf
          refine ihk (names.filter (· ∉ r :: c)).length ?_ (r :: c) f.type e (Nat.le_refl _) he
            fun n hn => hd n (.field hc hfs hf hn.weaken)
          have hlt : (names.filter (· ∉ r :: c)).length < (names.filter (· ∉ c)).length := by
            have : names.filter (· ∉ r :: c) = (names.filter (· ∉ c)).filter (· ≠ r) := by
              rw [List.filter_filter]
              congr 1
              funext x
              simp
            rw [this]
            refine List.length_filter_lt_length_iff_exists.mpr ⟨r, ?_, by simp⟩
            exact List.mem_filter.mpr ⟨known r fs hfs, by simpa using hc⟩
          omega)
        refine ⟨bs.all id, settles_succ ((Settles.bind (g := fun _ bs => Res.ok (bs.all id)) hbs
          (Settles.const _)).congr fun n => ?_)⟩
        simp [comparableWithCache, hc, resolveRecord, hfs]
    | list _ ih =>
      obtain ⟨b, hb⟩ := ih fun n hn => hd n (.list hn)
      exact ⟨b, settles_succ (hb.congr fun n => by simp [comparableWithCache])⟩
    | map _ _ ih1 ih2 =>
      obtain ⟨b1, hb1⟩ := ih1 fun n hn => hd n (.key hn)
      obtain ⟨b2, hb2⟩ := ih2 fun n hn => hd n (.value hn)
      cases b1 with
      | false => exact ⟨false, settles_succ (Settles.congr (Settles.bind hb1 (Settles.const _)
          (g := fun n b => if b = true then comparableWithCache n Γ Δ c _ else .ok false))
          fun n => by rw [comparableWithCache])⟩
      | true => exact ⟨b2, settles_succ (Settles.congr (Settles.bind hb1 hb2
          (g := fun n b => if b = true then comparableWithCache n Γ Δ c _ else .ok false))
          fun n => by rw [comparableWithCache])⟩
    | union _ _ ih1 ih2 =>
      obtain ⟨b1, hb1⟩ := ih1 fun n hn => hd n (.left hn)
      obtain ⟨b2, hb2⟩ := ih2 fun n hn => hd n (.right hn)
      cases b1 with
      | false => exact ⟨false, settles_succ (Settles.congr (Settles.bind hb1 (Settles.const _)
          (g := fun n b => if b = true then comparableWithCache n Γ Δ c _ else .ok false))
          fun n => by rw [comparableWithCache])⟩
      | true => exact ⟨b2, settles_succ (Settles.congr (Settles.bind hb1 hb2
          (g := fun n b => if b = true then comparableWithCache n Γ Δ c _ else .ok false))
          fun n => by rw [comparableWithCache])⟩
    | @reference x t u hx _ ih =>
      obtain ⟨b, hb⟩ := ih fun n hn => hd n (.ref hx hn)
      exact ⟨b, settles_succ (hb.congr fun n => by simp [comparableWithCache, resolve, hx])⟩

/-! ## Impossible records -/

/-- Existence of a value of bounded height. -/
inductive HasValueAt (Γ : Aliases) (Δ : Records) : Nat → Ty → Prop
  | any (k) : HasValueAt Γ Δ k .any
  | boolean (k) : HasValueAt Γ Δ k .boolean
  | error (k) : HasValueAt Γ Δ k .error
  | none (k) : HasValueAt Γ Δ k .none
  | number (k) : HasValueAt Γ Δ k .number
  | string (k) : HasValueAt Γ Δ k .string
  | function (k as r) : HasValueAt Γ Δ k (.function as r)
  | list (k e) : HasValueAt Γ Δ k (.list e)
  | map (k a v) : HasValueAt Γ Δ k (.map a v)
  | left {k l r} : HasValueAt Γ Δ k l → HasValueAt Γ Δ k (.union l r)
  | right {k l r} : HasValueAt Γ Δ k r → HasValueAt Γ Δ k (.union l r)
  | ref {k x t} : Γ x = some t → HasValueAt Γ Δ k t → HasValueAt Γ Δ k (.reference x)
  | record {k n fs} : Δ n = some fs → (∀ f ∈ fs, HasValueAt Γ Δ k f.type) →
      HasValueAt Γ Δ (k + 1) (.record n)

theorem HasValueAt.mono {Γ : Aliases} {Δ : Records} {k : Nat} {t : Ty} (h : HasValueAt Γ Δ k t) :
    ∀ {k'}, k ≤ k' → HasValueAt Γ Δ k' t := by
  induction h with
  | left _ ih => intro k' h; exact .left (ih h)
  | right _ ih => intro k' h; exact .right (ih h)
  | ref h _ ih => intro k' h'; exact .ref h (ih h')
  | record h _ ih =>
    intro k' h'
    obtain ⟨j, rfl⟩ : ∃ j, k' = j + 1 := ⟨k' - 1, by omega⟩
    exact .record h fun f hf => ih f hf (by omega)
  | _ => intro k' _; constructor

theorem hasValue_iff {Γ : Aliases} {Δ : Records} {t : Ty} :
    HasValue Γ Δ t ↔ ∃ k, HasValueAt Γ Δ k t := by
  constructor
  · intro h
    induction h with
    | left _ ih => obtain ⟨k, h⟩ := ih; exact ⟨k, .left h⟩
    | right _ ih => obtain ⟨k, h⟩ := ih; exact ⟨k, .right h⟩
    | ref h _ ih => obtain ⟨k, h'⟩ := ih; exact ⟨k, .ref h h'⟩
    | @record n fs h _ ih =>
      have : ∃ k, ∀ f ∈ fs, HasValueAt Γ Δ k f.type := by
        clear h
        obtain ⟨N, hN⟩ := exists_bound (P := fun (f : RecordField) k => HasValueAt Γ Δ k f.type) fs
          fun f hf => by
            obtain ⟨k, hk⟩ := ih f hf
            exact ⟨k, fun n hn => hk.mono hn⟩
        exact ⟨N, hN N (Nat.le_refl _)⟩
      obtain ⟨k, hk⟩ := this
      exact ⟨k + 1, .record h hk⟩
    | _ => exact ⟨0, by constructor⟩
  · rintro ⟨k, h⟩
    induction h with
    | left _ ih => exact .left ih
    | right _ ih => exact .right ih
    | ref h _ ih => exact .ref h ih
    | record h _ ih => exact .record h ih
    | _ => constructor

/-- If the analysis says that every value of `t` contains a value of record `name`, it does. -/
theorem isTypeRecursive_sound {Γ : Aliases} {Δ : Records} {name : String} : ∀ {n c t k},
    isTypeRecursive n Γ Δ name c t = .ok true → HasValueAt Γ Δ k t →
      HasValueAt Γ Δ k (.record name) := by
  intro n
  induction n with
  | zero => intro c t k h; simp [isTypeRecursive] at h
  | succ n ih =>
    intro c t k h hv
    cases t with
    | reference x =>
      simp only [isTypeRecursive, Res.bind_eq_ok] at h
      obtain ⟨t, h1, h2⟩ := h
      have h1 := resolve_ok h1
      cases hv with
      | ref h3 h4 => rw [h1] at h3; cases h3; exact ih h2 h4
    | union l r =>
      simp only [isTypeRecursive, Res.bind_eq_ok] at h
      obtain ⟨a, h1, b, h2, h3⟩ := h
      simp only [Res.ok.injEq, Bool.and_eq_true] at h3
      obtain ⟨rfl, rfl⟩ := h3
      cases hv with
      | left h => exact ih h1 h
      | right h => exact ih h2 h
    | record r =>
      simp only [isTypeRecursive] at h
      split at h
      · cases h
      · split at h
        · rename_i hr; rw [hr]; exact hv
        · simp only [Res.bind_eq_ok, Res.mapList_eq_ok] at h
          obtain ⟨fs, h1, bs, h2, h3⟩ := h
          have h1 := resolveRecord_ok h1
          simp only [Res.ok.injEq, List.any_eq_true, id] at h3
          obtain ⟨b, hb, rfl⟩ := h3
          obtain ⟨f, hf, hr⟩ := forall₂_mem_right h2 hb
          cases hv with
          | record h4 h5 =>
            rw [h1] at h4; cases h4
            exact (ih hr (h5 f hf)).mono (Nat.le_succ _)
    | _ => simp [isTypeRecursive] at h

end Verif.Hir
