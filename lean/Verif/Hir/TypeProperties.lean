import Verif.Hir.DifferenceLemmas
import Verif.Hir.ImpossibleLemmas

/-!
# Properties C01-C09: the type algebra

`Expands`, `TyEq`, `Assignable`, `Member`, `NoReference`, `Inside` are specified in
`Verif.Hir.TypeSpec`; `Reaches`, `Incomparable`, `HasValue` in `Verif.Hir.ValidatorLemmas`.
`Settles f x` says that the source call terminates with `x`.
-/

namespace Verif.Hir

open Res

/-! ### A concrete table used by the examples -/

/-- `type x = number | none`, `type y = [x | string]`, and two records. -/
def exampleModule : TypeModule where
  records := [("r", [⟨"a", .number⟩, ⟨"b", .union (.reference "r") .none⟩]), ("s", [⟨"f", .function [] .none⟩])]
  aliases := [("x", .union .number .none), ("y", .list (.union (.reference "x") .string))]

abbrev exampleAliases : Aliases := collectAliases exampleModule
abbrev exampleRecords : Records := collectRecords exampleModule

/-! ### C01 -/

/-- Canonicalising a canonical type changes nothing. -/
theorem c01_idempotent {Γ : Aliases} {n : Nat} {t c : Ty} (h : canonicalize n Γ t = .ok c) :
    Settles (fun m => canonicalize m Γ c) (.ok c) := by
  obtain ⟨e, h1, rfl⟩ := canonicalize_sound h
  exact canonicalize_canonical h1

/-- The canonical form contains no alias. -/
theorem c01_no_alias {Γ : Aliases} {n : Nat} {t c : Ty} (h : canonicalize n Γ t = .ok c) :
    NoReference c := by
  obtain ⟨e, h1, rfl⟩ := canonicalize_sound h
  exact (noReference_norm h1.noReference).1

/-- A union that holds every member once and does not mix `any` with other members. -/
def GoodUnion (u : Ty) : Prop :=
  (∃ l r, u = .union l r) → (unionMembers u).Nodup ∧ Ty.any ∉ unionMembers u

theorem inside_foldl {u : Ty} : ∀ {as : List Ty} {a : Ty}, Inside u (as.foldl .union a) →
    (∃ x ∈ a :: as, Inside u x) ∨ ∃ b bs, (b :: bs) <+: (a :: as) ∧ u = bs.foldl .union b := by
  intro as
  induction as using List.reverseRecOn with
  | nil => intro a h; exact Or.inl ⟨a, by simp, h⟩
  | append_singleton as x ih =>
    intro a h
    rw [List.foldl_append] at h
    simp only [List.foldl_cons, List.foldl_nil] at h
    cases h with
    | refl => right; exact ⟨a, as ++ [x], List.prefix_refl _, by simp [List.foldl_append]⟩
    | left h =>
      rcases ih h with ⟨y, hy, hi⟩ | ⟨b, bs, hb, he⟩
      · left; refine ⟨y, ?_, hi⟩
        rcases List.mem_cons.mp hy with rfl | hy
        · simp
        · simp [hy]
      · right; exact ⟨b, bs, hb.trans ⟨[x], by simp⟩, he⟩
    | right h => left; exact ⟨x, by simp, h⟩

theorem inside_norm_good (t : Ty) : (∀ u, Inside u (norm t) → GoodUnion u) ∧
    ∀ x ∈ atoms t, ∀ u, Inside u x → GoodUnion u := by
  have leaf : ∀ {t}, NotUnion t → (∀ u, Inside u (norm t) → GoodUnion u) →
      (∀ u, Inside u (norm t) → GoodUnion u) ∧ ∀ x ∈ atoms t, ∀ u, Inside u x → GoodUnion u := by
    intro t h1 h2
    refine ⟨h2, ?_⟩
    rw [atoms_of_notUnion h1]
    simpa using h2
  have nu : ∀ {t : Ty}, NotUnion t → GoodUnion t := by
    rintro t h ⟨l, r, rfl⟩
    exact absurd rfl (h l r)
  induction t using Ty.ind with
  | union l r ihl ihr =>
    have hat : ∀ x ∈ atoms l ++ atoms r, ∀ u, Inside u x → GoodUnion u := by
      intro x hx
      rcases List.mem_append.mp hx with hx | hx
      · exact ihl.2 x hx
      · exact ihr.2 x hx
    refine ⟨?_, by rw [atoms_union]; exact hat⟩
    intro u hu
    rw [norm_union] at hu
    by_cases ha : Ty.any ∈ atoms l ++ atoms r
    · rw [joinAll_any ha] at hu
      cases hu
      exact nu (by intro _ _ h; cases h)
    · obtain ⟨a, as, h1, h2, _⟩ := joinAll_eq (by simp [atoms_ne_nil]) ha
      rw [h2] at hu
      have hmem : ∀ x, x ∈ a :: as ↔ x ∈ atoms l ++ atoms r := fun x => by
        rw [← h1, mem_btreeSet]
      rcases inside_foldl hu with ⟨x, hx, hi⟩ | ⟨b, bs, hp, rfl⟩
      · exact hat x ((hmem x).mp hx) u hi
      · intro _
        have hsub : ∀ x ∈ b :: bs, x ∈ atoms l ++ atoms r := fun x hx => (hmem x).mp (hp.subset hx)
        have hnu : ∀ x ∈ b :: bs, NotUnion x := fun x hx => by
          rcases List.mem_append.mp (hsub x hx) with h | h
          · exact atoms_notUnion l x h
          · exact atoms_notUnion r x h
        have : unionMembers (bs.foldl .union b) = b :: bs := by
          rw [unionMembers_foldl, unionMembers_of_notUnion (hnu b (by simp)),
            flatMap_unionMembers (fun x hx => hnu x (by simp [hx]))]
          rfl
        rw [this]
        refine ⟨?_, fun h => ha (hsub _ h)⟩
        have hs := sorted_btreeSet (atoms l ++ atoms r)
        rw [h1] at hs
        exact (hs.imp (fun h => ne_of_lt h)).sublist hp.sublist
  | function as r iha ihr =>
    refine leaf (by intro _ _ h; cases h) fun u hu => ?_
    rw [norm_function] at hu
    cases hu with
    | refl => exact nu (by intro _ _ h; cases h)
    | arg h1 h2 =>
      obtain ⟨b, hb, rfl⟩ := List.mem_map.mp h1
      exact (iha b hb).1 u h2
    | result h => exact ihr.1 u h
  | list e ih =>
    refine leaf (by intro _ _ h; cases h) fun u hu => ?_
    rw [norm_list] at hu
    cases hu with
    | refl => exact nu (by intro _ _ h; cases h)
    | list h => exact ih.1 u h
  | map k v ihk ihv =>
    refine leaf (by intro _ _ h; cases h) fun u hu => ?_
    rw [norm_map] at hu
    cases hu with
    | refl => exact nu (by intro _ _ h; cases h)
    | key h => exact ihk.1 u h
    | value h => exact ihv.1 u h
  | _ =>
    refine leaf (by intro _ _ h; cases h) fun u hu => ?_
    simp only [norm_any, norm_boolean, norm_error, norm_none, norm_number, norm_string, norm_record,
      norm_reference] at hu
    cases hu
    exact nu (by intro _ _ h; cases h)

/-- Every union anywhere inside a canonical form has pairwise distinct members, none of them `any`. -/
theorem c01_unions {Γ : Aliases} {n : Nat} {t c : Ty} (h : canonicalize n Γ t = .ok c) {l r : Ty}
    (hi : Inside (.union l r) c) :
    (unionMembers (.union l r)).Nodup ∧ Ty.any ∉ unionMembers (.union l r) := by
  obtain ⟨e, h1, rfl⟩ := canonicalize_sound h
  exact (inside_norm_good e).1 _ hi ⟨l, r, rfl⟩

/-- The canonical form denotes the same type as the (alias-expanded) original. -/
theorem c01_same_type {Γ : Aliases} {n : Nat} {t c : Ty} (h : canonicalize n Γ t = .ok c) :
    ∃ e, Expands Γ t e ∧ TyEq c e := by
  obtain ⟨e, h1, rfl⟩ := canonicalize_sound h
  exact ⟨e, h1, tyEq_norm e⟩

/-- An alias canonicalises like its definition. -/
theorem c01_alias {Γ : Aliases} {x : String} {t c : Ty} (hx : Γ x = some t) :
    Settles (fun n => canonicalize n Γ (.reference x)) (.ok c) ↔
      Settles (fun n => canonicalize n Γ t) (.ok c) := by
  have hs : ∀ n, canonicalize (n + 1) Γ (.reference x) = canonicalize n Γ t := by
    intro n; simp [canonicalize, resolve, hx]
  constructor
  · rintro ⟨N, h⟩
    exact ⟨N, fun n hn => (hs n).symm.trans (h (n + 1) (by omega))⟩
  · exact fun h => settles_succ (h.congr fun n => (hs n).symm)

example : canonicalize 20 exampleAliases (.union .string (.union (.reference "x") (.union .none .string)))
    = .ok (.union (.union .none .number) .string) := by decide

/-! ### C02 -/

/-- The equality check decides equality of the alias-expanded types. -/
theorem c02_equality {Γ : Aliases} {n : Nat} {t u : Ty} {b : Bool} (h : equalCheck n Γ t u = .ok b) :
    ∃ e f, Expands Γ t e ∧ Expands Γ u f ∧ (b = true ↔ TyEq e f) := by
  have hc := h
  simp only [equalCheck, Res.bind_eq_ok] at h
  obtain ⟨_, h1, _, h2, _⟩ := h
  obtain ⟨e, he, _⟩ := canonicalize_sound h1
  obtain ⟨f, hf, _⟩ := canonicalize_sound h2
  refine ⟨e, f, he, hf, ?_⟩
  have := (settles_of_eq (equalCheck_mono Γ t u) hc (by simp)).unique (equalCheck_settles he hf)
  simp only [Res.ok.injEq] at this
  rw [this, tyEq_iff_norm]
  simp

/-- The equality check terminates on all types whose aliases expand. -/
theorem c02_terminates {Γ : Aliases} {t u e f : Ty} (he : Expands Γ t e) (hf : Expands Γ u f) :
    ∃ b, Settles (fun n => equalCheck n Γ t u) (.ok b) := ⟨_, equalCheck_settles he hf⟩

/-- In particular: re-associated, permuted and duplicated unions are equal types, also behind aliases. -/
theorem c02_rearranged {Γ : Aliases} {t u e f : Ty} (he : Expands Γ t e) (hf : Expands Γ u f)
    (h : ∀ x, x ∈ unionMembers e ↔ x ∈ unionMembers f) :
    Settles (fun n => equalCheck n Γ t u) (.ok true) := by
  have hm : ∀ (t x : Ty), x ∈ atoms t ↔ ∃ y ∈ unionMembers t, x = norm y := by
    intro t
    induction t using Ty.ind with
    | union l r ihl ihr =>
      intro x
      simp only [atoms_union, List.mem_append, ihl, ihr, unionMembers]
      constructor
      · rintro (⟨y, h1, h2⟩ | ⟨y, h1, h2⟩)
        · exact ⟨y, Or.inl h1, h2⟩
        · exact ⟨y, Or.inr h1, h2⟩
      · rintro ⟨y, h1 | h1, h2⟩
        · exact Or.inl ⟨y, h1, h2⟩
        · exact Or.inr ⟨y, h1, h2⟩
    | _ => intro x; rw [atoms_of_notUnion (by intro _ _ h; cases h)]; simp [unionMembers]
  have : norm e = norm f := by
    rw [norm_eq_iff]
    right
    intro x
    simp only [hm, h]
  have hs := equalCheck_settles he hf
  rwa [this, decide_eq_true rfl] at hs

example : equalCheck 20 exampleAliases (.union (.reference "x") .string)
    (.union .none (.union .string (.union .number .none))) = .ok true := by decide
example : equalCheck 20 exampleAliases (.union (.reference "x") .string) (.reference "y") = .ok false := by
  decide

/-! ### C03 -/

theorem subsumeCheck_sound {Γ : Aliases} {n : Nat} {t u : Ty} {b : Bool}
    (h : subsumeCheck n Γ t u = .ok b) :
    ∃ e f, Expands Γ t e ∧ Expands Γ u f ∧ (b = true ↔ SubAtoms e f) := by
  have hc := h
  simp only [subsumeCheck, Res.bind_eq_ok] at h
  obtain ⟨_, h1, _, h2, _⟩ := h
  obtain ⟨e, he, _⟩ := canonicalize_sound h1
  obtain ⟨f, hf, _⟩ := canonicalize_sound h2
  refine ⟨e, f, he, hf, ?_⟩
  have := (settles_of_eq (subsumeCheck_mono Γ t u) hc (by simp)).unique (subsumeCheck_settles he hf)
  simp only [Res.ok.injEq] at this
  rw [this]
  simp

/-- The subsumption check decides assignability. -/
theorem c03_assignable {Γ : Aliases} {n : Nat} {t u : Ty} {b : Bool} (h : subsumeCheck n Γ t u = .ok b) :
    ∃ e f, Expands Γ t e ∧ Expands Γ u f ∧ (b = true ↔ Assignable e f) := by
  obtain ⟨e, f, he, hf, hb⟩ := subsumeCheck_sound h
  exact ⟨e, f, he, hf, by rw [hb, assignable_iff]⟩

theorem c03_terminates {Γ : Aliases} {t u e f : Ty} (he : Expands Γ t e) (hf : Expands Γ u f) :
    ∃ b, Settles (fun n => subsumeCheck n Γ t u) (.ok b) := ⟨_, subsumeCheck_settles he hf⟩

theorem c03_refl {Γ : Aliases} {t e : Ty} (he : Expands Γ t e) :
    Settles (fun n => subsumeCheck n Γ t t) (.ok true) := by
  have h := subsumeCheck_settles he he
  rwa [decide_eq_true (show SubAtoms e e from Or.inr fun x hx => hx)] at h

theorem c03_trans {Γ : Aliases} {n m : Nat} {t u v : Ty} (h1 : subsumeCheck n Γ t u = .ok true)
    (h2 : subsumeCheck m Γ u v = .ok true) : Settles (fun k => subsumeCheck k Γ t v) (.ok true) := by
  obtain ⟨e, f, he, hf, hb⟩ := subsumeCheck_sound h1
  obtain ⟨f', g, hf', hg, hb'⟩ := subsumeCheck_sound h2
  rw [← hf.det hf'] at hb'
  have h := subsumeCheck_settles he hg
  rwa [decide_eq_true ((hb.mp rfl).trans (hb'.mp rfl))] at h

theorem c03_antisymm {Γ : Aliases} {n m : Nat} {t u : Ty} (h1 : subsumeCheck n Γ t u = .ok true)
    (h2 : subsumeCheck m Γ u t = .ok true) : Settles (fun k => equalCheck k Γ t u) (.ok true) := by
  obtain ⟨e, f, he, hf, hb⟩ := subsumeCheck_sound h1
  obtain ⟨f', e', hf', he', hb'⟩ := subsumeCheck_sound h2
  rw [← hf.det hf', ← he.det he'] at hb'
  have h := equalCheck_settles he hf
  have hn : norm e = norm f := by
    rw [norm_eq_iff]
    rcases hb.mp rfl with h | h
    · rcases hb'.mp rfl with h' | h'
      · exact Or.inl ⟨h', h⟩
      · exact Or.inl ⟨h' _ h, h⟩
    · rcases hb'.mp rfl with h' | h'
      · exact Or.inl ⟨h', h _ h'⟩
      · exact Or.inr fun x => ⟨h x, h' x⟩
  rwa [decide_eq_true hn] at h

theorem c03_top {Γ : Aliases} {t e : Ty} (he : Expands Γ t e) :
    Settles (fun n => subsumeCheck n Γ t .any) (.ok true) := by
  have h := subsumeCheck_settles he .any
  rwa [decide_eq_true (show SubAtoms e .any from Or.inl (by simp [atoms, nc]))] at h

/-- Assignability is inclusion of union members up to type equality. -/
theorem c03_members {Γ : Aliases} {n : Nat} {t u : Ty} {b : Bool} (h : subsumeCheck n Γ t u = .ok b) :
    ∃ e f, Expands Γ t e ∧ Expands Γ u f ∧
      (b = true ↔ Member .any f ∨ ∀ x, Member x e → ∃ y, Member y f ∧ TyEq x y) := by
  obtain ⟨e, f, he, hf, hb⟩ := subsumeCheck_sound h
  refine ⟨e, f, he, hf, ?_⟩
  rw [hb]
  have nuAny : NotUnion .any := by intro _ _ h; cases h
  have hany : ∀ t, Member .any t ↔ Ty.any ∈ atoms t := by
    intro t
    have := exists_member_tyEq_iff (t := t) nuAny
    rw [norm_any] at this
    rw [← this]
    constructor
    · intro h; exact ⟨_, h, .refl _⟩
    · rintro ⟨y, hy, hxy⟩
      have hyn : NotUnion y := by
        intro l r h
        subst h
        rw [member_iff] at hy
        clear this hxy
        induction t using Ty.ind with
        | union l r ihl ihr =>
          simp only [unionMembers, List.mem_append] at hy
          exact hy.elim ihl ihr
        | _ => simp [unionMembers] at hy
      have h2 := norm_of_tyEq hxy
      rw [norm_any] at h2
      have : y = .any := by
        cases y <;> first | rfl | (simp at h2) | exact absurd rfl (hyn _ _)
      rw [← this]; exact hy
  have nuMem : ∀ {t y}, Member y t → NotUnion y := by
    intro t y hy
    induction hy with
    | self h => exact h
    | left _ ih => exact ih
    | right _ ih => exact ih
  rw [hany]
  unfold SubAtoms
  refine or_congr_right ⟨?_, ?_⟩
  · intro h x hx
    rw [exists_member_tyEq_iff (nuMem hx)]
    exact h _ ((exists_member_tyEq_iff (nuMem hx)).mp ⟨x, hx, .refl _⟩)
  · intro h x hx
    have : ∃ y, Member y e ∧ x = norm y := by
      clear h hb hany he
      induction e using Ty.ind with
      | union l r ihl ihr =>
        rw [atoms_union, List.mem_append] at hx
        rcases hx with hx | hx
        · obtain ⟨y, hy, h⟩ := ihl hx; exact ⟨y, .left hy, h⟩
        · obtain ⟨y, hy, h⟩ := ihr hx; exact ⟨y, .right hy, h⟩
      | _ =>
        rw [atoms_of_notUnion (by intro _ _ h; cases h)] at hx
        exact ⟨_, .self (by intro _ _ h; cases h), by simpa using hx⟩
    obtain ⟨y, hy, rfl⟩ := this
    exact (exists_member_tyEq_iff (nuMem hy)).mp (h y hy)

example : subsumeCheck 20 exampleAliases (.union .none .string)
    (.union (.reference "x") .string) = .ok true := by decide +kernel
example : subsumeCheck 20 exampleAliases (.union (.reference "x") .string)
    (.union .none .string) = .ok false := by decide +kernel

/-! ### C04 -/

theorem c04_left {Γ : Aliases} {l r e f : Ty} (he : Expands Γ l e) (hf : Expands Γ r f) :
    Settles (fun n => subsumeCheck n Γ l (.union l r)) (.ok true) := by
  have h := subsumeCheck_settles he (.union he hf)
  rwa [decide_eq_true (show SubAtoms e (.union e f) from Or.inr fun x hx => by simp [hx])] at h

theorem c04_right {Γ : Aliases} {l r e f : Ty} (he : Expands Γ l e) (hf : Expands Γ r f) :
    Settles (fun n => subsumeCheck n Γ r (.union l r)) (.ok true) := by
  have h := subsumeCheck_settles hf (.union he hf)
  rwa [decide_eq_true (show SubAtoms f (.union e f) from Or.inr fun x hx => by simp [hx])] at h

theorem c04_least {Γ : Aliases} {n m : Nat} {l r u : Ty} (h1 : subsumeCheck n Γ l u = .ok true)
    (h2 : subsumeCheck m Γ r u = .ok true) :
    Settles (fun k => subsumeCheck k Γ (.union l r) u) (.ok true) := by
  obtain ⟨e, g, he, hg, hb⟩ := subsumeCheck_sound h1
  obtain ⟨f, g', hf, hg', hb'⟩ := subsumeCheck_sound h2
  rw [← hg.det hg'] at hb'
  have h := subsumeCheck_settles (.union he hf) hg
  have hs : SubAtoms (.union e f) g := by
    rcases hb.mp rfl with h | h
    · exact Or.inl h
    · rcases hb'.mp rfl with h' | h'
      · exact Or.inl h'
      · exact Or.inr fun x hx => by
          rw [atoms_union, List.mem_append] at hx; exact hx.elim (h x) (h' x)
  rwa [decide_eq_true hs] at h

example : subsumeCheck 20 exampleAliases .number (.union (.reference "x") .string) = .ok true ∧
    subsumeCheck 20 exampleAliases .string (.union (.reference "x") .string) = .ok true := by decide +kernel

/-! ### C05 -/

theorem typeDifference_sound {Γ : Aliases} {n : Nat} {t u : Ty} {d : Option Ty}
    (h : typeDifference n Γ t u = .ok d) :
    ∃ e f, Expands Γ t e ∧ Expands Γ u f ∧ d =
      if Ty.any ∈ atoms f then none else if Ty.any ∈ atoms e then some .any else
        createUnion ((btreeSet (atoms e)).filter (fun x => !(btreeSet (atoms f)).contains x)) := by
  have hc := h
  simp only [typeDifference, Res.bind_eq_ok] at h
  obtain ⟨_, h1, _, h2, _⟩ := h
  obtain ⟨e, he, _⟩ := canonicalize_sound h1
  obtain ⟨f, hf, _⟩ := canonicalize_sound h2
  have := (settles_of_eq (typeDifference_mono Γ t u) hc (by simp)).unique (typeDifference_settles he hf)
  simp only [Res.ok.injEq] at this
  exact ⟨e, f, he, hf, this⟩

/-- Nothing is left exactly when everything is handled. -/
theorem c05_none {Γ : Aliases} {n : Nat} {t u : Ty} {d : Option Ty} (h : typeDifference n Γ t u = .ok d) :
    ∃ e f, Expands Γ t e ∧ Expands Γ u f ∧ (d = none ↔ Assignable e f) := by
  obtain ⟨e, f, he, hf, hd⟩ := typeDifference_sound h
  refine ⟨e, f, he, hf, ?_⟩
  rw [hd, assignable_iff]
  unfold SubAtoms
  split
  · rename_i h; simp [h]
  · rename_i h1
    split
    · rename_i h2
      simp only [reduceCtorEq, h1, false_or, false_iff]
      exact fun h => h1 (h _ h2)
    · rw [createUnion_eq_none, List.filter_eq_nil_iff]
      simp only [mem_btreeSet, List.contains_eq_mem, Bool.not_eq_true', decide_eq_false_iff_not, not_not,
        h1, false_or]

/-- What is left are exactly the members of the argument that are not handled (`any` is not a union of its
members: if the argument is `any` and not everything is handled, `any` is left). -/
theorem c05_members {Γ : Aliases} {n : Nat} {t u d : Ty} (h : typeDifference n Γ t u = .ok (some d)) :
    ∃ e f, Expands Γ t e ∧ Expands Γ u f ∧ ((TyEq e .any ∧ d = .any) ∨ ∀ x, NotUnion x →
      ((∃ y, Member y d ∧ TyEq x y) ↔
        (∃ y, Member y e ∧ TyEq x y) ∧ ¬ ∃ y, Member y f ∧ TyEq x y)) := by
  obtain ⟨e, f, he, hf, hd⟩ := typeDifference_sound h
  refine ⟨e, f, he, hf, ?_⟩
  split at hd
  · cases hd
  · rename_i h1
    split at hd
    · rename_i h2
      left
      cases hd
      refine ⟨?_, rfl⟩
      rw [tyEq_iff_norm, norm_any]
      exact (norm_eq_any_iff e).mpr h2
    · rename_i h2
      right
      intro x hx
      rw [exists_member_tyEq_iff hx, exists_member_tyEq_iff hx, exists_member_tyEq_iff hx]
      have hmem := unionMembers_createUnion (ts := (btreeSet (atoms e)).filter
          (fun x => !(btreeSet (atoms f)).contains x)) (fun t ht => by
        have := (List.mem_filter.mp ht).1
        rw [mem_btreeSet] at this
        exact atoms_notUnion e t this) hd.symm
      have hatoms : ∀ y, y ∈ atoms d ↔ y ∈ unionMembers d := by
        have hfix : ∀ z ∈ unionMembers d, NotUnion z ∧ norm z = z := by
          rw [hmem]
          intro z hz
          have hz := (List.mem_filter.mp hz).1
          rw [mem_btreeSet] at hz
          have := atomic_atoms he.noReference z hz
          exact ⟨this.notUnion, this.fix⟩
        clear hmem hd h
        induction d using Ty.ind with
        | union l r ihl ihr =>
          intro y
          rw [atoms_union, unionMembers, List.mem_append, List.mem_append,
            ihl (fun z hz => hfix z (by simp [unionMembers, hz])),
            ihr (fun z hz => hfix z (by simp [unionMembers, hz]))]
        | _ =>
          intro y
          have := (hfix _ (by simp only [unionMembers]; exact List.mem_singleton.mpr rfl)).2
          rw [atoms_of_notUnion (by intro _ _ h; cases h), this]
          simp [unionMembers]
      rw [hatoms, hmem, List.mem_filter, mem_btreeSet]
      simp [mem_btreeSet]

example : typeDifference 20 exampleAliases (.union (.reference "x") .string) .none
    = .ok (some (.union .number .string)) := by decide
example : typeDifference 20 exampleAliases (.reference "x") (.union .none .number) = .ok none := by decide

/-! ### C06 -/

/-- Types with the same identity string are the same type. -/
theorem c06_injective {Γ : Aliases} {n m : Nat} {t u : Ty} {s : List Char}
    (ht : typeId n Γ t = .ok s) (hu : typeId m Γ u = .ok s)
    (pt : ∀ e, Expands Γ t e → PlainNames e) (pu : ∀ f, Expands Γ u f → PlainNames f) :
    ∃ e f, Expands Γ t e ∧ Expands Γ u f ∧ TyEq e f := by
  simp only [typeId, Res.bind_eq_ok] at ht hu
  obtain ⟨_, h1, h2⟩ := ht
  obtain ⟨_, h3, h4⟩ := hu
  obtain ⟨e, he, rfl⟩ := canonicalize_sound h1
  obtain ⟨f, hf, rfl⟩ := canonicalize_sound h3
  refine ⟨e, f, he, hf, ?_⟩
  rw [tyEq_iff_norm]
  simp only [Res.ok.injEq] at h2 h4
  exact (typeIdString_prefix (plainNames_norm (pt e he)).1 (plainNames_norm (pu f hf)).1
    (x := []) (y := []) (by rw [h2, h4])).1

/-- Equal types have the same identity string. -/
theorem c06_functional {Γ : Aliases} {n m : Nat} {t u e f : Ty} {s s' : List Char}
    (ht : typeId n Γ t = .ok s) (hu : typeId m Γ u = .ok s') (he : Expands Γ t e) (hf : Expands Γ u f)
    (h : TyEq e f) : s = s' := by
  simp only [typeId, Res.bind_eq_ok] at ht hu
  obtain ⟨c, h1, h2⟩ := ht
  obtain ⟨d, h3, h4⟩ := hu
  rw [canonicalize_ok_iff h1 he, norm_of_tyEq h, ← canonicalize_ok_iff h3 hf] at h2
  simp only [Res.ok.injEq] at h2 h4
  rw [← h2, ← h4]

example : (typeId 20 exampleAliases (.function [.reference "x", .record "r"] .none)) =
    .ok "(\\((none|number),record(r))none)".toList := by decide

/-! ### C07 -/

/-- Every type of a module with accepted aliases has a canonical form, and computing it terminates. -/
theorem c07_resolves {m : TypeModule} (h1 : validateAliases m = true)
    (h2 : aliasReferencesExist m = true) (t : Ty)
    (ht : ∀ x ∈ collectReferences t, referenceExists m x = true) :
    ∃ c, Settles (fun n => canonicalize n (collectAliases m) t) (.ok c) := by
  obtain ⟨e, he⟩ := expands_of_references t fun x hx => references_expand h1 h2 x (ht x hx)
  exact ⟨_, canonicalize_settles he⟩

/-- Conversely a rejected module has a cycle among its aliases. -/
theorem c07_rejected_cyclic {m : TypeModule} (h : validateAliases m = false) :
    ∃ x, Relation.TransGen (fun a b => ∃ t, (a, t) ∈ m.aliases ∧ b ∈ collectReferences t) x x := by
  unfold validateAliases at h
  rw [Option.isSome_eq_false_iff, Option.isNone_iff_eq_none] at h
  obtain ⟨v, hv⟩ := toposort_none h
  refine ⟨v, Relation.TransGen.mono ?_ _ _ hv⟩
  intro a b hab
  unfold aliasEdges at hab
  obtain ⟨p, hp, h5⟩ := List.mem_flatMap.mp hab
  obtain ⟨n, h6, h7⟩ := List.mem_map.mp h5
  cases h7
  exact ⟨p.2, hp, (List.mem_filter.mp h6).1⟩

example : validateAliases exampleModule = true ∧ aliasReferencesExist exampleModule = true := by decide
example : validateAliases { records := [], aliases := [("x", .union (.reference "y") .none),
    ("y", .list (.reference "x"))] } = false := by decide

/-! ### C08 -/

/-- Comparable means: nothing incomparable is reachable. -/
theorem c08_comparable {Γ : Aliases} {Δ : Records} {n : Nat} {t : Ty} {b : Bool}
    (h : comparableCheck n Γ Δ t = .ok b) :
    b = true ↔ ∀ u, Reaches Γ Δ t u → u ≠ .any ∧ u ≠ .error ∧ ∀ as r, u ≠ .function as r := by
  rw [comparable_correct h]
  constructor
  · intro h u hu
    refine ⟨?_, ?_, ?_⟩
    · rintro rfl; exact h ⟨_, reachesAvoiding_nil.mpr hu, trivial⟩
    · rintro rfl; exact h ⟨_, reachesAvoiding_nil.mpr hu, trivial⟩
    · rintro as r rfl; exact h ⟨_, reachesAvoiding_nil.mpr hu, trivial⟩
  · rintro h ⟨u, hu, hi⟩
    obtain ⟨h1, h2, h3⟩ := h u (reachesAvoiding_nil.mp hu)
    cases u <;> simp_all [Incomparable]

/-- The check terminates on types whose aliases and records are defined, even for recursive records. -/
theorem c08_terminates {Γ : Aliases} {Δ : Records} {names : List String} {t : Ty}
    (h : Resolvable Γ Δ names t) : ∃ b, Settles (fun n => comparableCheck n Γ Δ t) (.ok b) := by
  obtain ⟨e, he⟩ := h.expands
  exact comparable_settles h.known h.fields _ [] t e (Nat.le_refl _) he
    fun n hn => h.defined n (reachesAvoiding_nil.mp hn)

example : comparableCheck 20 exampleAliases exampleRecords (.map .string (.record "r")) = .ok true := by
  decide
example : comparableCheck 20 exampleAliases exampleRecords (.union .none (.record "s")) = .ok false := by
  decide

/-! ### C09 -/

/-- A record definition rejected as impossible has no finite value. -/
theorem c09_sound {Γ : Aliases} {Δ : Records} {n : Nat} {name : String} {fs : List RecordField}
    (hd : Δ name = some fs) (h : isImpossible n Γ Δ name fs = .ok true) :
    ¬ HasValue Γ Δ (.record name) := by
  simp only [isImpossible, Res.bind_eq_ok, Res.mapList_eq_ok] at h
  obtain ⟨bs, h1, h2⟩ := h
  simp only [Res.ok.injEq, List.any_eq_true, id] at h2
  obtain ⟨b, hb, rfl⟩ := h2
  obtain ⟨f, hf, hr⟩ := forall₂_mem_right h1 hb
  rw [hasValue_iff]
  rintro ⟨k, hk⟩
  induction k with
  | zero => cases hk
  | succ k ih =>
    cases hk with
    | record h3 h4 =>
      rw [hd] at h3; cases h3
      exact ih (isTypeRecursive_sound hr (h4 f hf))

/-- The full statement of C09: a record is reported exactly when it has no finite value. -/
def C09Complete : Prop := ∀ (Γ : Aliases) (Δ : Records) (n : Nat) (name : String) (fs : List RecordField),
  Δ name = some fs → isImpossible n Γ Δ name fs = .ok false → HasValue Γ Δ (.record name)

/-- `type a { x a | b }`, `type b { y a | b }`. -/
def impossiblePair : TypeModule where
  records := [("a", [⟨"x", .union (.record "a") (.record "b")⟩]),
    ("b", [⟨"y", .union (.record "a") (.record "b")⟩])]
  aliases := []

/-- The completeness half of C09 is false of the code: two records whose only field is the union of both
are accepted although neither has a finite value. -/
theorem c09_incomplete : ¬ C09Complete := by
  intro h
  have hv := h (collectAliases impossiblePair) (collectRecords impossiblePair) 20 "a"
    [⟨"x", .union (.record "a") (.record "b")⟩] (by decide) (by decide)
  have key : ∀ t, HasValue (collectAliases impossiblePair) (collectRecords impossiblePair) t →
      t ≠ .record "a" ∧ t ≠ .record "b" ∧ t ≠ .union (.record "a") (.record "b") := by
    intro t ht
    induction ht with
    | left _ ih => exact ⟨by simp, by simp, by rintro ⟨⟩; exact ih.1 rfl⟩
    | right _ ih => exact ⟨by simp, by simp, by rintro ⟨⟩; exact ih.2.1 rfl⟩
    | @record n fs h1 _ ih =>
      refine ⟨?_, ?_, by simp⟩
      · intro hn
        cases hn
        have : collectRecords impossiblePair "a" = some [⟨"x", .union (.record "a") (.record "b")⟩] := by
          decide
        rw [this] at h1; cases h1
        exact (ih _ (List.mem_singleton.mpr rfl)).2.2 rfl
      · intro hn
        cases hn
        have : collectRecords impossiblePair "b" = some [⟨"y", .union (.record "a") (.record "b")⟩] := by
          decide
        rw [this] at h1; cases h1
        exact (ih _ (List.mem_singleton.mpr rfl)).2.2 rfl
    | _ => exact ⟨by simp, by simp, by simp⟩
  exact (key _ hv).1 rfl

/-- Completeness for modules in which every record field is either a single record or a type with an
immediate value (`T | none`, lists, ...): if all definitions are accepted, all records have values.
Missing from C09: unions all of whose members are records, where it is false (`c09_incomplete`). -/
theorem c09_complete_partial {Γ : Aliases} {Δ : Records} {names : List String}
    (known : ∀ r fs, Δ r = some fs → r ∈ names)
    (guarded : ∀ r fs, Δ r = some fs → ∀ f ∈ fs,
      Immediate Γ f.type ∨ ∃ r', (Δ r').isSome ∧ IsRecord Γ r' f.type)
    (accepted : ∀ r fs, Δ r = some fs → ∃ n, isImpossible n Γ Δ r fs = .ok false) (r : String)
    (hr : (Δ r).isSome) : HasValue Γ Δ (.record r) :=
  hasValue_of_guarded known guarded accepted r hr

/-- `type r { a number, b r | none }` is accepted, `type q { x q }` is rejected. -/
example : isImpossible 20 exampleAliases exampleRecords "r"
    [⟨"a", .number⟩, ⟨"b", .union (.reference "r") .none⟩] = .ok false := by decide
example : isImpossible 20 (fun _ => none) (fun n => if n = "q" then some [⟨"x", .record "q"⟩] else none) "q"
    [⟨"x", .record "q"⟩] = .ok true := by decide

end Verif.Hir
