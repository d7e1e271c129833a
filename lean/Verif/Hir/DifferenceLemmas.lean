import Verif.Hir.AssignLemmas

/-! # Type difference and type identities -/

namespace Verif.Hir

open Res

theorem unionMembers_norm_sorted {t : Ty} (h : Ty.any ∉ atoms t) :
    unionMembers (norm t) = btreeSet (atoms t) := by
  rw [norm_eq_joinAll, unionMembers_joinAll (atoms_ne_nil t) h (atoms_notUnion t)]

theorem unionMemberSet_settles {Γ : Aliases} {t : Ty} (h : NoReference t) (ha : Ty.any ∉ atoms t) :
    Settles (fun n => unionMemberSet n Γ (norm t)) (.ok (btreeSet (atoms t))) := by
  refine Settles.bind (canonicalize_settles (expands_self (noReference_norm h).1)) ?_
  have : unionMembers (norm (norm t)) = btreeSet (atoms t) := by
    rw [norm_idem, unionMembers_norm_sorted ha]
  rw [this, btreeSet_of_sorted (sorted_btreeSet _)]
  exact Settles.const _

/-- What `type_difference_calculator::calculate` returns. -/
theorem typeDifference_settles {Γ : Aliases} {t u e f : Ty} (ht : Expands Γ t e) (hu : Expands Γ u f) :
    Settles (fun n => typeDifference n Γ t u) (.ok (
      if Ty.any ∈ atoms f then none else if Ty.any ∈ atoms e then some .any else
        createUnion ((btreeSet (atoms e)).filter (fun x => !(btreeSet (atoms f)).contains x)))) := by
  refine Settles.bind (canonicalize_settles ht) (Settles.bind (canonicalize_settles hu) ?_)
  by_cases hf : Ty.any ∈ atoms f
  · rw [if_pos hf, (norm_eq_any_iff f).mpr hf]
    exact Settles.const _
  · have hf' : norm f ≠ .any := fun h => hf ((norm_eq_any_iff f).mp h)
    rw [if_neg hf]
    simp only [hf', if_false]
    by_cases he : Ty.any ∈ atoms e
    · rw [if_pos he, (norm_eq_any_iff e).mpr he]
      exact Settles.const _
    · have he' : norm e ≠ .any := fun h => he ((norm_eq_any_iff e).mp h)
      rw [if_neg he]
      simp only [he', if_false]
      exact Settles.bind (unionMemberSet_settles ht.noReference he)
        (Settles.bind (unionMemberSet_settles hu.noReference hf) (Settles.const _))

theorem typeDifference_mono (Γ : Aliases) (t u : Ty) (n : Nat) :
    Res.Le (typeDifference n Γ t u) (typeDifference (n + 1) Γ t u) := by
  refine Res.Le.bind (canonicalize_mono Γ t n) fun a => Res.Le.bind (canonicalize_mono Γ u n) fun b => ?_
  split
  · exact Res.Le.refl _
  · split
    · exact Res.Le.refl _
    · exact Res.Le.bind (Res.Le.bind (canonicalize_mono Γ _ n) fun _ => Res.Le.refl _) fun _ =>
        Res.Le.bind (Res.Le.bind (canonicalize_mono Γ _ n) fun _ => Res.Le.refl _) fun _ => Res.Le.refl _

theorem member_iff (x t : Ty) : Member x t ↔ x ∈ unionMembers t := by
  constructor
  · intro h
    induction h with
    | self h => rw [unionMembers_of_notUnion h]; simp
    | left _ ih => simp [unionMembers, ih]
    | right _ ih => simp [unionMembers, ih]
  · intro h
    induction t using Ty.ind with
    | union l r ihl ihr =>
      simp only [unionMembers, List.mem_append] at h
      rcases h with h | h
      · exact .left (ihl h)
      · exact .right (ihr h)
    | _ =>
      rw [unionMembers_of_notUnion (by intro _ _ h; cases h)] at h
      simp only [List.mem_singleton] at h
      subst h
      exact .self (by intro _ _ h; cases h)

/-- Members of a type up to type equality are its atoms. -/
theorem exists_member_tyEq_iff {t x : Ty} (hx : NotUnion x) :
    (∃ y, Member y t ∧ TyEq x y) ↔ norm x ∈ atoms t := by
  simp only [member_iff, tyEq_iff_norm]
  induction t using Ty.ind with
  | union l r ihl ihr =>
    simp only [unionMembers, List.mem_append, atoms_union, ← ihl, ← ihr]
    constructor
    · rintro ⟨y, h | h, h'⟩
      · exact Or.inl ⟨y, h, h'⟩
      · exact Or.inr ⟨y, h, h'⟩
    · rintro (⟨y, h, h'⟩ | ⟨y, h, h'⟩)
      · exact ⟨y, Or.inl h, h'⟩
      · exact ⟨y, Or.inr h, h'⟩
  | _ =>
    rw [atoms_of_notUnion (by intro _ _ h; cases h), unionMembers_of_notUnion (by intro _ _ h; cases h)]
    simp

theorem unionMembers_createUnion {ts : List Ty} (h : ∀ t ∈ ts, NotUnion t) {d : Ty}
    (hd : createUnion ts = some d) : unionMembers d = ts := by
  cases ts with
  | nil => cases hd
  | cons a as =>
    simp only [createUnion, reduce, Option.some.injEq] at hd
    subst hd
    rw [unionMembers_foldl, unionMembers_of_notUnion (h a (by simp)),
      flatMap_unionMembers (fun t ht => h t (by simp [ht]))]
    rfl

theorem createUnion_eq_none {ts : List Ty} : createUnion ts = none ↔ ts = [] := by
  cases ts <;> simp [createUnion, reduce]

/-! ## Identity strings -/

/-- Record names without a closing parenthesis, the terminator of a record's identity. -/
inductive PlainNames : Ty → Prop
  | any : PlainNames .any
  | boolean : PlainNames .boolean
  | error : PlainNames .error
  | none : PlainNames .none
  | number : PlainNames .number
  | string : PlainNames .string
  | record {n : String} : ')' ∉ n.toList → PlainNames (.record n)
  | function {as r} : (∀ a ∈ as, PlainNames a) → PlainNames r → PlainNames (.function as r)
  | list {e} : PlainNames e → PlainNames (.list e)
  | map {k v} : PlainNames k → PlainNames v → PlainNames (.map k v)
  | union {l r} : PlainNames l → PlainNames r → PlainNames (.union l r)

theorem append_terminator {a b x y : List Char} {c : Char} (ha : c ∉ a) (hb : c ∉ b)
    (h : a ++ c :: x = b ++ c :: y) : a = b ∧ x = y := by
  induction a generalizing b with
  | nil =>
    cases b with
    | nil => simpa using h
    | cons d b =>
      simp only [List.nil_append, List.cons_append, List.cons.injEq] at h
      simp [h.1] at hb
  | cons d a ih =>
    cases b with
    | nil =>
      simp only [List.nil_append, List.cons_append, List.cons.injEq] at h
      simp [h.1] at ha
    | cons d' b =>
      simp only [List.cons_append, List.cons.injEq] at h
      obtain ⟨h1, h2⟩ := ih (by simp at ha; exact ha.2) (by simp at hb; exact hb.2) h.2
      exact ⟨by rw [h.1, h1], h2⟩

/-- Identity strings are self-delimiting. -/
theorem typeIdString_prefix {a : Ty} (ha : PlainNames a) : ∀ {b : Ty}, PlainNames b → ∀ {x y : List Char},
    typeIdString a ++ x = typeIdString b ++ y → a = b ∧ x = y := by
  have head : ∀ {a : Ty}, PlainNames a → ∃ c s, typeIdString a = c :: s ∧ c ≠ ')' ∧ c ≠ ',' ∧ c ≠ '\\' := by
    intro a ha
    cases ha <;> simp [typeIdString]
  have args : ∀ {as : List Ty}, (∀ a ∈ as, PlainNames a) → (∀ a ∈ as, ∀ {b : Ty}, PlainNames b →
      ∀ {x y : List Char}, typeIdString a ++ x = typeIdString b ++ y → a = b ∧ x = y) →
      ∀ {bs : List Ty}, (∀ b ∈ bs, PlainNames b) → ∀ {x y : List Char},
      joinComma (typeIdStrings as) ++ ')' :: x = joinComma (typeIdStrings bs) ++ ')' :: y →
      as = bs ∧ x = y := by
    intro as
    induction as with
    | nil =>
      intro _ _ bs hb x y h
      cases bs with
      | nil => simpa [typeIdStrings, joinComma] using h
      | cons b bs =>
        obtain ⟨c, s, h1, h2, _⟩ := head (hb b (by simp))
        cases bs with
        | nil => simp [typeIdStrings, joinComma, h1] at h; exact absurd h.1.symm h2
        | cons b' bs => simp [typeIdStrings, joinComma, h1] at h; exact absurd h.1.symm h2
    | cons a as ih =>
      intro hp H bs hb x y h
      cases bs with
      | nil =>
        obtain ⟨c, s, h1, h2, _⟩ := head (hp a (by simp))
        cases as with
        | nil => simp [typeIdStrings, joinComma, h1] at h; exact absurd h.1 h2
        | cons b' bs => simp [typeIdStrings, joinComma, h1] at h; exact absurd h.1 h2
      | cons b bs =>
        have hb' := hb b (by simp)
        cases as with
        | nil =>
          cases bs with
          | nil =>
            simp only [typeIdStrings, joinComma] at h
            obtain ⟨h1, h2⟩ := H a (by simp) hb' h
            cases h2
            exact ⟨by rw [h1], rfl⟩
          | cons b' bs =>
            simp only [typeIdStrings, joinComma, List.append_assoc, List.cons_append] at h
            obtain ⟨h1, h2⟩ := H a (by simp) hb' h
            simp at h2
        | cons a' as =>
          cases bs with
          | nil =>
            simp only [typeIdStrings, joinComma, List.append_assoc, List.cons_append] at h
            obtain ⟨h1, h2⟩ := H a (by simp) hb' h
            simp at h2
          | cons b' bs =>
            simp only [typeIdStrings, joinComma, List.append_assoc, List.cons_append] at h
            obtain ⟨h1, h2⟩ := H a (by simp) hb' h
            simp only [List.cons.injEq, true_and] at h2
            obtain ⟨h3, h4⟩ := ih (fun a ha => hp a (by simp [ha])) (fun a ha => H a (by simp [ha]))
              (bs := b' :: bs) (fun b hb'' => hb b (by simp [hb''])) h2
            exact ⟨by rw [h1, h3], h4⟩
  induction ha with
  | record hn =>
    intro b hb x y h
    cases hb with
    | record hm =>
      simp only [typeIdString, List.cons_append, List.nil_append, List.append_assoc, List.cons.injEq, true_and] at h
      obtain ⟨h1, h2⟩ := append_terminator hn hm h
      exact ⟨by rw [String.toList_injective h1], h2⟩
    | _ => simp [typeIdString] at h
  | list _ ih =>
    intro b hb x y h
    cases hb with
    | list hb =>
      simp only [typeIdString, List.cons_append, List.nil_append, List.append_assoc, List.cons.injEq, true_and] at h
      obtain ⟨h1, h2⟩ := ih hb h
      simp only [List.cons.injEq, true_and] at h2
      exact ⟨by rw [h1], h2⟩
    | _ => simp [typeIdString] at h
  | map _ _ ih1 ih2 =>
    intro b hb x y h
    cases hb with
    | map hb hb' =>
      simp only [typeIdString, List.cons_append, List.nil_append, List.append_assoc, List.cons.injEq, true_and] at h
      obtain ⟨h1, h2⟩ := ih1 hb h
      simp only [List.cons.injEq, true_and] at h2
      obtain ⟨h3, h4⟩ := ih2 hb' h2
      simp only [List.cons.injEq, true_and] at h4
      exact ⟨by rw [h1, h3], h4⟩
    | _ => simp [typeIdString] at h
  | union hl _ ih1 ih2 =>
    intro b hb x y h
    cases hb with
    | union hb hb' =>
      simp only [typeIdString, List.cons_append, List.nil_append, List.append_assoc, List.cons.injEq, true_and] at h
      obtain ⟨h1, h2⟩ := ih1 hb h
      simp only [List.cons.injEq, true_and] at h2
      obtain ⟨h3, h4⟩ := ih2 hb' h2
      simp only [List.cons.injEq, true_and] at h4
      exact ⟨by rw [h1, h3], h4⟩
    | function hb hb' =>
      obtain ⟨c, s, h1, _, _, h2⟩ := head hl
      simp [typeIdString, h1] at h
      exact absurd h.1 h2
    | _ => simp [typeIdString] at h
  | function ha hr iha ihr =>
    intro b hb x y h
    cases hb with
    | function hb hb' =>
      simp only [typeIdString, List.cons_append, List.nil_append, List.append_assoc, List.cons.injEq, true_and] at h
      obtain ⟨h1, h2⟩ := args ha iha hb h
      obtain ⟨h3, h4⟩ := ihr hb' h2
      simp only [List.cons.injEq, true_and] at h4
      exact ⟨by rw [h1, h3], h4⟩
    | union hb hb' =>
      obtain ⟨c, s, h1, _, _, h2⟩ := head hb
      simp [typeIdString, h1] at h
      exact absurd h.1.symm h2
    | _ => simp [typeIdString] at h
  | _ =>
    intro b hb x y h
    cases hb <;> simp [typeIdString] at h <;> first | exact ⟨rfl, h⟩ | skip

theorem plainNames_foldl {as : List Ty} : ∀ {a : Ty}, PlainNames a → (∀ x ∈ as, PlainNames x) →
    PlainNames (as.foldl .union a) := by
  induction as with
  | nil => intro a h _; exact h
  | cons b bs ih =>
    intro a h h'
    exact ih (.union h (h' b (by simp))) (fun x hx => h' x (by simp [hx]))

theorem plainNames_joinAll {ts : List Ty} (h : ∀ x ∈ ts, PlainNames x) : PlainNames (joinAll ts) := by
  by_cases h0 : ts = []
  · subst h0; exact .any
  by_cases h1 : Ty.any ∈ ts
  · rw [joinAll_any h1]; exact .any
  · obtain ⟨a, as, h2, h3, _⟩ := joinAll_eq h0 h1
    have hm : ∀ x, x ∈ a :: as → PlainNames x := fun x hx => by
      rw [← h2] at hx; exact h x ((mem_btreeSet ts x).mp hx)
    rw [h3]
    exact plainNames_foldl (hm a (by simp)) (fun x hx => hm x (by simp [hx]))

theorem plainNames_norm {t : Ty} (h : PlainNames t) :
    PlainNames (norm t) ∧ ∀ x ∈ atoms t, PlainNames x := by
  have leaf : ∀ {t}, NotUnion t → PlainNames (norm t) →
      PlainNames (norm t) ∧ ∀ x ∈ atoms t, PlainNames x := by
    intro t h1 h2
    refine ⟨h2, ?_⟩
    rw [atoms_of_notUnion h1]
    simpa using h2
  induction h with
  | union _ _ ih1 ih2 =>
    rw [norm_union, atoms_union]
    have : ∀ x ∈ atoms _ ++ atoms _, PlainNames x := fun x hx => by
      rcases List.mem_append.mp hx with hx | hx
      · exact ih1.2 x hx
      · exact ih2.2 x hx
    exact ⟨plainNames_joinAll this, this⟩
  | function _ _ iha ihr =>
    refine leaf (by intro _ _ h; cases h) ?_
    rw [norm_function]
    refine .function (fun a ha => ?_) ihr.1
    obtain ⟨b, hb, rfl⟩ := List.mem_map.mp ha
    exact (iha b hb).1
  | list _ ih => refine leaf (by intro _ _ h; cases h) ?_; rw [norm_list]; exact .list ih.1
  | map _ _ ih1 ih2 =>
    refine leaf (by intro _ _ h; cases h) ?_; rw [norm_map]; exact .map ih1.1 ih2.1
  | any => exact leaf (by intro _ _ h; cases h) .any
  | boolean => exact leaf (by intro _ _ h; cases h) .boolean
  | error => exact leaf (by intro _ _ h; cases h) .error
  | none => exact leaf (by intro _ _ h; cases h) .none
  | number => exact leaf (by intro _ _ h; cases h) .number
  | string => exact leaf (by intro _ _ h; cases h) .string
  | record hn => exact leaf (by intro _ _ h; cases h) (by rw [norm_record]; exact .record hn)

end Verif.Hir
