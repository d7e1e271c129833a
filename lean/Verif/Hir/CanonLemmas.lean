import Verif.Hir.DifferenceLemmas
import Verif.Hir.ValidatorLemmas
import Verif.Hir.Elaborate

/-! # Canonical forms -/

namespace Verif.Hir

open Verif.Res

/-- `c` is the canonical form of `t`. -/
def Canon (A : Aliases) (t c : Ty) : Prop := ∃ e, Expands A t e ∧ c = norm e

variable {A : Aliases}

theorem Canon.det {t c d : Ty} (h : Canon A t c) (h' : Canon A t d) : c = d := by
  obtain ⟨e, h1, h2⟩ := h
  obtain ⟨f, h3, h4⟩ := h'
  rw [h2, h4, h1.det h3]

theorem Canon.of_ok {n : Nat} {t c : Ty} (h : canonicalize n A t = .ok c) : Canon A t c :=
  canonicalize_sound h

theorem Canon.ok_or_more {t c : Ty} (h : Canon A t c) (n : Nat) :
    canonicalize n A t = .ok c ∨ canonicalize n A t = .more := by
  obtain ⟨e, h1, h2⟩ := h
  obtain ⟨N, h3⟩ := canonicalize_complete h1
  rcases le_of_step (canonicalize_mono A t) (Nat.le_max_left n N) with h4 | h4
  · exact Or.inr h4
  · left; rw [h4, h3 _ (Nat.le_max_right n N), h2]

theorem Canon.ok_eq {t c d : Ty} {n : Nat} (h : Canon A t c) (h' : canonicalize n A t = .ok d) : d = c :=
  (Canon.of_ok h').det h

theorem Canon.noReference {t c : Ty} (h : Canon A t c) : NoReference c := by
  obtain ⟨e, h1, h2⟩ := h
  rw [h2]; exact (noReference_norm h1.noReference).1

theorem Canon.normal {t c : Ty} (h : Canon A t c) : norm c = c := by
  obtain ⟨e, h1, h2⟩ := h
  rw [h2, norm_idem]

theorem canon_of_noReference {t : Ty} (h : NoReference t) : Canon A t (norm t) := ⟨t, expands_self h, rfl⟩

theorem canon_self {c : Ty} (h : NoReference c) (h' : norm c = c) : Canon A c c := by
  have := canon_of_noReference (A := A) h
  rwa [h'] at this

theorem Canon.self {t c : Ty} (h : Canon A t c) : Canon A c c := canon_self h.noReference h.normal

theorem canon_boolean : Canon A .boolean .boolean := ⟨_, .boolean, by simp⟩
theorem canon_any : Canon A .any .any := ⟨_, .any, by simp⟩
theorem canon_none : Canon A .none .none := ⟨_, .none, by simp⟩
theorem canon_error : Canon A .error .error := ⟨_, .error, by simp⟩
theorem canon_number : Canon A .number .number := ⟨_, .number, by simp⟩
theorem canon_string : Canon A .string .string := ⟨_, .string, by simp⟩
theorem canon_record (n : String) : Canon A (.record n) (.record n) := ⟨_, .record n, by simp⟩

theorem Canon.list {t c : Ty} (h : Canon A t c) : Canon A (.list t) (.list c) := by
  obtain ⟨e, h1, h2⟩ := h
  exact ⟨_, .list h1, by simp [h2]⟩

theorem Canon.map {t c u d : Ty} (h : Canon A t c) (h' : Canon A u d) : Canon A (.map t u) (.map c d) := by
  obtain ⟨e, h1, h2⟩ := h
  obtain ⟨f, h3, h4⟩ := h'
  exact ⟨_, .map h1 h3, by simp [h2, h4]⟩

theorem canon_list_inv {t c : Ty} (h : Canon A (.list t) c) : ∃ d, c = .list d ∧ Canon A t d := by
  obtain ⟨e, h1, h2⟩ := h
  cases h1 with
  | list h => exact ⟨_, by simpa using h2, _, h, rfl⟩

theorem canon_map_inv {t u c : Ty} (h : Canon A (.map t u) c) :
    ∃ d e, c = .map d e ∧ Canon A t d ∧ Canon A u e := by
  obtain ⟨e, h1, h2⟩ := h
  cases h1 with
  | map h h' => exact ⟨_, _, by simpa using h2, ⟨_, h, rfl⟩, ⟨_, h', rfl⟩⟩

theorem Canon.list_arg {t e : Ty} (h : Canon A t (.list e)) : Canon A e e := by
  obtain ⟨d, h1, h2⟩ := canon_list_inv h.self
  cases h1; exact h2

theorem Canon.map_arg {t k v : Ty} (h : Canon A t (.map k v)) : Canon A k k ∧ Canon A v v := by
  obtain ⟨d, e, h1, h2, h3⟩ := canon_map_inv h.self
  cases h1; exact ⟨h2, h3⟩

theorem Canon.function {as cs : List Ty} {r d : Ty} (h : List.Forall₂ (Canon A) as cs) (h' : Canon A r d) :
    Canon A (.function as r) (.function cs d) := by
  obtain ⟨s, h1, h2⟩ := h'
  have : ∃ es, List.Forall₂ (Expands A) as es ∧ cs = es.map norm := by
    induction h with
    | nil => exact ⟨[], .nil, rfl⟩
    | cons h _ ih =>
      obtain ⟨e, h3, h4⟩ := h
      obtain ⟨es, h5, h6⟩ := ih
      exact ⟨e :: es, .cons h3 h5, by simp [h4, h6]⟩
  obtain ⟨es, h3, h4⟩ := this
  rw [List.forall₂_iff_zip] at h3
  exact ⟨_, .function h3.1 (fun p hp => h3.2 hp) h1, by simp [h4, h2]⟩

theorem canon_function_inv {as : List Ty} {r c : Ty} (h : Canon A (.function as r) c) :
    ∃ cs d, c = .function cs d ∧ List.Forall₂ (Canon A) as cs ∧ Canon A r d := by
  obtain ⟨e, h1, h2⟩ := h
  cases h1 with
  | @function _ bs _ s h3 h4 h5 =>
    refine ⟨bs.map norm, norm s, by simpa using h2, ?_, ⟨_, h5, rfl⟩⟩
    rw [List.forall₂_iff_zip]
    refine ⟨by simpa using h3, ?_⟩
    intro a b hab
    rw [List.zip_map_right, List.mem_map] at hab
    obtain ⟨p, hp, h6⟩ := hab
    cases h6
    exact ⟨_, h4 p hp, rfl⟩

theorem forall₂_self {α : Type} {R : α → α → Prop} : ∀ {as : List α}, List.Forall₂ R as as →
    ∀ a ∈ as, R a a
  | _, .cons h hs, b, hb => by
    rcases List.mem_cons.mp hb with rfl | hb
    · exact h
    · exact forall₂_self hs b hb

theorem Canon.function_arg {t : Ty} {as : List Ty} {r : Ty} (h : Canon A t (.function as r)) :
    (∀ a ∈ as, Canon A a a) ∧ Canon A r r := by
  obtain ⟨cs, d, h1, h2, h3⟩ := canon_function_inv h.self
  cases h1
  exact ⟨forall₂_self h2, h3⟩

/-! ## Members -/

/-- Assignability of canonical types. -/
def Sub (c d : Ty) : Prop := d = .any ∨ ∀ x ∈ unionMembers c, x ∈ unionMembers d

theorem Sub.refl (c : Ty) : Sub c c := Or.inr fun _ h => h

theorem any_mem_members {t d : Ty} (h : Canon A t d) (h' : Ty.any ∈ unionMembers d) : d = .any := by
  obtain ⟨e, h1, h2⟩ := h
  by_contra hne
  rw [h2] at hne h'
  have : Ty.any ∉ atoms e := fun h => hne ((norm_eq_any_iff e).mpr h)
  exact this ((mem_unionMembers_norm _ this).mp h')

theorem Sub.trans {t c d e : Ty} (h : Sub c d) (h' : Sub d e) (he : Canon A t e) : Sub c e := by
  rcases h' with h' | h'
  · exact Or.inl h'
  · rcases h with h | h
    · subst h
      exact Or.inl (any_mem_members he (h' _ (by simp [unionMembers])))
    · exact Or.inr fun x hx => h' x (h x hx)

theorem Sub.any_left {t d : Ty} (h : Sub .any d) (hd : Canon A t d) : d = .any := by
  rcases h with h | h
  · exact h
  · exact any_mem_members hd (h _ (by simp [unionMembers]))

theorem sub_of_subAtoms {e f : Ty} (h : SubAtoms e f) : Sub (norm e) (norm f) := by
  by_cases hf : Ty.any ∈ atoms f
  · exact Or.inl ((norm_eq_any_iff f).mpr hf)
  · rcases h with h | h
    · exact absurd h hf
    · have he : Ty.any ∉ atoms e := fun h' => hf (h _ h')
      right
      intro x hx
      rw [mem_unionMembers_norm _ hf]
      rw [mem_unionMembers_norm _ he] at hx
      exact h x hx

theorem subAtoms_of_sub {e f : Ty} (h : Sub (norm e) (norm f)) : SubAtoms e f := by
  by_cases hf : Ty.any ∈ atoms f
  · exact Or.inl hf
  · have hf' : Verif.Hir.norm f ≠ .any := fun h => hf ((norm_eq_any_iff f).mp h)
    rcases h with h | h
    · exact absurd h hf'
    · by_cases he : Ty.any ∈ atoms e
      · rw [(norm_eq_any_iff e).mpr he] at h
        have := h .any (by simp [unionMembers])
        rw [mem_unionMembers_norm _ hf] at this
        exact absurd this hf
      · right
        intro x hx
        have := h x ((mem_unionMembers_norm _ he).mpr hx)
        rwa [mem_unionMembers_norm _ hf] at this

theorem subsumeCheck_ok {n : Nat} {t u c d : Ty} {b : Bool} (h : subsumeCheck n A t u = .ok b)
    (ht : Canon A t c) (hu : Canon A u d) : b = true ↔ Sub c d := by
  obtain ⟨e, h1, h2⟩ := ht
  obtain ⟨f, h3, h4⟩ := hu
  have h5 := Settles.unique (settles_of_eq (subsumeCheck_mono A t u) h (by simp))
    (subsumeCheck_settles h1 h3)
  cases h5
  subst h2; subst h4
  rw [decide_eq_true_iff]
  exact ⟨sub_of_subAtoms, subAtoms_of_sub⟩

theorem canon_of_subsumeCheck {n : Nat} {t u : Ty} {b : Bool} (h : subsumeCheck n A t u = .ok b) :
    ∃ c d, Canon A t c ∧ Canon A u d := by
  unfold subsumeCheck at h
  obtain ⟨c, h1, h2⟩ := bind_eq_ok.mp h
  obtain ⟨d, h3, _⟩ := bind_eq_ok.mp h2
  exact ⟨c, d, .of_ok h1, .of_ok h3⟩

theorem equalCheck_ok {n : Nat} {t u c d : Ty} {b : Bool} (h : equalCheck n A t u = .ok b)
    (ht : Canon A t c) (hu : Canon A u d) : b = true ↔ c = d := by
  obtain ⟨e, h1, h2⟩ := ht
  obtain ⟨f, h3, h4⟩ := hu
  have h5 := Settles.unique (settles_of_eq (equalCheck_mono A t u) h (by simp))
    (equalCheck_settles h1 h3)
  cases h5
  subst h2; subst h4
  simp

theorem canon_of_equalCheck {n : Nat} {t u : Ty} {b : Bool} (h : equalCheck n A t u = .ok b) :
    ∃ c d, Canon A t c ∧ Canon A u d := by
  unfold equalCheck at h
  obtain ⟨c, h1, h2⟩ := bind_eq_ok.mp h
  obtain ⟨d, h3, _⟩ := bind_eq_ok.mp h2
  exact ⟨c, d, .of_ok h1, .of_ok h3⟩

theorem members_ne_nil (c : Ty) : unionMembers c ≠ [] := by
  induction c using Ty.ind with
  | union l r ihl _ => simp [unionMembers, ihl]
  | _ => simp [unionMembers]

/-- Canonical types with the same members are the same. -/
theorem canon_ext {t u c d : Ty} (hc : Canon A t c) (hd : Canon A u d)
    (h : ∀ x, x ∈ unionMembers c ↔ x ∈ unionMembers d) : c = d := by
  obtain ⟨e, h1, h2⟩ := hc
  obtain ⟨f, h3, h4⟩ := hd
  subst h2; subst h4
  rw [norm_eq_iff]
  by_cases he : Ty.any ∈ atoms e
  · rw [(norm_eq_any_iff e).mpr he] at h
    have := any_mem_members ⟨f, h3, rfl⟩ ((h .any).mp (by simp [unionMembers]))
    exact Or.inl ⟨he, (norm_eq_any_iff f).mp this⟩
  · by_cases hf : Ty.any ∈ atoms f
    · rw [(norm_eq_any_iff f).mpr hf] at h
      have := any_mem_members ⟨e, h1, rfl⟩ ((h .any).mpr (by simp [unionMembers]))
      exact absurd ((norm_eq_any_iff e).mp this) he
    · right
      intro x
      rw [← mem_unionMembers_norm _ he, ← mem_unionMembers_norm _ hf]
      exact h x

/-- Only a type itself is assignable to a type that is neither a union nor `any`. -/
theorem Sub.eq_atom {t u c d : Ty} (h : Sub c d) (hc : Canon A t c) (hd : Canon A u d) (hu : NotUnion d)
    (ha : d ≠ .any) : c = d := by
  rcases h with h | h
  · exact absurd h ha
  · refine canon_ext hc hd fun x => ⟨h x, fun hx => ?_⟩
    rw [unionMembers_of_notUnion hu] at h hx
    simp only [List.mem_singleton] at h hx
    subst hx
    cases hm : unionMembers c with
    | nil => exact absurd hm (members_ne_nil c)
    | cons y ys =>
      have := h y (by simp [hm])
      simp [this]

theorem Canon.union {t u c d : Ty} (h : Canon A t c) (h' : Canon A u d) :
    ∃ j, Canon A (.union t u) j ∧ Sub c j ∧ Sub d j ∧
      (j = .any → c = .any ∨ d = .any) ∧
      (j ≠ .any → ∀ x, x ∈ unionMembers j ↔ x ∈ unionMembers c ∨ x ∈ unionMembers d) := by
  obtain ⟨e, h1, h2⟩ := h
  obtain ⟨f, h3, h4⟩ := h'
  subst h2; subst h4
  refine ⟨Verif.Hir.norm (.union e f), ⟨_, .union h1 h3, rfl⟩, ?_, ?_, ?_, ?_⟩
  · exact sub_of_subAtoms (Or.inr fun x hx => by simp [hx])
  · exact sub_of_subAtoms (Or.inr fun x hx => by simp [hx])
  · intro h
    rw [norm_eq_any_iff, atoms_union, List.mem_append] at h
    rw [norm_eq_any_iff, norm_eq_any_iff]
    exact h
  · intro h x
    have : Ty.any ∉ atoms (Ty.union e f) := fun h' => h ((norm_eq_any_iff _).mpr h')
    have h5 : Ty.any ∉ atoms e ∧ Ty.any ∉ atoms f := by
      rw [atoms_union, List.mem_append] at this
      exact ⟨fun h => this (Or.inl h), fun h => this (Or.inr h)⟩
    rw [mem_unionMembers_norm _ this, mem_unionMembers_norm _ h5.1, mem_unionMembers_norm _ h5.2, atoms_union,
      List.mem_append]

/-- The union of a type with itself. -/
theorem Canon.union_same {t u c : Ty} (h : Canon A t c) (h' : Canon A u c) : Canon A (.union t u) c := by
  obtain ⟨j, h1, _, _, h4, h5⟩ := h.union h'
  by_cases hj : j = .any
  · have := h4 hj
    have hc : c = .any := this.elim id id
    rw [hc]; rwa [hj] at h1
  · have : j = c := canon_ext h1 h fun x => by rw [h5 hj]; simp
    rwa [this] at h1

theorem canon_union_inv {t u j : Ty} (h : Canon A (.union t u) j) : ∃ c d, Canon A t c ∧ Canon A u d := by
  obtain ⟨e, h1, h2⟩ := h
  cases h1 with
  | union h3 h4 => exact ⟨_, _, ⟨_, h3, rfl⟩, ⟨_, h4, rfl⟩⟩

theorem canon_union_congr {t u c d j : Ty} (h : Canon A t c) (h' : Canon A u d) (hj : Canon A (.union c d) j) :
    Canon A (.union t u) j := by
  obtain ⟨i, h1, k2, k3, h2, h3⟩ := h.union h'
  obtain ⟨i', g1, s1, s2, g2, g3⟩ := h.self.union h'.self
  rw [hj.det g1]
  have : i = i' := by
    by_cases hi : i = .any
    · have : i' = .any := by
        rcases h2 hi with hc | hd
        · subst hc; exact s1.any_left g1
        · subst hd; exact s2.any_left g1
      rw [hi, this]
    · have hi' : i' ≠ .any := by
        intro hi'
        rcases g2 hi' with hc | hd
        · subst hc; exact hi (k2.any_left h1)
        · subst hd; exact hi (k3.any_left h1)
      exact canon_ext h1 g1 fun x => by rw [h3 hi, g3 hi']
  rw [← this]
  exact h1

/-- Unions of several types. -/
theorem canon_foldl_union : ∀ (ts cs : List Ty) (t c : Ty), Canon A t c → List.Forall₂ (Canon A) ts cs →
    ∃ j, Canon A (ts.foldl .union t) j ∧ Sub c j ∧ (∀ d ∈ cs, Sub d j) ∧
      (j = .any → c = .any ∨ .any ∈ cs) ∧
      (j ≠ .any → ∀ x, x ∈ unionMembers j ↔ x ∈ unionMembers c ∨ ∃ d ∈ cs, x ∈ unionMembers d)
  | [], _, t, c, h, .nil => ⟨c, h, .refl c, by simp, fun h => Or.inl h, by simp⟩
  | u :: ts, d :: cs, t, c, h, .cons h1 h2 => by
    obtain ⟨j, g1, g2, g3, g4, g5⟩ := h.union h1
    obtain ⟨k, f1, f2, f3, f4, f5⟩ := canon_foldl_union ts cs _ j g1 h2
    refine ⟨k, f1, g2.trans f2 f1, ?_, ?_, ?_⟩
    · intro e he
      rcases List.mem_cons.mp he with rfl | he
      · exact g3.trans f2 f1
      · exact f3 e he
    · intro hk
      rcases f4 hk with h | h
      · rcases g4 h with h | h
        · exact Or.inl h
        · right; simp [h]
      · right; simp [h]
    · intro hk x
      have hj : j ≠ .any := by
        intro hj
        rw [hj] at f2
        exact hk (f2.any_left f1)
      rw [f5 hk, g5 hj]
      simp [or_assoc]

theorem canon_createUnion {ts cs : List Ty} {u : Ty} (h : createUnion ts = some u)
    (hs : List.Forall₂ (Canon A) ts cs) :
    ∃ j, Canon A u j ∧ (∀ d ∈ cs, Sub d j) ∧ (j = .any → .any ∈ cs) ∧
      (j ≠ .any → ∀ x, x ∈ unionMembers j ↔ ∃ d ∈ cs, x ∈ unionMembers d) := by
  cases hs with
  | nil => cases h
  | @cons t c ts cs h1 h2 =>
    simp only [createUnion, reduce, Option.some.injEq] at h
    subst h
    obtain ⟨j, g1, g2, g3, g4, g5⟩ := canon_foldl_union ts cs t c h1 h2
    refine ⟨j, g1, ?_, ?_, ?_⟩
    · intro d hd
      rcases List.mem_cons.mp hd with rfl | hd
      · exact g2
      · exact g3 d hd
    · intro hj
      rcases g4 hj with h | h <;> simp [h]
    · intro hj x
      rw [g5 hj]; simp

theorem canon_createUnion_same {ts : List Ty} {u c : Ty} (h : createUnion ts = some u)
    (hs : ∀ t ∈ ts, Canon A t c) : Canon A u c := by
  have h2 : List.Forall₂ (Canon A) ts (ts.map fun _ => c) := by
    clear h
    induction ts with
    | nil => exact .nil
    | cons t ts ih => exact .cons (hs t (by simp)) (ih fun t ht => hs t (by simp [ht]))
  have hne : ts ≠ [] := by rintro rfl; cases h
  obtain ⟨t, ht⟩ := List.exists_mem_of_ne_nil _ hne
  obtain ⟨j, g1, g2, g3, g4⟩ := canon_createUnion h h2
  have hj : j = c := by
    by_cases hj : j = .any
    · have := g3 hj
      simp only [List.mem_map] at this
      obtain ⟨_, _, h⟩ := this
      rw [hj, h]
    · refine canon_ext g1 (hs t ht) fun x => ?_
      rw [g4 hj]
      simp only [List.mem_map]
      constructor
      · rintro ⟨d, ⟨_, _, rfl⟩, hx⟩; exact hx
      · intro hx; exact ⟨c, ⟨t, ht, rfl⟩, hx⟩
  rwa [hj] at g1

theorem noReference_createUnion {ts : List Ty} {u : Ty} (h : createUnion ts = some u)
    (hs : ∀ t ∈ ts, NoReference t) : NoReference u := by
  cases ts with
  | nil => cases h
  | cons t ts =>
    simp only [createUnion, reduce, Option.some.injEq] at h
    subst h
    have : ∀ (ts : List Ty) (t : Ty), NoReference t → (∀ u ∈ ts, NoReference u) →
        NoReference (ts.foldl .union t) := by
      intro ts
      induction ts with
      | nil => intro t h _; exact h
      | cons u ts ih =>
        intro t h h'
        exact ih _ (.union h (h' u (by simp))) fun v hv => h' v (by simp [hv])
    exact this ts t (hs t (by simp)) fun u hu => hs u (by simp [hu])

/-- Members of canonical types are canonical and not unions. -/
theorem Canon.member {t c x : Ty} (h : Canon A t c) (hx : x ∈ unionMembers c) :
    Canon A x x ∧ NotUnion x := by
  obtain ⟨e, h1, h2⟩ := h
  subst h2
  have := (flat_norm h1.noReference).2 x hx
  exact ⟨canon_self this.1 this.2, this.3⟩

theorem typeDifference_ok {n : Nat} {t u c d : Ty} {o : Option Ty} (h : typeDifference n A t u = .ok o)
    (ht : Canon A t c) (hu : Canon A u d) :
    (o = none → d = .any ∨ Sub c d) ∧
    (∀ f, o = some f → d ≠ .any ∧ ((c = .any ∧ f = .any) ∨ (c ≠ .any ∧ ∃ cf, Canon A f cf ∧ cf ≠ .any ∧
      ∀ x, x ∈ unionMembers cf ↔ x ∈ unionMembers c ∧ x ∉ unionMembers d))) := by
  obtain ⟨e, h1, h2⟩ := ht
  obtain ⟨f, h3, h4⟩ := hu
  have h5 := Settles.unique (settles_of_eq (typeDifference_mono A t u) h (by simp))
    (typeDifference_settles h1 h3)
  subst h2; subst h4
  simp only [Res.ok.injEq] at h5
  by_cases hf : Ty.any ∈ atoms f
  · rw [if_pos hf] at h5
    subst h5
    exact ⟨fun _ => Or.inl ((norm_eq_any_iff f).mpr hf), by simp⟩
  · have hf' : Verif.Hir.norm f ≠ .any := fun h => hf ((norm_eq_any_iff f).mp h)
    rw [if_neg hf] at h5
    by_cases he : Ty.any ∈ atoms e
    · rw [if_pos he] at h5
      subst h5
      refine ⟨by simp, ?_⟩
      intro g hg
      cases hg
      exact ⟨hf', Or.inl ⟨(norm_eq_any_iff e).mpr he, rfl⟩⟩
    · have he' : Verif.Hir.norm e ≠ .any := fun h => he ((norm_eq_any_iff e).mp h)
      rw [if_neg he] at h5
      have hmem : ∀ x, x ∈ (btreeSet (atoms e)).filter (fun x => !(btreeSet (atoms f)).contains x) ↔
          x ∈ unionMembers (Verif.Hir.norm e) ∧ x ∉ unionMembers (Verif.Hir.norm f) := by
        intro x
        rw [mem_unionMembers_norm _ he, mem_unionMembers_norm _ hf]
        simp [mem_btreeSet]
      refine ⟨?_, ?_⟩
      · intro ho
        rw [ho] at h5
        have := createUnion_eq_none.mp h5.symm
        right; right
        intro x hx
        by_contra hx'
        have := (hmem x).mpr ⟨hx, hx'⟩
        rw [createUnion_eq_none.mp h5.symm] at this
        cases this
      · intro g hg
        rw [hg] at h5
        refine ⟨hf', Or.inr ⟨he', ?_⟩⟩
        have hatom : ∀ x ∈ (btreeSet (atoms e)).filter (fun x => !(btreeSet (atoms f)).contains x),
            Atomic x := by
          intro x hx
          have := ((hmem x).mp hx).1
          exact (flat_norm h1.noReference).2 x this
        have hnr := noReference_createUnion h5.symm fun x hx => (hatom x hx).1
        have hm := unionMembers_createUnion (fun x hx => (hatom x hx).3) h5.symm
        obtain ⟨j, g1, g2, g3, g4⟩ := canon_createUnion (A := A) h5.symm (cs :=
          (btreeSet (atoms e)).filter (fun x => !(btreeSet (atoms f)).contains x)) (by
            rw [List.forall₂_same]
            intro x hx
            exact canon_self (hatom x hx).1 (hatom x hx).2)
        have hj : j ≠ .any := by
          intro hj
          have := g3 hj
          rw [hmem] at this
          exact he' (any_mem_members ⟨e, h1, rfl⟩ this.1)
        refine ⟨j, g1, hj, ?_⟩
        intro x
        rw [g4 hj, ← hmem]
        constructor
        · rintro ⟨y, hy, hx⟩
          rw [unionMembers_of_notUnion (hatom y hy).3] at hx
          simp only [List.mem_singleton] at hx
          rwa [hx]
        · intro hx
          exact ⟨x, hx, by rw [unionMembers_of_notUnion (hatom x hx).3]; simp⟩

/-! ## Results of the helpers -/

theorem expectFunction_ok {n : Nat} {t : Ty} {p : List Ty × Ty} (h : expectFunction n A t = .ok p) :
    Canon A t (.function p.1 p.2) := by
  unfold expectFunction at h
  obtain ⟨c, h1, h2⟩ := bind_eq_ok.mp h
  cases c <;> simp at h2
  subst h2
  exact .of_ok h1

theorem expectList_ok {n : Nat} {t e : Ty} (h : expectList n A t = .ok e) : Canon A t (.list e) := by
  unfold expectList at h
  obtain ⟨c, h1, h2⟩ := bind_eq_ok.mp h
  cases c <;> simp at h2
  subst h2
  exact .of_ok h1

theorem expectMap_ok {n : Nat} {t : Ty} {p : Ty × Ty} (h : expectMap n A t = .ok p) :
    Canon A t (.map p.1 p.2) := by
  unfold expectMap at h
  obtain ⟨c, h1, h2⟩ := bind_eq_ok.mp h
  cases c <;> simp at h2
  subst h2
  exact .of_ok h1

end Verif.Hir
