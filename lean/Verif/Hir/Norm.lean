import Verif.Hir.Analysis
import Verif.Hir.TypeSpec

/-!
# Normal forms of reference-free types

`canonicalize` is factored as alias expansion followed by the total function `norm`.
-/

namespace Verif.Hir

/-! ## `BTreeSet` -/

theorem mem_btreeInsert (t x : Ty) (s : List Ty) : x ∈ btreeInsert t s ↔ x = t ∨ x ∈ s := by
  induction s with
  | nil => simp [btreeInsert]
  | cons u us ih =>
    unfold btreeInsert
    split
    · simp
    · split
      · rename_i h; subst h; simp
      · simp [ih]; tauto

theorem sorted_btreeInsert (t : Ty) (s : List Ty) (h : s.Pairwise (· < ·)) :
    (btreeInsert t s).Pairwise (· < ·) := by
  induction s with
  | nil => simp [btreeInsert]
  | cons u us ih =>
    unfold btreeInsert
    rw [List.pairwise_cons] at h
    split
    · rename_i hlt
      refine List.pairwise_cons.mpr ⟨?_, List.pairwise_cons.mpr h⟩
      intro x hx
      rcases List.mem_cons.mp hx with rfl | hx
      · exact hlt
      · exact lt_trans hlt (h.1 x hx)
    · split
      · exact List.pairwise_cons.mpr h
      · rename_i h1 h2
        refine List.pairwise_cons.mpr ⟨?_, ih h.2⟩
        intro x hx
        rcases (mem_btreeInsert _ _ _).mp hx with rfl | hx
        · exact lt_of_le_of_ne (not_lt.mp h1) (Ne.symm h2)
        · exact h.1 x hx

theorem foldl_btreeInsert (ts : List Ty) : ∀ s : List Ty, s.Pairwise (· < ·) →
    (ts.foldl (fun s t => btreeInsert t s) s).Pairwise (· < ·) ∧
    ∀ x, x ∈ ts.foldl (fun s t => btreeInsert t s) s ↔ x ∈ ts ∨ x ∈ s := by
  induction ts with
  | nil => intro s h; simp [h]
  | cons t ts ih =>
    intro s h
    obtain ⟨h1, h2⟩ := ih (btreeInsert t s) (sorted_btreeInsert t s h)
    refine ⟨h1, fun x => ?_⟩
    rw [List.foldl_cons, h2, mem_btreeInsert, List.mem_cons]
    tauto

theorem sorted_btreeSet (ts : List Ty) : (btreeSet ts).Pairwise (· < ·) :=
  (foldl_btreeInsert ts [] List.Pairwise.nil).1

theorem mem_btreeSet (ts : List Ty) (x : Ty) : x ∈ btreeSet ts ↔ x ∈ ts := by
  have := (foldl_btreeInsert ts [] List.Pairwise.nil).2 x
  simpa [btreeSet] using this

theorem sorted_ext : ∀ {s t : List Ty}, s.Pairwise (· < ·) → t.Pairwise (· < ·) →
    (∀ x, x ∈ s ↔ x ∈ t) → s = t
  | [], [], _, _, _ => rfl
  | [], b :: t, _, _, h => by have := (h b).mpr (by simp); simp at this
  | a :: s, [], _, _, h => by have := (h a).mp (by simp); simp at this
  | a :: s, b :: t, hs, ht, h => by
    rw [List.pairwise_cons] at hs ht
    have hab : a = b := by
      rcases lt_trichotomy a b with hlt | heq | hgt
      · rcases List.mem_cons.mp ((h a).mp (by simp)) with h1 | h1
        · exact h1
        · exact absurd (ht.1 a h1) (not_lt.mpr hlt.le)
      · exact heq
      · rcases List.mem_cons.mp ((h b).mpr (by simp)) with h1 | h1
        · exact h1.symm
        · exact absurd (hs.1 b h1) (not_lt.mpr hgt.le)
    subst hab
    rw [sorted_ext hs.2 ht.2]
    intro x
    constructor
    · intro hx
      rcases List.mem_cons.mp ((h x).mp (by simp [hx])) with h1 | h1
      · exact absurd (hs.1 x hx) (by rw [h1]; exact lt_irrefl _)
      · exact h1
    · intro hx
      rcases List.mem_cons.mp ((h x).mpr (by simp [hx])) with h1 | h1
      · exact absurd (ht.1 x hx) (by rw [h1]; exact lt_irrefl _)
      · exact h1

theorem btreeSet_congr {a b : List Ty} (h : ∀ x, x ∈ a ↔ x ∈ b) : btreeSet a = btreeSet b :=
  sorted_ext (sorted_btreeSet a) (sorted_btreeSet b) fun x => by rw [mem_btreeSet, mem_btreeSet, h]

theorem btreeSet_of_sorted {a : List Ty} (h : a.Pairwise (· < ·)) : btreeSet a = a :=
  sorted_ext (sorted_btreeSet a) h fun x => mem_btreeSet a x

theorem btreeSet_append (a b : List Ty) :
    b.foldl (fun s t => btreeInsert t s) (btreeSet a) = btreeSet (a ++ b) := by
  simp [btreeSet, List.foldl_append]

/-! ## Reduction -/

/-- The canonical union of a non-empty list of members. -/
def joinAll (ts : List Ty) : Ty := (reduce mergeAny (btreeSet ts)).getD .any

theorem foldl_mergeAny_any (ts : List Ty) : ts.foldl mergeAny .any = .any := by
  induction ts with
  | nil => rfl
  | cons t ts ih => simpa [mergeAny] using ih

theorem foldl_mergeAny_of_mem (ts : List Ty) : ∀ t, Ty.any ∈ ts → ts.foldl mergeAny t = .any := by
  induction ts with
  | nil => simp
  | cons u us ih =>
    intro t h
    rcases List.mem_cons.mp h with h | h
    · subst h
      have : mergeAny t .any = .any := by unfold mergeAny; split <;> simp_all
      rw [List.foldl_cons, this, foldl_mergeAny_any]
    · exact ih _ h

theorem foldl_mergeAny_of_not_mem (ts : List Ty) : ∀ t, t ≠ .any → Ty.any ∉ ts →
    ts.foldl mergeAny t = ts.foldl .union t := by
  induction ts with
  | nil => intros; rfl
  | cons u us ih =>
    intro t ht h
    simp only [List.mem_cons, not_or] at h
    have : mergeAny t u = .union t u := by
      unfold mergeAny; rw [if_neg ht, if_neg (Ne.symm h.1)]
    rw [List.foldl_cons, List.foldl_cons, this]
    exact ih _ (by simp) h.2

theorem unionMembers_foldl (ts : List Ty) : ∀ t,
    unionMembers (ts.foldl .union t) = unionMembers t ++ ts.flatMap unionMembers := by
  induction ts with
  | nil => simp
  | cons u us ih => intro t; rw [List.foldl_cons, ih]; simp [unionMembers]

def NotUnion (t : Ty) : Prop := ∀ l r, t ≠ .union l r

theorem unionMembers_of_notUnion {t : Ty} (h : NotUnion t) : unionMembers t = [t] := by
  cases t <;> simp [unionMembers]
  exact absurd rfl (h _ _)

theorem flatMap_unionMembers {ts : List Ty} (h : ∀ t ∈ ts, NotUnion t) :
    ts.flatMap unionMembers = ts := by
  induction ts with
  | nil => rfl
  | cons t ts ih =>
    rw [List.flatMap_cons, unionMembers_of_notUnion (h t (by simp)),
      ih (fun t ht => h t (by simp [ht]))]
    rfl

theorem btreeSet_ne_nil {ts : List Ty} (h : ts ≠ []) : btreeSet ts ≠ [] := by
  intro h'
  cases ts with
  | nil => exact h rfl
  | cons t ts =>
    have := (mem_btreeSet (t :: ts) t).mpr (by simp)
    rw [h'] at this
    simp at this

theorem joinAll_any {ts : List Ty} (h : Ty.any ∈ ts) : joinAll ts = .any := by
  unfold joinAll
  have h2 := (mem_btreeSet ts .any).mpr h
  cases hb : btreeSet ts with
  | nil => rw [hb] at h2; simp at h2
  | cons a as =>
    rw [hb] at h2
    simp only [reduce, Option.getD_some]
    rcases List.mem_cons.mp h2 with h3 | h3
    · subst h3; exact foldl_mergeAny_any _
    · exact foldl_mergeAny_of_mem _ _ h3

theorem joinAll_eq {ts : List Ty} (h0 : ts ≠ []) (h : Ty.any ∉ ts) :
    ∃ a as, btreeSet ts = a :: as ∧ joinAll ts = as.foldl .union a ∧ joinAll ts ≠ .any := by
  cases hb : btreeSet ts with
  | nil => exact absurd hb (btreeSet_ne_nil h0)
  | cons a as =>
    have hm : ∀ x, x ∈ a :: as ↔ x ∈ ts := fun x => by rw [← hb]; exact mem_btreeSet ts x
    have ha : a ≠ .any := by
      intro e; exact h ((hm .any).mp (by simp [e]))
    have has : Ty.any ∉ as := fun e => h ((hm .any).mp (by simp [e]))
    have h1 : joinAll ts = as.foldl .union a := by
      unfold joinAll
      rw [hb]
      simpa [reduce] using foldl_mergeAny_of_not_mem as a ha has
    refine ⟨a, as, rfl, h1, ?_⟩
    rw [h1]
    clear h1 hm hb has
    induction as generalizing a with
    | nil => exact ha
    | cons b bs ih => exact ih _ (by simp)

theorem unionMembers_joinAll {ts : List Ty} (h0 : ts ≠ []) (h : Ty.any ∉ ts)
    (hu : ∀ t ∈ ts, NotUnion t) : unionMembers (joinAll ts) = btreeSet ts := by
  obtain ⟨a, as, h1, h2, _⟩ := joinAll_eq h0 h
  have hm : ∀ x, x ∈ a :: as → NotUnion x := fun x hx => by
    rw [← h1] at hx; exact hu x ((mem_btreeSet ts x).mp hx)
  rw [h2, h1, unionMembers_foldl, unionMembers_of_notUnion (hm a (by simp)),
    flatMap_unionMembers (fun t ht => hm t (by simp [ht]))]
  rfl

/-! ## Normal form -/

mutual
/-- Normal form together with the list of normal forms of the union members. -/
def nc : Ty → Ty × List Ty
  | .function as r => let c := .function (ncs as) (nc r).1; (c, [c])
  | .list e => let c := .list (nc e).1; (c, [c])
  | .map k v => let c := .map (nc k).1 (nc v).1; (c, [c])
  | .union l r => let ms := (nc l).2 ++ (nc r).2; (joinAll ms, ms)
  | .any => (.any, [.any])
  | .boolean => (.boolean, [.boolean])
  | .error => (.error, [.error])
  | .none => (.none, [.none])
  | .number => (.number, [.number])
  | .record n => (.record n, [.record n])
  | .reference n => (.reference n, [.reference n])
  | .string => (.string, [.string])
def ncs : List Ty → List Ty
  | [] => []
  | a :: as => (nc a).1 :: ncs as
end

def norm (t : Ty) : Ty := (nc t).1
def atoms (t : Ty) : List Ty := (nc t).2

theorem ncs_eq (as : List Ty) : ncs as = as.map norm := by
  induction as with
  | nil => rfl
  | cons a as ih => simp [ncs, norm, ih]

@[simp] theorem norm_function (as r) : norm (.function as r) = .function (as.map norm) (norm r) := by
  simp [norm, nc, ncs_eq]
@[simp] theorem norm_list (e) : norm (.list e) = .list (norm e) := by simp [norm, nc]
@[simp] theorem norm_map (k v) : norm (.map k v) = .map (norm k) (norm v) := by simp [norm, nc]
theorem norm_union (l r) : norm (.union l r) = joinAll (atoms l ++ atoms r) := by
  simp [norm, nc, atoms]
@[simp] theorem norm_any : norm .any = .any := by simp [norm, nc]
@[simp] theorem norm_boolean : norm .boolean = .boolean := by simp [norm, nc]
@[simp] theorem norm_error : norm .error = .error := by simp [norm, nc]
@[simp] theorem norm_none : norm .none = .none := by simp [norm, nc]
@[simp] theorem norm_number : norm .number = .number := by simp [norm, nc]
@[simp] theorem norm_string : norm .string = .string := by simp [norm, nc]
@[simp] theorem norm_record (n) : norm (.record n) = .record n := by simp [norm, nc]
@[simp] theorem norm_reference (n) : norm (.reference n) = .reference n := by simp [norm, nc]
@[simp] theorem atoms_union (l r) : atoms (.union l r) = atoms l ++ atoms r := by simp [atoms, nc]

theorem atoms_of_notUnion {t : Ty} (h : NotUnion t) : atoms t = [norm t] := by
  cases t <;> first | exact absurd rfl (h _ _) | simp [atoms, norm, nc]

theorem norm_notUnion {t : Ty} (h : NotUnion t) : NotUnion (norm t) := by
  intro l r
  cases t <;> first | exact absurd rfl (h _ _) | simp

theorem atoms_ne_nil (t : Ty) : atoms t ≠ [] := by
  induction t using Ty.ind with
  | union l r ihl ihr => simp [ihl]
  | _ => rw [atoms_of_notUnion (by intro l r h; cases h)]; simp

theorem atoms_notUnion (t : Ty) : ∀ x ∈ atoms t, NotUnion x := by
  induction t using Ty.ind with
  | union l r ihl ihr =>
    intro x hx
    simp only [atoms_union, List.mem_append] at hx
    rcases hx with hx | hx
    · exact ihl x hx
    · exact ihr x hx
  | _ =>
    intro x hx
    rw [atoms_of_notUnion (by intro l r h; cases h)] at hx
    simp only [List.mem_singleton] at hx
    subst hx
    exact norm_notUnion (by intro l r h; cases h)

theorem joinAll_singleton (t : Ty) : joinAll [t] = t := by
  simp [joinAll, btreeSet, btreeInsert, reduce]

/-- The normal form depends only on the member list. -/
theorem norm_eq_joinAll (t : Ty) : norm t = joinAll (atoms t) := by
  by_cases h : NotUnion t
  · rw [atoms_of_notUnion h, joinAll_singleton]
  · cases t <;> first | (rw [norm_union, atoms_union]) | (exact absurd (by intro l r h; cases h) h)

/-- Two member lists denote the same union. -/
def AtomsEq (a b : List Ty) : Prop := (Ty.any ∈ a ∧ Ty.any ∈ b) ∨ ∀ x, x ∈ a ↔ x ∈ b

theorem joinAll_congr {a b : List Ty} (h : AtomsEq a b) : joinAll a = joinAll b := by
  rcases h with ⟨h1, h2⟩ | h
  · rw [joinAll_any h1, joinAll_any h2]
  · unfold joinAll; rw [btreeSet_congr h]

theorem atomsEq_of_joinAll {a b : List Ty} (ha : a ≠ []) (hb : b ≠ []) (hau : ∀ t ∈ a, NotUnion t)
    (hbu : ∀ t ∈ b, NotUnion t) (h : joinAll a = joinAll b) : AtomsEq a b := by
  by_cases h1 : Ty.any ∈ a
  · by_cases h2 : Ty.any ∈ b
    · exact Or.inl ⟨h1, h2⟩
    · obtain ⟨_, _, _, _, h3⟩ := joinAll_eq hb h2
      rw [joinAll_any h1] at h
      exact absurd h.symm h3
  · by_cases h2 : Ty.any ∈ b
    · obtain ⟨_, _, _, _, h3⟩ := joinAll_eq ha h1
      rw [joinAll_any h2] at h
      exact absurd h h3
    · right
      intro x
      rw [← mem_btreeSet a, ← mem_btreeSet b, ← unionMembers_joinAll ha h1 hau,
        ← unionMembers_joinAll hb h2 hbu, h]

theorem norm_eq_iff (t u : Ty) : norm t = norm u ↔ AtomsEq (atoms t) (atoms u) := by
  rw [norm_eq_joinAll, norm_eq_joinAll]
  exact ⟨atomsEq_of_joinAll (atoms_ne_nil t) (atoms_ne_nil u) (atoms_notUnion t) (atoms_notUnion u),
    joinAll_congr⟩

theorem AtomsEq.append {a b c d : List Ty} (h1 : AtomsEq a b) (h2 : AtomsEq c d) :
    AtomsEq (a ++ c) (b ++ d) := by
  rcases h1 with ⟨h1, h1'⟩ | h1
  · left; simp [h1, h1']
  · rcases h2 with ⟨h2, h2'⟩ | h2
    · left; simp [h2, h2']
    · right; intro x; simp [h1, h2]

/-! ## Soundness and completeness of the normal form -/

theorem norm_of_tyEq {t u : Ty} (h : TyEq t u) : norm t = norm u := by
  induction h with
  | refl t => rfl
  | symm _ ih => exact ih.symm
  | trans _ _ ih1 ih2 => exact ih1.trans ih2
  | comm t u =>
    rw [norm_eq_iff]; right; intro x; simp; tauto
  | assoc t u v =>
    rw [norm_eq_iff]; right; intro x; simp
  | idem t =>
    rw [norm_eq_iff]; right; intro x; simp
  | absorb t =>
    rw [norm_eq_iff]; left; simp [atoms, nc]
  | congUnion _ _ ih1 ih2 =>
    rw [norm_eq_iff] at *
    simp only [atoms_union]
    exact ih1.append ih2
  | congList _ ih => simp [ih]
  | congMap _ _ ih1 ih2 => simp [ih1, ih2]
  | congResult _ ih => simp [ih]
  | congArg _ ih => simp [ih]

theorem TyEq.args {r : Ty} : ∀ (as bs xs : List Ty), List.Forall₂ TyEq as bs →
    TyEq (.function (xs ++ as) r) (.function (xs ++ bs) r)
  | [], _, xs, h => by cases h; exact TyEq.refl _
  | a :: as, _, xs, .cons (b := b) (l₂ := bs) h1 h2 => by
    refine TyEq.trans (TyEq.congArg h1) ?_
    have := TyEq.args (r := r) as bs (xs ++ [b]) h2
    simpa using this

/-- Right-nested union of a list, used only to re-associate. -/
def unionOf : Ty → List Ty → Ty
  | t, [] => t
  | t, u :: us => .union t (unionOf u us)

theorem tyEq_unionOf_append (us : List Ty) : ∀ (t u : Ty) (vs : List Ty),
    TyEq (.union (unionOf t us) (unionOf u vs)) (unionOf t (us ++ u :: vs)) := by
  induction us with
  | nil => intro t u vs; exact TyEq.refl _
  | cons w us ih =>
    intro t u vs
    refine TyEq.trans (TyEq.assoc _ _ _) ?_
    exact TyEq.congUnion (TyEq.refl _) (ih w u vs)

theorem assignable_unionOf_mem {x : Ty} : ∀ {t : Ty} {us : List Ty}, x ∈ t :: us →
    Assignable x (unionOf t us)
  | t, [], h => by simp at h; subst h; exact .eq (.refl _)
  | t, u :: us, h => by
    rcases List.mem_cons.mp h with h | h
    · subst h; exact .left _ _
    · exact .trans (assignable_unionOf_mem h) (.right _ _)

/-- Absorbing a member that is already there. -/
theorem tyEq_unionOf_absorb {x : Ty} : ∀ {t : Ty} {us : List Ty}, x ∈ t :: us →
    TyEq (.union x (unionOf t us)) (unionOf t us)
  | t, [], h => by simp at h; subst h; exact TyEq.idem _
  | t, u :: us, h => by
    rcases List.mem_cons.mp h with h | h
    · subst h
      exact TyEq.trans (TyEq.symm (TyEq.assoc _ _ _)) (TyEq.congUnion (TyEq.idem _) (TyEq.refl _))
    · have ih := tyEq_unionOf_absorb h
      refine TyEq.trans (TyEq.symm (TyEq.assoc _ _ _)) ?_
      refine TyEq.trans (TyEq.congUnion (TyEq.comm _ _) (TyEq.refl _)) ?_
      refine TyEq.trans (TyEq.assoc _ _ _) ?_
      exact TyEq.congUnion (TyEq.refl _) ih

theorem tyEq_unionOf_subset : ∀ (us : List Ty) (s t : Ty) (vs : List Ty),
    (∀ x ∈ s :: us, x ∈ t :: vs) → TyEq (.union (unionOf s us) (unionOf t vs)) (unionOf t vs)
  | [], s, t, vs, h => tyEq_unionOf_absorb (h s (by simp))
  | u :: us, s, t, vs, h => by
    refine TyEq.trans (TyEq.assoc _ _ _) ?_
    refine TyEq.trans (TyEq.congUnion (TyEq.refl _)
      (tyEq_unionOf_subset us u t vs (fun x hx => h x (by simp [hx])))) ?_
    exact tyEq_unionOf_absorb (h s (by simp))

theorem tyEq_unionOf_ext {s t : Ty} {us vs : List Ty} (h : ∀ x, x ∈ s :: us ↔ x ∈ t :: vs) :
    TyEq (unionOf s us) (unionOf t vs) := by
  have h1 := tyEq_unionOf_subset us s t vs (fun x hx => (h x).mp hx)
  have h2 := tyEq_unionOf_subset vs t s us (fun x hx => (h x).mpr hx)
  exact TyEq.trans (TyEq.symm h2) (TyEq.trans (TyEq.comm _ _) h1)

theorem tyEq_foldl_union : ∀ (us : List Ty) (t : Ty), TyEq (us.foldl .union t) (unionOf t us)
  | [], t => TyEq.refl _
  | u :: us, t => by
    refine TyEq.trans (tyEq_foldl_union us (.union t u)) ?_
    cases us with
    | nil => exact TyEq.refl _
    | cons v vs => exact TyEq.assoc _ _ _

theorem tyEq_unionOf_any {t : Ty} {us : List Ty} (h : Ty.any ∈ t :: us) : TyEq (unionOf t us) .any :=
  TyEq.trans (TyEq.symm (tyEq_unionOf_absorb h)) (TyEq.absorb _)

theorem tyEq_joinAll {a : Ty} {as : List Ty} : TyEq (joinAll (a :: as)) (unionOf a as) := by
  by_cases h : Ty.any ∈ a :: as
  · rw [joinAll_any h]
    exact TyEq.symm (tyEq_unionOf_any h)
  · obtain ⟨b, bs, h1, h2, _⟩ := joinAll_eq (by simp) h
    rw [h2]
    refine TyEq.trans (tyEq_foldl_union bs b) (tyEq_unionOf_ext fun x => ?_)
    rw [← h1, mem_btreeSet]

theorem tyEq_norm (t : Ty) : TyEq (norm t) t := by
  have key : ∀ t, TyEq (norm t) t ∧ ∃ a as, atoms t = a :: as ∧ TyEq (unionOf a as) t := by
    intro t
    induction t using Ty.ind with
    | union l r ihl ihr =>
      obtain ⟨_, a, as, h1, h2⟩ := ihl
      obtain ⟨_, b, bs, h3, h4⟩ := ihr
      have h5 : TyEq (unionOf a (as ++ b :: bs)) (.union l r) :=
        TyEq.trans (TyEq.symm (tyEq_unionOf_append as a b bs)) (TyEq.congUnion h2 h4)
      refine ⟨?_, a, as ++ b :: bs, by simp [h1, h3], h5⟩
      rw [norm_union, h1, h3, List.cons_append]
      exact TyEq.trans tyEq_joinAll h5
    | function as r iha ihr =>
      have h : TyEq (norm (.function as r)) (.function as r) := by
        rw [norm_function]
        refine TyEq.trans (TyEq.congResult ihr.1) ?_
        have := TyEq.args (r := r) (as.map norm) as [] (by
          rw [List.forall₂_map_left_iff]
          exact List.forall₂_same.mpr fun a ha => (iha a ha).1)
        simpa using this
      exact ⟨h, _, [], atoms_of_notUnion (by intro l r h; cases h), h⟩
    | list e ih =>
      have h : TyEq (norm (.list e)) (.list e) := by rw [norm_list]; exact TyEq.congList ih.1
      exact ⟨h, _, [], atoms_of_notUnion (by intro l r h; cases h), h⟩
    | map k v ihk ihv =>
      have h : TyEq (norm (.map k v)) (.map k v) := by
        rw [norm_map]; exact TyEq.congMap ihk.1 ihv.1
      exact ⟨h, _, [], atoms_of_notUnion (by intro l r h; cases h), h⟩
    | _ => simp [atoms, nc, unionOf]; exact TyEq.refl _
  exact (key t).1

/-- The normal form decides type equality. -/
theorem tyEq_iff_norm (t u : Ty) : TyEq t u ↔ norm t = norm u :=
  ⟨norm_of_tyEq, fun h => TyEq.trans (TyEq.symm (tyEq_norm t)) (h ▸ tyEq_norm u)⟩

theorem norm_idem (t : Ty) : norm (norm t) = norm t := norm_of_tyEq (tyEq_norm t)

end Verif.Hir
