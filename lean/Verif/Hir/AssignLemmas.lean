import Verif.Hir.CanonicalizeLemmas

/-! # Equality, subsumption and difference in terms of normal forms -/

namespace Verif.Hir

open Res

theorem equalCanonical_iff {a b : Ty} (ha : NoReference a) : equalCanonical a b = true ↔ a = b := by
  induction ha generalizing b with
  | @function as r _ _ iha ihr =>
    cases b <;> simp [equalCanonical]
    rename_i bs s
    have key : ∀ (as bs : List Ty), (∀ a ∈ as, ∀ {b}, equalCanonical a b = true ↔ a = b) →
        ((as.length = bs.length ∧ equalCanonicals as bs = true) ↔ as = bs) := by
      intro as
      induction as with
      | nil => intro bs _; cases bs <;> simp [equalCanonicals]
      | cons a as ih =>
        intro bs H
        cases bs with
        | nil => simp
        | cons b bs =>
          have := ih bs (fun a ha => H a (by simp [ha]))
          simp only [equalCanonicals, List.length_cons, Nat.add_right_cancel_iff, Bool.and_eq_true,
            H a (by simp), List.cons.injEq, ← this]
          tauto
    rw [ihr, ← key as bs iha]
  | list _ ih => cases b <;> simp [equalCanonical, ih]
  | map _ _ ih1 ih2 => cases b <;> simp [equalCanonical, ih1, ih2]
  | union _ _ ih1 ih2 => cases b <;> simp [equalCanonical, ih1, ih2]
  | _ => cases b <;> simp [equalCanonical]

theorem canonicalize_mono (Γ : Aliases) (t : Ty) (n : Nat) :
    Res.Le (canonicalize n Γ t) (canonicalize (n + 1) Γ t) := (canonicalize_mono_aux Γ n).1 t

theorem canonicalize_settles {Γ : Aliases} {t e : Ty} (h : Expands Γ t e) :
    Settles (fun n => canonicalize n Γ t) (.ok (norm e)) := canonicalize_complete h

theorem canonicalize_ok_iff {Γ : Aliases} {n : Nat} {t c e : Ty} (h : canonicalize n Γ t = .ok c)
    (he : Expands Γ t e) : c = norm e := by
  obtain ⟨e', h1, h2⟩ := canonicalize_sound h
  rw [h2, h1.det he]

theorem equalCheck_mono (Γ : Aliases) (t u : Ty) (n : Nat) :
    Res.Le (equalCheck n Γ t u) (equalCheck (n + 1) Γ t u) :=
  Res.Le.bind (canonicalize_mono Γ t n) fun _ =>
    Res.Le.bind (canonicalize_mono Γ u n) fun _ => Res.Le.refl _

theorem equalCheck_settles {Γ : Aliases} {t u e f : Ty} (ht : Expands Γ t e) (hu : Expands Γ u f) :
    Settles (fun n => equalCheck n Γ t u) (.ok (decide (norm e = norm f))) := by
  refine Settles.bind (canonicalize_settles ht) (Settles.bind (canonicalize_settles hu) ?_)
  have h := equalCanonical_iff (b := norm f) (noReference_norm ht.noReference).1
  have : equalCanonical (norm e) (norm f) = decide (norm e = norm f) := by
    rw [Bool.eq_iff_iff, h]; simp
  rw [this]
  exact Settles.const _

/-- A union member of a canonical type. -/
structure Atomic (x : Ty) : Prop where
  noRef : NoReference x
  fix : norm x = x
  notUnion : NotUnion x

/-- Types all of whose union members are canonical. -/
structure Flat (t : Ty) : Prop where
  noRef : NoReference t
  mem : ∀ x ∈ unionMembers t, Atomic x

theorem Flat.left {l r : Ty} (h : Flat (.union l r)) : Flat l :=
  ⟨by cases h.noRef; assumption, fun x hx => h.mem x (by simp [unionMembers, hx])⟩

theorem Flat.right {l r : Ty} (h : Flat (.union l r)) : Flat r :=
  ⟨by cases h.noRef; assumption, fun x hx => h.mem x (by simp [unionMembers, hx])⟩

theorem Flat.atomic {t : Ty} (h : Flat t) (hu : NotUnion t) : Atomic t := by
  refine h.mem t ?_
  rw [unionMembers_of_notUnion hu]; simp

theorem subsumeCanonical_other {n : Nat} {Γ : Aliases} {t u : Ty} (ha : u ≠ .any) (hu : NotUnion u) :
    subsumeCanonical n Γ t u = equalCheck n Γ t u := by
  rw [subsumeCanonical]
  · exact ha
  · exact hu
  · intro _ _ _ _ _ h; exact hu _ _ h

theorem subsume_atomic {Γ : Aliases} {x : Ty} (hx : Atomic x) : ∀ {u : Ty}, Flat u →
    Settles (fun n => subsumeCanonical n Γ x u)
      (.ok (decide (Ty.any ∈ unionMembers u ∨ x ∈ unionMembers u))) := by
  intro u
  have leaf : ∀ {u}, Flat u → u ≠ .any → NotUnion u → Settles (fun n => subsumeCanonical n Γ x u)
      (.ok (decide (Ty.any ∈ unionMembers u ∨ x ∈ unionMembers u))) := by
    intro u hu hne hn
    have ha := hu.atomic hn
    have h := equalCheck_settles (Γ := Γ) (expands_self hx.noRef) (expands_self ha.noRef)
    rw [hx.fix, ha.fix] at h
    have h2 : (Ty.any ∈ unionMembers u ∨ x ∈ unionMembers u) ↔ x = u := by
      rw [unionMembers_of_notUnion hn]; simp [Ne.symm hne]
    rw [decide_eq_decide.mpr h2]
    exact h.congr fun n => (subsumeCanonical_other hne hn).symm
  induction u using Ty.ind with
  | any => intro _; refine (Settles.const _).congr fun n => ?_; simp [subsumeCanonical, unionMembers]
  | union l r ihl ihr =>
    intro hu
    have h1 := ihl hu.left
    have h2 := ihr hu.right
    have hs : ∀ n, subsumeCanonical n Γ x (.union l r) = (do
        if ← subsumeCanonical n Γ x l then .ok true else subsumeCanonical n Γ x r) := by
      intro n
      cases x <;> first | (exact absurd rfl (hx.notUnion _ _)) | (rw [subsumeCanonical]; intro _ _ h; cases h)
    refine Settles.congr ?_ fun n => (hs n).symm
    refine Settles.bind h1 ?_
    by_cases hl : Ty.any ∈ unionMembers l ∨ x ∈ unionMembers l
    · have : Ty.any ∈ unionMembers (.union l r) ∨ x ∈ unionMembers (.union l r) := by
        simp only [unionMembers, List.mem_append]; tauto
      simp only [hl, decide_true, if_true, this]
      exact Settles.const _
    · have : (Ty.any ∈ unionMembers (.union l r) ∨ x ∈ unionMembers (.union l r)) ↔
          (Ty.any ∈ unionMembers r ∨ x ∈ unionMembers r) := by
        simp only [unionMembers, List.mem_append]; tauto
      simp only [hl, decide_false, this]
      exact h2
  | _ => exact fun hu => leaf hu (by intro h; cases h) (by intro _ _ h; cases h)

theorem subsume_flat {Γ : Aliases} {l' r' : Ty} (hu : Flat (.union l' r')) : ∀ {t : Ty}, Flat t →
    Settles (fun n => subsumeCanonical n Γ t (.union l' r'))
      (.ok (decide (Ty.any ∈ unionMembers (.union l' r') ∨
        ∀ x ∈ unionMembers t, x ∈ unionMembers (.union l' r')))) := by
  intro t
  have leaf : ∀ {t}, Flat t → NotUnion t → Settles (fun n => subsumeCanonical n Γ t (.union l' r'))
      (.ok (decide (Ty.any ∈ unionMembers (.union l' r') ∨
        ∀ x ∈ unionMembers t, x ∈ unionMembers (.union l' r')))) := by
    intro t ht hn
    have := subsume_atomic (Γ := Γ) (ht.atomic hn) hu
    rw [decide_eq_decide.mpr (show (Ty.any ∈ unionMembers (.union l' r') ∨
        ∀ x ∈ unionMembers t, x ∈ unionMembers (.union l' r')) ↔
        (Ty.any ∈ unionMembers (.union l' r') ∨ t ∈ unionMembers (.union l' r')) by
      rw [unionMembers_of_notUnion hn]; simp)]
    exact this
  induction t using Ty.ind with
  | union l r ihl ihr =>
    intro ht
    have h1 := ihl ht.left
    have h2 := ihr ht.right
    have hs : ∀ n, subsumeCanonical n Γ (.union l r) (.union l' r') = (do
        if ← subsumeCanonical n Γ l (.union l' r') then subsumeCanonical n Γ r (.union l' r')
        else .ok false) := by
      intro n; rw [subsumeCanonical]
    refine Settles.congr ?_ fun n => (hs n).symm
    refine Settles.bind h1 ?_
    by_cases hl : Ty.any ∈ unionMembers (.union l' r') ∨
        ∀ x ∈ unionMembers l, x ∈ unionMembers (.union l' r')
    · simp only [hl, decide_true, if_true]
      have : (Ty.any ∈ unionMembers (.union l' r') ∨
          ∀ x ∈ unionMembers (.union l r), x ∈ unionMembers (.union l' r')) ↔
          (Ty.any ∈ unionMembers (.union l' r') ∨
          ∀ x ∈ unionMembers r, x ∈ unionMembers (.union l' r')) := by
        rw [unionMembers.eq_1 l r]
        simp only [List.mem_append]
        constructor
        · rintro (h | h)
          · exact Or.inl h
          · exact Or.inr fun x hx => h x (Or.inr hx)
        · rintro (h | h)
          · exact Or.inl h
          · rcases hl with hl | hl
            · exact Or.inl hl
            · exact Or.inr fun x hx => hx.elim (hl x) (h x)
      rw [decide_eq_decide.mpr this]
      exact h2
    · have : ¬ (Ty.any ∈ unionMembers (.union l' r') ∨
          ∀ x ∈ unionMembers (.union l r), x ∈ unionMembers (.union l' r')) := by
        intro h
        rcases h with h | h
        · exact hl (Or.inl h)
        · refine hl (Or.inr fun x hx => h x ?_)
          rw [unionMembers.eq_1 l r]; simp [hx]
      rw [decide_eq_false hl, decide_eq_false this]
      exact Settles.const _
  | _ => exact fun ht => leaf ht (by intro _ _ h; cases h)

/-- Members of canonical forms. -/
theorem atomic_atoms {t : Ty} (h : NoReference t) : ∀ x ∈ atoms t, Atomic x := by
  have leaf : ∀ {t}, NoReference t → NotUnion t → ∀ x ∈ atoms t, Atomic x := by
    intro t h hu x hx
    rw [atoms_of_notUnion hu] at hx
    simp only [List.mem_singleton] at hx
    subst hx
    exact ⟨(noReference_norm h).1, norm_idem t, norm_notUnion hu⟩
  induction t using Ty.ind with
  | union l r ihl ihr =>
    cases h with
    | union h1 h2 =>
      intro x hx
      rw [atoms_union, List.mem_append] at hx
      rcases hx with hx | hx
      · exact ihl h1 x hx
      · exact ihr h2 x hx
  | _ => exact leaf h (by intro _ _ h; cases h)

theorem mem_unionMembers_norm {t : Ty} (x : Ty) (h : Ty.any ∉ atoms t) :
    x ∈ unionMembers (norm t) ↔ x ∈ atoms t := by
  rw [norm_eq_joinAll, unionMembers_joinAll (atoms_ne_nil t) h (atoms_notUnion t), mem_btreeSet]

theorem norm_eq_any_iff (t : Ty) : norm t = .any ↔ Ty.any ∈ atoms t := by
  constructor
  · intro h
    by_contra h'
    rw [norm_eq_joinAll] at h
    obtain ⟨_, _, _, _, h2⟩ := joinAll_eq (atoms_ne_nil t) h'
    exact h2 h
  · intro h; rw [norm_eq_joinAll, joinAll_any h]

theorem flat_norm {t : Ty} (h : NoReference t) : Flat (norm t) := by
  refine ⟨(noReference_norm h).1, ?_⟩
  by_cases h1 : Ty.any ∈ atoms t
  · rw [(norm_eq_any_iff t).mpr h1]
    intro x hx
    simp [unionMembers] at hx
    subst hx
    exact ⟨.any, by simp, by intro _ _ h; cases h⟩
  · intro x hx
    exact atomic_atoms h x ((mem_unionMembers_norm x h1).mp hx)

/-- Inclusion of members. -/
def SubAtoms (e f : Ty) : Prop := Ty.any ∈ atoms f ∨ ∀ x ∈ atoms e, x ∈ atoms f

instance (e f : Ty) : Decidable (SubAtoms e f) := by unfold SubAtoms; infer_instance

theorem subAtoms_iff (e f : Ty) : SubAtoms e f ↔ AtomsEq (atoms (.union e f)) (atoms f) := by
  unfold SubAtoms AtomsEq
  simp only [atoms_union, List.mem_append]
  constructor
  · rintro (h | h)
    · exact Or.inl ⟨Or.inr h, h⟩
    · exact Or.inr fun x => ⟨fun hx => hx.elim (h x) id, Or.inr⟩
  · rintro (⟨_, h⟩ | h)
    · exact Or.inl h
    · exact Or.inr fun x hx => (h x).mp (Or.inl hx)

theorem subsumeCheck_settles {Γ : Aliases} {t u e f : Ty} (ht : Expands Γ t e) (hu : Expands Γ u f) :
    Settles (fun n => subsumeCheck n Γ t u) (.ok (decide (SubAtoms e f))) := by
  refine Settles.bind (canonicalize_settles ht) (Settles.bind (canonicalize_settles hu) ?_)
  have fe := flat_norm ht.noReference
  have ff := flat_norm hu.noReference
  by_cases ha : Ty.any ∈ atoms f
  · have h1 : SubAtoms e f := Or.inl ha
    rw [(norm_eq_any_iff f).mpr ha, decide_eq_true h1]
    exact (Settles.const _).congr fun n => by rw [subsumeCanonical]
  · have hfa : norm f ≠ .any := fun h => ha ((norm_eq_any_iff f).mp h)
    by_cases hne : NotUnion (norm e)
    · -- a single member
      have h := subsume_atomic (Γ := Γ) (fe.atomic hne) ff
      have hmem : ∀ x, x ∈ unionMembers (norm f) ↔ x ∈ atoms f := fun x => mem_unionMembers_norm x ha
      have : (Ty.any ∈ unionMembers (norm f) ∨ norm e ∈ unionMembers (norm f)) ↔ SubAtoms e f := by
        simp only [hmem, ha, false_or, SubAtoms]
        by_cases hea : Ty.any ∈ atoms e
        · rw [(norm_eq_any_iff e).mpr hea]
          exact ⟨fun h => absurd h ha, fun h => h _ hea⟩
        · have : ∀ x, x ∈ atoms e ↔ x = norm e := fun x => by
            rw [← mem_unionMembers_norm x hea, unionMembers_of_notUnion hne]; simp
          simp [this]
      rw [decide_eq_decide.mpr this] at h
      exact h
    · have hea : Ty.any ∉ atoms e := by
        intro h
        rw [(norm_eq_any_iff e).mpr h] at hne
        exact hne (by intro _ _ h; cases h)
      by_cases hnf : NotUnion (norm f)
      · -- a union into a single member
        have hneq : norm e ≠ norm f := by intro h; rw [h] at hne; exact hne hnf
        have hS : ¬ SubAtoms e f := by
          intro h
          have hf : ∀ x, x ∈ atoms f ↔ x = norm f := fun x => by
            rw [← mem_unionMembers_norm x ha, unionMembers_of_notUnion hnf]; simp
          have h1 : ∀ x ∈ atoms e, x = norm f := fun x hx => (hf x).mp (h.resolve_left ha x hx)
          apply hneq
          rw [norm_eq_iff]
          right
          intro x
          constructor
          · exact h.resolve_left ha x
          · intro hx
            obtain ⟨y, hy⟩ := List.exists_mem_of_ne_nil _ (atoms_ne_nil e)
            rw [(hf x).mp hx, ← h1 y hy]; exact hy
        rw [decide_eq_false hS]
        have h := equalCheck_settles (Γ := Γ) (expands_self fe.noRef) (expands_self ff.noRef)
        rw [norm_idem, norm_idem, decide_eq_false hneq] at h
        refine h.congr fun n => ?_
        have h1 : ∃ l r, norm e = .union l r := by
          by_contra h'; exact hne fun l r h'' => h' ⟨l, r, h''⟩
        obtain ⟨l, r, h1⟩ := h1
        rw [h1]
        generalize norm f = g at hnf hfa
        cases g <;> first | (exact absurd rfl (hnf _ _)) | (exact absurd rfl hfa) | (rw [subsumeCanonical] <;> simp)
      · have h1 : ∃ l r, norm f = .union l r := by
          by_contra h'; exact hnf fun l r h'' => h' ⟨l, r, h''⟩
        obtain ⟨l, r, h1⟩ := h1
        rw [h1] at ff
        have h := subsume_flat (Γ := Γ) ff fe
        rw [← h1] at h
        have : (Ty.any ∈ unionMembers (norm f) ∨ ∀ x ∈ unionMembers (norm e), x ∈ unionMembers (norm f))
            ↔ SubAtoms e f := by
          simp only [SubAtoms, mem_unionMembers_norm _ ha, mem_unionMembers_norm _ hea]
        rw [decide_eq_decide.mpr this] at h
        exact h

theorem SubAtoms.trans {e f g : Ty} (h1 : SubAtoms e f) (h2 : SubAtoms f g) : SubAtoms e g := by
  rcases h2 with h2 | h2
  · exact Or.inl h2
  · rcases h1 with h1 | h1
    · exact Or.inl (h2 _ h1)
    · exact Or.inr fun x hx => h2 x (h1 x hx)

theorem subAtoms_of_assignable {e f : Ty} (h : Assignable e f) : SubAtoms e f := by
  induction h with
  | eq h =>
    rcases (norm_eq_iff _ _).mp (norm_of_tyEq h) with ⟨_, h⟩ | h
    · exact Or.inl h
    · exact Or.inr fun x hx => (h x).mp hx
  | trans _ _ ih1 ih2 => exact ih1.trans ih2
  | top t => left; simp [atoms, nc]
  | left l r => right; intro x hx; simp [hx]
  | right l r => right; intro x hx; simp [hx]
  | join _ _ ih1 ih2 =>
    rcases ih1 with h | h1
    · exact Or.inl h
    · rcases ih2 with h | h2
      · exact Or.inl h
      · right; intro x hx; rw [atoms_union, List.mem_append] at hx; exact hx.elim (h1 x) (h2 x)

theorem assignable_of_subAtoms {e f : Ty} (h : SubAtoms e f) : Assignable e f := by
  have h1 := (tyEq_iff_norm (.union e f) f).mpr ((norm_eq_iff _ _).mpr ((subAtoms_iff e f).mp h))
  exact .trans (.left e f) (.eq h1)

theorem assignable_iff (e f : Ty) : Assignable e f ↔ SubAtoms e f :=
  ⟨subAtoms_of_assignable, assignable_of_subAtoms⟩

theorem subsumeCanonical_mono (Γ : Aliases) (n : Nat) : ∀ k t u, sizeOf t + sizeOf u ≤ k →
    Res.Le (subsumeCanonical n Γ t u) (subsumeCanonical (n + 1) Γ t u) := by
  intro k
  induction k with
  | zero => intro t u h; cases t <;> simp at h
  | succ k ih =>
    intro t u h
    have other : NotUnion u → Res.Le (subsumeCanonical n Γ t u) (subsumeCanonical (n + 1) Γ t u) := by
      intro hu
      by_cases ha : u = .any
      · subst ha; simp only [subsumeCanonical]; exact Res.Le.refl _
      · have : ∀ n, subsumeCanonical n Γ t u = equalCheck n Γ t u := by
          exact fun n => subsumeCanonical_other ha hu
        rw [this, this]
        exact equalCheck_mono Γ t u n
    cases u with
    | union l' r' =>
      simp only [Ty.union.sizeOf_spec] at h
      cases t with
      | union l r =>
        simp only [Ty.union.sizeOf_spec] at h
        simp only [subsumeCanonical]
        refine Res.Le.bind (ih _ _ (by simp; omega)) fun b => ?_
        cases b
        · exact Res.Le.refl _
        · exact ih _ _ (by simp; omega)
      | _ =>
        rw [subsumeCanonical, subsumeCanonical]
        · refine Res.Le.bind (ih _ _ (by omega)) fun b => ?_
          cases b
          · exact ih _ _ (by omega)
          · exact Res.Le.refl _
        all_goals (intro _ _ h; cases h)
    | _ => exact other (by intro _ _ h; cases h)

theorem subsumeCheck_mono (Γ : Aliases) (t u : Ty) (n : Nat) :
    Res.Le (subsumeCheck n Γ t u) (subsumeCheck (n + 1) Γ t u) :=
  Res.Le.bind (canonicalize_mono Γ t n) fun _ => Res.Le.bind (canonicalize_mono Γ u n) fun _ =>
    subsumeCanonical_mono Γ n _ _ _ (le_refl _)

end Verif.Hir
