import Verif.Doc.Model

/-
The order of modules in documentation.
-/

namespace Verif.Doc

open Verif.Grammar
open Verif.Front (isNamePublic)

theorem nameLt_irrefl : ∀ a : Name, nameLt a a = false
  | [] => rfl
  | a :: as => by simp [nameLt, nameLt_irrefl as]

theorem nameLt_trans : ∀ {a b c : Name}, nameLt a b = true → nameLt b c = true → nameLt a c = true
  | _, _, [], _, h => by simp [nameLt] at h
  | _, [], _ :: _, h, _ => by simp [nameLt] at h
  | [], _ :: _, _ :: _, _, _ => rfl
  | a :: as, b :: bs, c :: cs, h, h' => by
    simp only [nameLt, Bool.or_eq_true, decide_eq_true_eq, Bool.and_eq_true, beq_iff_eq] at h h' ⊢
    rcases h with h | ⟨rfl, h⟩ <;> rcases h' with h' | ⟨rfl, h'⟩
    · left; omega
    · exact .inl h
    · exact .inl h'
    · exact .inr ⟨rfl, nameLt_trans h h'⟩

theorem nameLt_total : ∀ a b : Name, nameLt a b = true ∨ a = b ∨ nameLt b a = true
  | [], [] => .inr (.inl rfl)
  | [], _ :: _ => .inl rfl
  | _ :: _, [] => .inr (.inr rfl)
  | a :: as, b :: bs => by
    simp only [nameLt, Bool.or_eq_true, decide_eq_true_eq, Bool.and_eq_true, beq_iff_eq, List.cons.injEq]
    rcases Nat.lt_trichotomy a.toNat b.toNat with h | h | h
    · exact .inl (.inl h)
    · have h := Char.toNat_inj.mp h
      subst h
      rcases nameLt_total as bs with h | h | h
      · exact .inl (.inr ⟨rfl, h⟩)
      · exact .inr (.inl ⟨rfl, h⟩)
      · exact .inr (.inr (.inr ⟨rfl, h⟩))
    · exact .inr (.inr (.inl h))

theorem pathLt_irrefl : ∀ a : List Name, pathLt a a = false
  | [] => rfl
  | a :: as => by simp [pathLt, nameLt_irrefl, pathLt_irrefl as]

theorem pathLt_trans : ∀ {a b c : List Name}, pathLt a b = true → pathLt b c = true → pathLt a c = true
  | _, _, [], _, h => by simp [pathLt] at h
  | _, [], _ :: _, h, _ => by simp [pathLt] at h
  | [], _ :: _, _ :: _, _, _ => rfl
  | a :: as, b :: bs, c :: cs, h, h' => by
    simp only [pathLt, Bool.or_eq_true, Bool.and_eq_true, beq_iff_eq] at h h' ⊢
    rcases h with h | ⟨rfl, h⟩ <;> rcases h' with h' | ⟨rfl, h'⟩
    · exact .inl (nameLt_trans h h')
    · exact .inl h
    · exact .inl h'
    · exact .inr ⟨rfl, pathLt_trans h h'⟩

theorem pathLt_total : ∀ a b : List Name, pathLt a b = true ∨ a = b ∨ pathLt b a = true
  | [], [] => .inr (.inl rfl)
  | [], _ :: _ => .inl rfl
  | _ :: _, [] => .inr (.inr rfl)
  | a :: as, b :: bs => by
    simp only [pathLt, Bool.or_eq_true, Bool.and_eq_true, beq_iff_eq, List.cons.injEq]
    rcases nameLt_total a b with h | rfl | h
    · exact .inl (.inl h)
    · rcases pathLt_total as bs with h | h | h
      · exact .inl (.inr ⟨rfl, h⟩)
      · exact .inr (.inl ⟨rfl, h⟩)
      · exact .inr (.inr (.inr ⟨rfl, h⟩))
    · exact .inr (.inr (.inl h))

/-- Modules in the order of their paths. -/
def Sorted (ms : List DocModule) : Prop := ms.Pairwise fun a b => pathLt a.components b.components = true

theorem mem_insertModule {m : DocModule} : ∀ {s : List DocModule}, Sorted s → ∀ x,
    x ∈ insertModule m s ↔ x = m ∨ (x ∈ s ∧ x.components ≠ m.components)
  | [], _, x => by simp [insertModule]
  | y :: ys, h, x => by
    obtain ⟨h1, h2⟩ := List.pairwise_cons.mp h
    unfold insertModule
    split
    · rename_i hlt
      constructor
      · intro hx
        rcases List.mem_cons.mp hx with rfl | hx
        · exact .inl rfl
        · refine .inr ⟨hx, fun e => ?_⟩
          have : pathLt m.components x.components = true := by
            rcases List.mem_cons.mp hx with rfl | hx
            · exact hlt
            · exact pathLt_trans hlt (h1 x hx)
          rw [e, pathLt_irrefl] at this
          cases this
      · rintro (rfl | ⟨hx, _⟩)
        · exact List.mem_cons_self
        · exact List.mem_cons_of_mem _ hx
    · rename_i hlt
      split
      · rename_i he
        constructor
        · intro hx
          rcases List.mem_cons.mp hx with rfl | hx
          · exact .inl rfl
          · refine .inr ⟨List.mem_cons_of_mem _ hx, fun e => ?_⟩
            have := h1 x hx
            rw [e, he, pathLt_irrefl] at this
            cases this
        · rintro (rfl | ⟨hx, hne⟩)
          · exact List.mem_cons_self
          · rcases List.mem_cons.mp hx with rfl | hx
            · exact absurd he.symm hne
            · exact List.mem_cons_of_mem _ hx
      · rename_i hne
        rw [List.mem_cons, mem_insertModule h2 x, List.mem_cons]
        constructor
        · rintro (rfl | rfl | ⟨hx, hn⟩)
          · exact .inr ⟨.inl rfl, fun e => hne e.symm⟩
          · exact .inl rfl
          · exact .inr ⟨.inr hx, hn⟩
        · rintro (rfl | ⟨rfl | hx, hn⟩)
          · exact .inr (.inl rfl)
          · exact .inl rfl
          · exact .inr (.inr ⟨hx, hn⟩)

theorem insertModule_sorted {m : DocModule} : ∀ {s : List DocModule}, Sorted s → Sorted (insertModule m s)
  | [], _ => by simp [insertModule, Sorted]
  | y :: ys, h => by
    obtain ⟨h1, h2⟩ := List.pairwise_cons.mp h
    unfold insertModule
    split
    · rename_i hlt
      refine List.pairwise_cons.mpr ⟨fun x hx => ?_, h⟩
      rcases List.mem_cons.mp hx with rfl | hx
      · exact hlt
      · exact pathLt_trans hlt (h1 x hx)
    · rename_i hlt
      split
      · rename_i he
        exact List.pairwise_cons.mpr ⟨fun x hx => he ▸ h1 x hx, h2⟩
      · rename_i hne
        refine List.pairwise_cons.mpr ⟨fun x hx => ?_, insertModule_sorted h2⟩
        rcases (mem_insertModule h2 x).mp hx with rfl | ⟨hx, _⟩
        · rcases pathLt_total x.components y.components with h | h | h
          · exact absurd h hlt
          · exact absurd h hne
          · exact h
        · exact h1 x hx

theorem foldl_sorted : ∀ (ms s : List DocModule), Sorted s → Sorted (ms.foldl (fun s m => insertModule m s) s)
  | [], _, h => h
  | _ :: ms, _, h => foldl_sorted ms _ (insertModule_sorted h)

theorem collect_sorted (ms : List DocModule) : Sorted (collect ms) := foldl_sorted ms [] List.Pairwise.nil

theorem mem_foldl : ∀ (ms s : List DocModule), Sorted s → ∀ x,
    x ∈ ms.foldl (fun s m => insertModule m s) s ↔
      (∃ a b, ms = a ++ x :: b ∧ ∀ y ∈ b, y.components ≠ x.components) ∨
      (x ∈ s ∧ ∀ y ∈ ms, y.components ≠ x.components)
  | [], s, _, x => by simp
  | m :: ms, s, h, x => by
    rw [List.foldl_cons, mem_foldl ms _ (insertModule_sorted h) x, mem_insertModule h]
    constructor
    · rintro (⟨a, b, rfl, hb⟩ | ⟨rfl | ⟨hx, hn⟩, hy⟩)
      · exact .inl ⟨m :: a, b, rfl, hb⟩
      · exact .inl ⟨[], ms, rfl, hy⟩
      · refine .inr ⟨hx, fun y hy' => ?_⟩
        rcases List.mem_cons.mp hy' with rfl | hy'
        · exact fun e => hn e.symm
        · exact hy y hy'
    · rintro (⟨a, b, e, hb⟩ | ⟨hx, hy⟩)
      · cases a with
        | nil => cases e; exact .inr ⟨.inl rfl, hb⟩
        | cons a as => cases e; exact .inl ⟨as, b, rfl, hb⟩
      · exact .inr ⟨.inr ⟨hx, fun e => hy m List.mem_cons_self e.symm⟩, fun y hy' => hy y (List.mem_cons_of_mem _ hy')⟩

theorem mem_collect {ms : List DocModule} {x : DocModule} :
    x ∈ collect ms ↔ ∃ a b, ms = a ++ x :: b ∧ ∀ y ∈ b, y.components ≠ x.components := by
  unfold collect
  rw [mem_foldl ms [] List.Pairwise.nil]
  simp

/-- The modules that are documented do not depend on others. -/
theorem filter_insertModule {m : DocModule} : ∀ {s : List DocModule}, Sorted s →
    (insertModule m s).filter (fun m => m.components.all isNamePublic) =
      if m.components.all isNamePublic then insertModule m (s.filter fun m => m.components.all isNamePublic)
      else s.filter fun m => m.components.all isNamePublic
  | [], _ => by by_cases hm : m.components.all isNamePublic = true <;> simp [insertModule, hm]
  | y :: ys, h => by
    obtain ⟨h1, h2⟩ := List.pairwise_cons.mp h
    have ih := filter_insertModule (m := m) h2
    have front : pathLt m.components y.components = true → ∀ zs : List DocModule, (∀ z ∈ zs, z ∈ ys) →
        insertModule m zs = m :: zs := by
      intro hlt zs hz
      cases zs with
      | nil => rfl
      | cons z zs => simp [insertModule, pathLt_trans hlt (h1 z (hz z List.mem_cons_self))]
    rw [show insertModule m (y :: ys) = if pathLt m.components y.components then m :: y :: ys
      else if m.components = y.components then m :: ys else y :: insertModule m ys from by rw [insertModule]]
    split
    · rename_i hlt
      by_cases hm : m.components.all isNamePublic = true
      · rw [List.filter_cons_of_pos (by simpa using hm), if_pos hm]
        by_cases hy : y.components.all isNamePublic = true
        · rw [List.filter_cons_of_pos (by simpa using hy)]
          simp [insertModule, hlt]
        · rw [List.filter_cons_of_neg (by simpa using hy)]
          rw [front hlt _ fun z hz => (List.mem_filter.mp hz).1]
      · rw [List.filter_cons_of_neg (by simpa using hm), if_neg hm]
    · rename_i hlt
      split
      · rename_i he
        by_cases hm : m.components.all isNamePublic = true
        · have hy : y.components.all isNamePublic = true := he ▸ hm
          rw [List.filter_cons_of_pos (by simpa using hm), if_pos hm, List.filter_cons_of_pos (by simpa using hy)]
          simp [insertModule, hlt, he, pathLt_irrefl]
        · have hy : ¬ y.components.all isNamePublic = true := he ▸ hm
          rw [List.filter_cons_of_neg (by simpa using hm), if_neg hm, List.filter_cons_of_neg (by simpa using hy)]
      · rename_i hne
        by_cases hy : y.components.all isNamePublic = true
        · rw [List.filter_cons_of_pos (by simpa using hy), List.filter_cons_of_pos (by simpa using hy), ih]
          by_cases hm : m.components.all isNamePublic = true
          · simp [hm, insertModule, hlt, hne]
          · simp [hm]
        · rw [List.filter_cons_of_neg (by simpa using hy), List.filter_cons_of_neg (by simpa using hy), ih]

theorem filter_foldl : ∀ (ms s : List DocModule), Sorted s →
    (ms.foldl (fun s m => insertModule m s) s).filter (fun m => m.components.all isNamePublic) =
      (ms.filter fun m => m.components.all isNamePublic).foldl (fun s m => insertModule m s)
        (s.filter fun m => m.components.all isNamePublic)
  | [], s, _ => rfl
  | m :: ms, s, h => by
    rw [List.foldl_cons, filter_foldl ms _ (insertModule_sorted h), filter_insertModule h]
    by_cases hm : m.components.all isNamePublic = true
    · rw [if_pos hm, List.filter_cons_of_pos (by simpa using hm), List.foldl_cons]
    · rw [if_neg hm, List.filter_cons_of_neg (by simpa using hm)]

theorem filter_collect (ms : List DocModule) :
    (collect ms).filter (fun m => m.components.all isNamePublic) =
      collect (ms.filter fun m => m.components.all isNamePublic) := filter_foldl ms [] List.Pairwise.nil

/-- Modules in two packages that agree. -/
theorem insertModule_forall₂ {R : DocModule → DocModule → Prop} (hR : ∀ a b, R a b → a.components = b.components)
    {m m' : DocModule} (hm : R m m') : ∀ {s s' : List DocModule}, List.Forall₂ R s s' →
    List.Forall₂ R (insertModule m s) (insertModule m' s')
  | _, _, .nil => .cons hm .nil
  | _, _, .cons h hs => by
    unfold insertModule
    rw [hR _ _ hm, hR _ _ h]
    split
    · exact .cons hm (.cons h hs)
    · split
      · exact .cons hm hs
      · exact .cons h (insertModule_forall₂ hR hm hs)

theorem collect_forall₂ {R : DocModule → DocModule → Prop} (hR : ∀ a b, R a b → a.components = b.components)
    {ms ms' : List DocModule} (h : List.Forall₂ R ms ms') : List.Forall₂ R (collect ms) (collect ms') := by
  have key : ∀ {ms ms'}, List.Forall₂ R ms ms' → ∀ {s s'}, List.Forall₂ R s s' →
      List.Forall₂ R (ms.foldl (fun s m => insertModule m s) s) (ms'.foldl (fun s m => insertModule m s) s') := by
    intro ms ms' h
    induction h with
    | nil => exact id
    | cons h _ ih => exact fun hs => ih (insertModule_forall₂ hR h hs)
  exact key h .nil

end Verif.Doc
