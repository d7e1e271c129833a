import Verif.Names.VisibilitySpec
import Verif.Names.Analyze
import Verif.Names.Compiled
import Verif.Hir.SoundnessProperties

/-! # What the visitor reaches, and what the validators have checked -/

namespace Verif.Names

open Verif.Hir Verif.Res

theorem parts_children {e : Expr} (he : ∀ t a b bs, e ≠ .comprehension t a b bs) {k ts ps}
    (h : parts [] e = some (k, ts, ps)) : ps.map (·.2) = children e := by
  cases e <;> simp only [parts, Option.some.injEq, Prod.mk.injEq, reduceCtorEq] at h
  case comprehension t a b bs => exact absurd rfl (he t a b bs)
  all_goals
    obtain ⟨-, -, rfl⟩ := h
    simp [children, Function.comp_def]
  case list t es =>
    intro e _
    cases e <;> rfl
  case map =>
    congr 1

theorem children_nil {e : Expr} (h : parts [] e = none) : children e = [] := by
  cases e <;> simp [parts] at h <;> rfl

/-- What is not in a condition is visited. -/
theorem children_visited {e x : Expr} (h : OccursUnconditional x e) :
    x = e ∨ ∃ y ∈ children e, OccursUnconditional x y := by
  cases h with
  | here => exact Or.inl rfl
  | part he hp hm ho =>
    refine Or.inr ⟨_, ?_, ho⟩
    rw [← parts_children he hp]
    exact List.mem_map_of_mem hm
  | iteratee hc hi ho =>
    refine Or.inr ⟨_, ?_, ho⟩
    simp only [children, List.mem_append, List.mem_flatMap]
    exact Or.inl ⟨_, hc, List.mem_map_of_mem hi⟩
  | element ho => exact Or.inr ⟨_, by simp [children], ho⟩

/-- What is visited is not in a condition. -/
theorem visited_children {e x y : Expr} (hy : y ∈ children e) (h : OccursUnconditional x y) :
    OccursUnconditional x e := by
  by_cases he : ∃ t a b bs, e = .comprehension t a b bs
  · obtain ⟨t, a, b, bs, rfl⟩ := he
    simp only [children, List.mem_append, List.mem_flatMap, List.mem_singleton, List.mem_map] at hy
    rcases hy with ⟨c, hc, i, hi, rfl⟩ | rfl
    · exact .iteratee hc hi h
    · exact .element h
  · have he' : ∀ t a b bs, e ≠ .comprehension t a b bs := fun t a b bs h => he ⟨t, a, b, bs, h⟩
    cases hp : parts [] e with
    | none => rw [children_nil hp] at hy; cases hy
    | some p =>
      obtain ⟨k, ts, ps⟩ := p
      rw [← parts_children he' hp] at hy
      obtain ⟨p, hp', rfl⟩ := List.mem_map.1 hy
      exact .part he' hp hp' h

theorem visitAll_ok {f : Expr → Res Err Unit} : ∀ {n : Nat} {e : Expr}, visitAll f n e = .ok () →
    ∀ x, OccursUnconditional x e → f x = .ok ()
  | 0, _, h => by simp [visitAll] at h
  | n + 1, e, h => by
    intro x hx
    simp only [visitAll, bind_eq_ok] at h
    obtain ⟨u, h1, h2⟩ := h
    rcases children_visited hx with rfl | ⟨y, hy, ho⟩
    · exact h1
    · exact visitAll_ok (forList_ok h2 y hy) x ho

theorem forList_err {α : Type} {f : α → Res Err Unit} {as : List α} {r : Err} (h : forList f as = .err r) :
    ∃ a ∈ as, f a = .err r := by
  unfold forList at h
  induction as with
  | nil => simp [mapList] at h
  | cons a as ih =>
    cases ha : f a with
    | ok u =>
      rw [mapList, ha] at h
      cases hm : mapList f as with
      | ok us => rw [hm] at h; cases h
      | err s =>
        rw [hm] at h
        have : (Res.err s : Res Err Unit) = .err r := h
        obtain ⟨b, hb, hf⟩ := ih (by rw [hm]; exact this)
        exact ⟨b, List.mem_cons_of_mem _ hb, hf⟩
      | more => rw [hm] at h; cases h
    | err s =>
      rw [mapList, ha] at h
      have : (Res.err s : Res Err Unit) = .err r := h
      exact ⟨a, List.mem_cons_self, ha.trans this⟩
    | more => rw [mapList, ha] at h; cases h

theorem visitAll_err {f : Expr → Res Err Unit} {r : Err} : ∀ {n : Nat} {e : Expr}, visitAll f n e = .err r →
    ∃ x, OccursUnconditional x e ∧ f x = .err r
  | 0, _, h => by simp [visitAll] at h
  | n + 1, e, h => by
    unfold visitAll at h
    cases he : f e with
    | ok u =>
      rw [he] at h
      obtain ⟨y, hy, h2⟩ := forList_err (show forList (visitAll f n) (children e) = .err r from h)
      obtain ⟨x, hx, hf⟩ := visitAll_err h2
      exact ⟨x, visited_children hy hx, hf⟩
    | err s =>
      rw [he] at h
      have : (Res.err s : Res Err Unit) = .err r := h
      exact ⟨e, .here, he.trans this⟩
    | more => rw [he] at h; cases h

theorem checkFields_ok {n : Nat} {A : Aliases} {opens : List String} {x : Expr}
    (h : checkFields n A opens x = .ok ()) {t : Ty} (ht : recordType x = some t) :
    ∃ r, Canon A t (.record r) ∧ r ∈ opens := by
  have key : ∀ t, checkOpen n A opens t = .ok () → ∃ r, Canon A t (.record r) ∧ r ∈ opens := by
    intro t h
    unfold checkOpen at h
    obtain ⟨c, h1, h2⟩ := bind_eq_ok.1 h
    split at h2
    · split at h2
      · exact ⟨_, .of_ok h1, by assumption⟩
      · cases h2
    · cases h2
  cases x <;> simp only [recordType, reduceCtorEq, Option.some.injEq] at ht
  case record => subst ht; exact key _ h
  case deconstruct => subst ht; exact key _ h
  case update => subst ht; exact key _ h

/-- What a deconstruction that passes has: a type. -/
theorem checkFields_inferred {n : Nat} {A : Aliases} {opens : List String} {t : Option Ty} {r : Expr} {x : String}
    (h : checkFields n A opens (.deconstruct t r x) = .ok ()) : ∃ u, t = some u := by
  cases t with
  | none => cases h
  | some u => exact ⟨u, rfl⟩

/-- Nothing else is rejected. -/
theorem checkFields_complete {n : Nat} {A : Aliases} {opens : List String} {x : Expr}
    (h : ∀ t r y, x = .deconstruct t r y → t ≠ none)
    (h' : ∀ t, recordType x = some t → ∃ r, Canon A t (.record r) ∧ r ∈ opens) (e : Err) :
    checkFields n A opens x ≠ .err e := by
  have key : ∀ t, (∃ r, Canon A t (.record r) ∧ r ∈ opens) → checkOpen n A opens t ≠ .err e := by
    rintro t ⟨r, hr, ho⟩ hc
    unfold checkOpen at hc
    rcases hr.ok_or_more n with h1 | h1
    · rw [h1] at hc
      have : (if r ∈ opens then Res.ok () else .err .recordFieldPrivate : Res Err Unit) = .err e := hc
      rw [if_pos ho] at this
      cases this
    · rw [h1] at hc; cases hc
  cases x with
  | record t fs => exact key t (h' t rfl)
  | update t r fs => exact key t (h' t rfl)
  | deconstruct t r y =>
    cases t with
    | none => exact absurd rfl (h none r y rfl)
    | some t => exact key t (h' t rfl)
  | _ => intro hc; cases hc

theorem checkUnused_ok {n : Nat} {A : Aliases} {t : Option Ty} {a b : Expr}
    (h : checkUnused n A (.let_ none t a b) = .ok ()) :
    ∃ u c, t = some u ∧ Canon A u c ∧ (c = .any ∨ ¬ Sub .error c) := by
  unfold checkUnused at h
  cases t with
  | none => cases h
  | some u =>
    obtain ⟨_, h0, h⟩ := bind_eq_ok.1 h
    cases h0
    obtain ⟨c, h1, h2⟩ := bind_eq_ok.1 h
    refine ⟨u, c, rfl, .of_ok h1, ?_⟩
    split at h2
    · left; assumption
    · right
      obtain ⟨q, h3, h4⟩ := bind_eq_ok.1 h2
      intro hs
      have := (subsumeCheck_ok h3 canon_error (.of_ok h1)).2 hs
      rw [this] at h4
      cases h4

theorem subsumeCheck_ok_or_more {n : Nat} {A : Aliases} {t u c d : Ty} (ht : Canon A t c) (hu : Canon A u d) :
    (∃ b, subsumeCheck n A t u = .ok b) ∨ subsumeCheck n A t u = .more := by
  obtain ⟨e, h1, h2⟩ := ht
  obtain ⟨f, h3, h4⟩ := hu
  by_cases hm : subsumeCheck n A t u = .more
  · exact Or.inr hm
  · have := Settles.unique (settles_of_eq (subsumeCheck_mono A t u) (n := n) rfl hm) (subsumeCheck_settles h1 h3)
    exact Or.inl ⟨_, this⟩

/-- Nothing else is rejected. -/
theorem checkUnused_complete {n : Nat} {A : Aliases} {x : Expr}
    (h : ∀ y t a b, x = .let_ y t a b → ∃ u c, t = some u ∧ Canon A u c ∧ (y = none → c = .any ∨ ¬ Sub .error c))
    (e : Err) : checkUnused n A x ≠ .err e := by
  cases x with
  | let_ y t a b =>
    obtain ⟨u, c, rfl, hc, h⟩ := h y t a b rfl
    intro he
    unfold checkUnused at he
    cases y with
    | some y => cases he
    | none =>
      have he : (canonicalize n A u >>= fun c => if c = .any then Res.ok () else
        subsumeCheck n A .error u >>= fun b => if b then .err .unusedErrorValue else .ok () : Res Err Unit) = .err e := he
      rcases hc.ok_or_more n with h1 | h1
      · rw [h1] at he
        have he : (if c = .any then Res.ok () else
          subsumeCheck n A .error u >>= fun b => if b then .err .unusedErrorValue else .ok () : Res Err Unit) = .err e := he
        split at he
        · cases he
        · rename_i hne
          rcases subsumeCheck_ok_or_more (n := n) (A := A) canon_error hc with ⟨q, h2⟩ | h2
          · rw [h2] at he
            have he : (if q then Res.err .unusedErrorValue else .ok () : Res Err Unit) = .err e := he
            cases q with
            | false => cases he
            | true => exact (h rfl).elim hne fun hn => hn ((subsumeCheck_ok h2 canon_error hc).1 rfl)
          · rw [h2] at he; cases he
      · rw [h1] at he; cases he
  | _ => intro he; cases he

end Verif.Names
