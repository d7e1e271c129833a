import Verif.Hir.Omits
import Verif.Hir.AssignLemmas
import Verif.Hir.ValidatorLemmas

/-!
# The analysis of expressions ends

Every function of the analysis, with enough fuel, has a result other than `more`, provided that
canonicalization has.
-/

namespace Verif

/-- A computation ends: with too little fuel it says so, and with enough fuel it has one result. -/
def Res.Ends {ε α : Type} (f : Nat → Res ε α) : Prop :=
  ∃ x, x ≠ .more ∧ ∃ N, (∀ n, N ≤ n → f n = x) ∧ ∀ n, n < N → f n = .more

namespace Res

variable {ε α β : Type}

theorem Ends.const {x : Res ε α} (h : x ≠ .more) : Ends fun _ => x := ⟨x, h, 0, fun _ _ => rfl, fun _ h => by omega⟩

theorem Ends.ok (a : α) : Ends fun _ => (.ok a : Res ε α) := .const (by simp)

theorem Ends.err (e : ε) : Ends fun _ => (.err e : Res ε α) := .const (by simp)

/-- The steps of a computation end, one after the other, with what is known about the results. -/
theorem Ends.bind_of {f : Nat → Res ε α} {g : Nat → α → Res ε β} (hf : Ends f)
    (hg : ∀ a, (∃ n, f n = .ok a) → Ends fun n => g n a) : Ends fun n => f n >>= g n := by
  obtain ⟨x, hx, N, h, h0⟩ := hf
  cases x with
  | more => exact absurd rfl hx
  | err e =>
    exact ⟨.err e, by simp, N, fun n hn => by show (f n >>= g n) = _; rw [h n hn]; rfl,
      fun n hn => by show (f n >>= g n) = _; rw [h0 n hn]; rfl⟩
  | ok a =>
    obtain ⟨y, hy, M, h', h0'⟩ := hg a ⟨N, h N (le_refl _)⟩
    refine ⟨y, hy, max N M, fun n hn => ?_, fun n hn => ?_⟩
    · show (f n >>= g n) = y
      rw [h n (le_trans (le_max_left _ _) hn), ok_bind]
      exact h' n (le_trans (le_max_right _ _) hn)
    · show (f n >>= g n) = .more
      by_cases hN : N ≤ n
      · rw [h n hN, ok_bind]
        exact h0' n (by omega)
      · rw [h0 n (by omega)]; rfl

theorem Ends.bind {f : Nat → Res ε α} {g : Nat → α → Res ε β} (hf : Ends f) (hg : ∀ a, Ends fun n => g n a) :
    Ends fun n => f n >>= g n := .bind_of hf fun a _ => hg a

theorem Ends.succ {f : Nat → Res ε α} (h : Ends fun n => f (n + 1)) (h0 : f 0 = .more := by rfl) : Ends f := by
  obtain ⟨x, hx, N, h, h1⟩ := h
  refine ⟨x, hx, N + 1, fun n hn => ?_, fun n hn => ?_⟩
  · obtain ⟨m, rfl⟩ : ∃ m, n = m + 1 := ⟨n - 1, by omega⟩
    exact h m (by omega)
  · cases n with
    | zero => exact h0
    | succ n => exact h1 n (by omega)

theorem Ends.mapList {f : Nat → α → Res ε β} : ∀ {as : List α}, (∀ a ∈ as, Ends fun n => f n a) →
    Ends fun n => Res.mapList (f n) as
  | [], _ => .ok _
  | a :: as, h => by
    simp only [Res.mapList]
    exact Ends.bind (h a (by simp)) fun _ => Ends.bind (Ends.mapList fun a ha => h a (by simp [ha])) fun _ => .ok _

theorem Ends.ite {c : Prop} [Decidable c] {f g : Nat → Res ε α} (hf : Ends f) (hg : Ends g) :
    Ends fun n => if c then f n else g n := by
  by_cases h : c <;> simp only [h, if_true, if_false] <;> assumption

theorem Ends.boolIte {b : Bool} {f g : Nat → Res ε α} (hf : Ends f) (hg : Ends g) :
    Ends fun n => if b = true then f n else g n := Ends.ite hf hg

end Res

namespace Hir

open Res

/-! ## Induction on expressions -/

theorem kids_lt {e k : Expr} (h : k ∈ kids e) : sizeOf k < sizeOf e := by
  cases e with
  | call t f args =>
    rcases List.mem_cons.mp h with rfl | h
    · simp; omega
    · have := List.sizeOf_lt_of_mem h
      simp; omega
  | builtInCall t f args =>
    have := List.sizeOf_lt_of_mem (show k ∈ args from h)
    simp; omega
  | ifType x e bs f =>
    simp only [kids, List.cons_append, List.mem_cons, List.mem_append, List.mem_map, Option.mem_toList] at h
    rcases h with rfl | ⟨b, hb, rfl⟩ | ⟨b, hb, rfl⟩
    · simp; omega
    · have := List.sizeOf_lt_of_mem hb
      have : sizeOf b.2 < sizeOf b := by cases b; simp
      simp; omega
    · have : sizeOf b.2 < sizeOf b := by cases b; simp
      simp [hb]; omega
  | list t es =>
    obtain ⟨x, hx, rfl⟩ := List.mem_map.mp h
    have := List.sizeOf_lt_of_mem hx
    have : sizeOf (listElem x) < sizeOf x := by cases x <;> simp [listElem]
    simp; omega
  | comprehension t e b bs =>
    simp only [kids, List.mem_cons, List.mem_flatMap] at h
    have key : ∀ c : Branch Expr, k ∈ branchKids c → sizeOf k < sizeOf c := by
      rintro ⟨xs, is, c⟩ h
      simp only [branchKids, List.mem_append, List.mem_map, Option.mem_toList] at h
      rcases h with ⟨i, hi, rfl⟩ | hc
      · have := List.sizeOf_lt_of_mem hi
        have : sizeOf i.2 < sizeOf i := by cases i; simp
        simp; omega
      · simp [hc]; omega
    rcases h with rfl | ⟨c, rfl | hc, h⟩
    · simp; omega
    · have := key _ h
      simp; omega
    · have := key _ h
      have := List.sizeOf_lt_of_mem hc
      simp; omega
  | map _ _ es =>
    obtain ⟨x, hx, h⟩ := List.mem_flatMap.mp h
    have := List.sizeOf_lt_of_mem hx
    have : sizeOf k < sizeOf x := by
      cases x with
      | single a b =>
        simp only [mapElem, List.mem_cons, List.not_mem_nil, or_false] at h
        rcases h with rfl | rfl <;> simp <;> omega
      | multiple a =>
        simp only [mapElem, List.mem_cons, List.not_mem_nil, or_false] at h
        subst h
        simp
    simp; omega
  | record t fs =>
    obtain ⟨x, hx, rfl⟩ := List.mem_map.mp h
    have := List.sizeOf_lt_of_mem hx
    have : sizeOf x.2 < sizeOf x := by cases x; simp
    simp; omega
  | update t e fs =>
    rcases List.mem_cons.mp h with rfl | h
    · simp; omega
    · obtain ⟨x, hx, rfl⟩ := List.mem_map.mp h
      have := List.sizeOf_lt_of_mem hx
      have : sizeOf x.2 < sizeOf x := by cases x; simp
      simp; omega
  | _ =>
    simp only [kids, List.mem_cons, List.not_mem_nil, or_false] at h
    try rcases h with rfl | rfl | rfl | rfl
    all_goals try rcases h with rfl | rfl | rfl
    all_goals try rcases h with rfl | rfl
    all_goals try subst h
    all_goals simp
    all_goals omega

/-- Induction on expressions. -/
theorem Expr.induction {P : Expr → Prop} (h : ∀ e, (∀ k ∈ kids e, P k) → P e) (e : Expr) : P e :=
  h e fun k _ => Expr.induction h k
termination_by sizeOf e
decreasing_by exact kids_lt ‹_›

/-! ## Types -/

/-- Induction on names of types, along what aliases refer to. -/
theorem alias_induction {m : TypeModule} (h : validateAliases m = true) {P : String → Prop}
    (step : ∀ x, (∀ t, collectAliases m x = some t → ∀ y ∈ collectReferences t, P y) → P x) (x : String) : P x := by
  unfold validateAliases at h
  obtain ⟨order, ho⟩ := Option.isSome_iff_exists.mp h
  obtain ⟨hp, hs, hl⟩ := toposort_some ho
  have hmem : ∀ v, v ∈ order ↔ v ∈ m.aliases.map (·.1) := fun v => by
    rw [hp.mem_iff, List.mem_dedup]
  have look : ∀ x t, collectAliases m x = some t → collectReferences t = [] ∨ (x, t) ∈ m.aliases := by
    intro x t ht
    rcases List.mem_append.mp (lastLookup_some ht) with h | h
    · obtain ⟨d, _, hd⟩ := List.mem_map.mp h
      cases hd
      exact Or.inl rfl
    · exact Or.inr h
  have other : ∀ x, x ∉ m.aliases.map (·.1) → P x := by
    intro x hx
    refine step x fun t ht y hy => ?_
    rcases look x t ht with h | h
    · rw [h] at hy; cases hy
    · exact absurd (List.mem_map.mpr ⟨_, h, rfl⟩) hx
  have all := topological_induction (P := P) order hs (fun v hv => hl v (hp.mem_iff.mp hv)) (by
    intro v _ H
    refine step v fun t ht y hy => ?_
    rcases look v t ht with h | h
    · rw [h] at hy; cases hy
    · by_cases hya : y ∈ m.aliases.map (·.1)
      · refine H y ?_ ((hmem y).mpr hya)
        unfold aliasEdges
        rw [List.mem_flatMap]
        refine ⟨(v, t), h, ?_⟩
        rw [List.mem_map]
        exact ⟨y, List.mem_filter.mpr ⟨hy, by simpa using hya⟩, rfl⟩
      · exact other y hya)
  by_cases hxa : x ∈ m.aliases.map (·.1)
  · exact all x ((hmem x).mpr hxa)
  · exact other x hxa

theorem resolve_ends (A : Aliases) (x : String) : Ends fun _ => resolve A x := by
  refine .const ?_
  unfold resolve
  split <;> simp

theorem collectTypes_ne_nil {A : Aliases} {n : Nat} {t : Ty} {s s' : List Ty} (h : collectTypes n A t s = .ok s') :
    s' ≠ [] := by
  obtain ⟨e, _, rfl⟩ := (canonicalize_sound_aux A n).2 _ _ _ h
  suffices hne : ∀ (ts s : List Ty), (ts ≠ [] ∨ s ≠ []) → ts.foldl (fun s t => btreeInsert t s) s ≠ [] from
    hne _ _ (Or.inl (atoms_ne_nil e))
  intro ts
  induction ts with
  | nil => intro s h; simpa using h
  | cons t ts ih =>
    intro s _
    refine ih _ (Or.inr ?_)
    cases s with
    | nil => simp [btreeInsert]
    | cons u us =>
      show btreeInsert t (u :: us) ≠ []
      rw [btreeInsert]
      split
      · simp
      · split <;> simp

/-- Canonicalization of a type ends. -/
def TypeEnds (A : Aliases) (t : Ty) : Prop :=
  (Ends fun n => canonicalize n A t) ∧ ∀ s, Ends fun n => collectTypes n A t s

theorem typeEnds_of_references {A : Aliases} (t : Ty) (h : ∀ x ∈ collectReferences t, TypeEnds A (.reference x)) :
    TypeEnds A t := by
  have leaf : ∀ {t : Ty}, NotUnion t → (∀ x, t ≠ .reference x) → (Ends fun n => canonicalize n A t) → TypeEnds A t := by
    intro t h1 h2 h3
    refine ⟨h3, fun s => .succ ?_⟩
    cases t with
    | union l r => exact absurd rfl (h1 _ _)
    | reference x => exact absurd rfl (h2 _)
    | _ => simp only [collectTypes]; exact h3.bind fun _ => .ok _
  have atom : ∀ {t : Ty}, NotUnion t → (∀ x, t ≠ .reference x) → (∀ n, canonicalize (n + 1) A t = .ok t) → TypeEnds A t := by
    intro t h1 h2 h3
    exact leaf h1 h2 (.succ (by simp only [h3]; exact .ok _))
  induction t using Ty.ind with
  | any => exact atom (by intro _ _ h; cases h) (by intro _ h; cases h) fun n => by simp [canonicalize]
  | boolean => exact atom (by intro _ _ h; cases h) (by intro _ h; cases h) fun n => by simp [canonicalize]
  | error => exact atom (by intro _ _ h; cases h) (by intro _ h; cases h) fun n => by simp [canonicalize]
  | none => exact atom (by intro _ _ h; cases h) (by intro _ h; cases h) fun n => by simp [canonicalize]
  | number => exact atom (by intro _ _ h; cases h) (by intro _ h; cases h) fun n => by simp [canonicalize]
  | string => exact atom (by intro _ _ h; cases h) (by intro _ h; cases h) fun n => by simp [canonicalize]
  | record _ => exact atom (by intro _ _ h; cases h) (by intro _ h; cases h) fun n => by simp [canonicalize]
  | reference x => exact h x (by simp [collectReferences])
  | list e ih =>
    refine leaf (by intro _ _ h; cases h) (by intro _ h; cases h) (.succ ?_)
    simp only [canonicalize]
    exact (ih (by simpa [collectReferences] using h)).1.bind fun _ => .ok _
  | map k v ih1 ih2 =>
    refine leaf (by intro _ _ h; cases h) (by intro _ h; cases h) (.succ ?_)
    simp only [canonicalize]
    exact (ih1 fun x hx => h x (by simp [collectReferences, hx])).1.bind fun _ =>
      (ih2 fun x hx => h x (by simp [collectReferences, hx])).1.bind fun _ => .ok _
  | function as r iha ihr =>
    refine leaf (by intro _ _ h; cases h) (by intro _ h; cases h) (.succ ?_)
    simp only [canonicalize]
    refine Ends.bind (.mapList fun a ha => (iha a ha fun x hx => h x ?_).1) fun _ =>
      (ihr fun x hx => h x (by simp [collectReferences, hx])).1.bind fun _ => .ok _
    simp only [collectReferences, collectReferencesList_eq, List.mem_append, List.mem_flatMap]
    exact Or.inl ⟨a, ha, hx⟩
  | union l r ih1 ih2 =>
    have h1 := ih1 fun x hx => h x (by simp [collectReferences, hx])
    have h2 := ih2 fun x hx => h x (by simp [collectReferences, hx])
    have h3 : ∀ s, Ends fun n => collectTypes n A (.union l r) s := by
      intro s
      refine .succ ?_
      simp only [collectTypes]
      exact (h1.2 s).bind fun s => h2.2 s
    refine ⟨.succ ?_, h3⟩
    simp only [canonicalize]
    refine Ends.bind_of (h3 []) fun ts ⟨n, hts⟩ => .const ?_
    have := collectTypes_ne_nil hts
    cases ts with
    | nil => exact absurd rfl this
    | cons t ts => simp [reduce]

/-- Without recursive aliases, canonicalization ends. -/
theorem types_end {m : TypeModule} (h : validateAliases m = true) (t : Ty) : TypeEnds (collectAliases m) t := by
  refine typeEnds_of_references t fun x _ => alias_induction h (P := fun x => TypeEnds (collectAliases m) (.reference x)) ?_ x
  intro x ih
  have key : ∀ t, collectAliases m x = some t → TypeEnds (collectAliases m) t := fun t ht =>
    typeEnds_of_references t (ih t ht)
  constructor
  · refine .succ ?_
    simp only [canonicalize]
    refine Ends.bind_of (resolve_ends _ x) fun t ⟨_, ht⟩ => (key t ?_).1
    unfold resolve at ht
    split at ht <;> cases ht
    assumption
  · intro s
    refine .succ ?_
    simp only [collectTypes]
    refine Ends.bind_of (resolve_ends _ x) fun t ⟨_, ht⟩ => (key t ?_).2 s
    unfold resolve at ht
    split at ht <;> cases ht
    assumption

theorem isTypeRecursive_ends_of {m : TypeModule} (h : validateAliases m = true) {Δ : Records} {name : String}
    {cache : List String} (hr : ∀ r fs, Δ r = some fs → r ∉ cache → ∀ t,
      Ends fun n => isTypeRecursive n (collectAliases m) Δ name (r :: cache) t) (t : Ty) :
    Ends fun n => isTypeRecursive n (collectAliases m) Δ name cache t := by
  have key : ∀ t : Ty, (∀ x ∈ collectReferences t,
      Ends fun n => isTypeRecursive n (collectAliases m) Δ name cache (.reference x)) →
      Ends fun n => isTypeRecursive n (collectAliases m) Δ name cache t := by
    intro t hx
    induction t using Ty.ind with
    | reference x => exact hx x (by simp [collectReferences])
    | union l r ih1 ih2 =>
      refine .succ ?_
      simp only [isTypeRecursive]
      exact (ih1 fun x h => hx x (by simp [collectReferences, h])).bind fun _ =>
        (ih2 fun x h => hx x (by simp [collectReferences, h])).bind fun _ => .ok _
    | record r =>
      refine .succ ?_
      simp only [isTypeRecursive]
      by_cases hc : r ∈ cache
      · simp only [hc, if_true]; exact .ok _
      · simp only [hc, if_false]
        refine .ite (.ok _) ?_
        refine Ends.bind_of (.const (by unfold resolveRecord; split <;> simp)) fun fs ⟨_, hfs⟩ => ?_
        have hfs : Δ r = some fs := by
          unfold resolveRecord at hfs
          split at hfs <;> cases hfs
          assumption
        exact Ends.bind (.mapList fun f _ => hr r fs hfs hc f.type) fun _ => .ok _
    | _ => refine .succ ?_; simp only [isTypeRecursive]; exact .ok _
  refine key t fun x _ => alias_induction h
    (P := fun x => Ends fun n => isTypeRecursive n (collectAliases m) Δ name cache (.reference x)) ?_ x
  intro x ih
  refine .succ ?_
  simp only [isTypeRecursive]
  refine Ends.bind_of (resolve_ends _ x) fun t ⟨_, ht⟩ => key t (ih t ?_)
  unfold resolve at ht
  split at ht <;> cases ht
  assumption

/-- The search for records without values ends. -/
theorem isTypeRecursive_ends {m : TypeModule} (h : validateAliases m = true) {Δ : Records} {names : List String}
    (hΔ : ∀ r fs, Δ r = some fs → r ∈ names) (name : String) : ∀ (k : Nat) (cache : List String),
    (names.filter fun r => !cache.contains r).length ≤ k → ∀ t,
    Ends fun n => isTypeRecursive n (collectAliases m) Δ name cache t
  | 0, cache, hk, t => by
    refine isTypeRecursive_ends_of h (fun r fs hr hc => ?_) t
    have : r ∈ names.filter fun r => !cache.contains r := List.mem_filter.mpr ⟨hΔ r fs hr, by simpa using hc⟩
    have hk : names.filter (fun r => !cache.contains r) = [] := List.eq_nil_of_length_eq_zero (by omega)
    rw [hk] at this
    cases this
  | k + 1, cache, hk, t => by
    refine isTypeRecursive_ends_of h (fun r fs hr hc => isTypeRecursive_ends h hΔ name k (r :: cache) ?_) t
    have h1 : names.filter (fun x => !(r :: cache).contains x) =
        (names.filter fun x => !cache.contains x).filter fun x => !(x == r) := by
      rw [List.filter_filter]
      congr 1
      funext x
      by_cases hx : x = r <;> simp [hx]
    have h2 : r ∈ names.filter fun r => !cache.contains r := List.mem_filter.mpr ⟨hΔ r fs hr, by simpa using hc⟩
    have h3 : ((names.filter fun x => !cache.contains x).filter fun x => !(x == r)).length <
        (names.filter fun x => !cache.contains x).length := by
      rw [List.length_filter_lt_length_iff_exists]
      exact ⟨r, h2, by simp⟩
    rw [h1]
    omega

/-! ## Checks of types -/

variable {A : Aliases}

/-- Canonicalization of all types ends. -/
def AllEnd (A : Aliases) : Prop := ∀ t, Ends fun n => canonicalize n A t

theorem AllEnd.equalCheck (h : AllEnd A) (t u : Ty) : Ends fun n => equalCheck n A t u := by
  unfold Hir.equalCheck
  exact (h t).bind fun _ => (h u).bind fun _ => .ok _

theorem AllEnd.subsumeCanonical (h : AllEnd A) (t u : Ty) : Ends fun n => subsumeCanonical n A t u := by
  suffices hk : ∀ k (t u : Ty), sizeOf t + sizeOf u ≤ k → Ends fun n => Hir.subsumeCanonical n A t u from hk _ t u (le_refl _)
  intro k
  induction k with
  | zero => intro t u hk; cases t <;> simp at hk
  | succ k ih =>
    intro t u hk
    by_cases hu : ∃ l r, u = .union l r
    · obtain ⟨l, r, rfl⟩ := hu
      by_cases ht : ∃ l r, t = .union l r
      · obtain ⟨l', r', rfl⟩ := ht
        simp only [Hir.subsumeCanonical]
        simp at hk
        exact (ih _ _ (by simp; omega)).bind fun _ => .ite (ih _ _ (by simp; omega)) (.ok _)
      · have e : ∀ n, Hir.subsumeCanonical n A t (.union l r) =
            (do if ← Hir.subsumeCanonical n A t l then .ok true else Hir.subsumeCanonical n A t r) := by
          intro n
          cases t with
          | union l' r' => exact absurd ⟨_, _, rfl⟩ ht
          | _ => simp [Hir.subsumeCanonical]
        simp only [e]
        simp at hk
        exact (ih _ _ (by omega)).bind fun _ => .ite (.ok _) (ih _ _ (by omega))
    · by_cases ha : u = .any
      · subst ha
        simp only [Hir.subsumeCanonical]
        exact .ok _
      · have e : ∀ n, Hir.subsumeCanonical n A t u = Hir.equalCheck n A t u := by
          intro n
          cases u with
          | union l' r' => exact absurd ⟨_, _, rfl⟩ hu
          | any => exact absurd rfl ha
          | _ => simp [Hir.subsumeCanonical]
        simp only [e]
        exact h.equalCheck t u

theorem AllEnd.subsumeCheck (h : AllEnd A) (t u : Ty) : Ends fun n => subsumeCheck n A t u := by
  unfold Hir.subsumeCheck
  exact (h t).bind fun _ => (h u).bind fun _ => h.subsumeCanonical _ _

theorem AllEnd.unionMemberSet (h : AllEnd A) (t : Ty) : Ends fun n => unionMemberSet n A t := by
  unfold Hir.unionMemberSet
  exact (h t).bind fun _ => .ok _

theorem AllEnd.typeDifference (h : AllEnd A) (t u : Ty) : Ends fun n => typeDifference n A t u := by
  unfold Hir.typeDifference
  exact (h t).bind fun _ => (h u).bind fun _ => .ite (.ok _) (.ite (.ok _)
    ((h.unionMemberSet _).bind fun _ => (h.unionMemberSet _).bind fun _ => .ok _))

theorem orErr_ends {α : Type} (o : Option α) (e : Err) : Ends fun _ => orErr o e := by
  refine .const ?_
  unfold orErr
  split <;> simp

theorem AllEnd.expectFunction (h : AllEnd A) (t : Ty) : Ends fun n => expectFunction n A t := by
  unfold Hir.expectFunction
  exact (h t).bind fun _ => .const (by split <;> simp)

theorem AllEnd.expectList (h : AllEnd A) (t : Ty) : Ends fun n => expectList n A t := by
  unfold Hir.expectList
  exact (h t).bind fun _ => .const (by split <;> simp)

theorem AllEnd.expectMap (h : AllEnd A) (t : Ty) : Ends fun n => expectMap n A t := by
  unfold Hir.expectMap
  exact (h t).bind fun _ => .const (by split <;> simp)

variable {C : Ctx}

theorem AllEnd.resolveFields (h : AllEnd C.types) (t : Ty) : Ends fun n => resolveFields n C t := by
  unfold Hir.resolveFields
  exact (h t).bind fun _ => .const (by split <;> [(unfold resolveRecord; split <;> simp); simp])

theorem fieldType_ends (fs : List RecordField) (x : String) : Ends fun _ => fieldType fs x := by
  refine .const ?_
  unfold fieldType
  split <;> simp

theorem AllEnd.bindElement (h : AllEnd C.types) (x : String) (t : Option Ty) : Ends fun n => bindElement n C x t := by
  unfold Hir.bindElement
  exact (orErr_ends _ _).bind fun _ => (h.expectList _).bind fun _ => .ok _

theorem bindLet_ends (x : Option String) (t : Option Ty) : Ends fun _ => bindLet x t := by
  refine .const ?_
  unfold bindLet orErr
  cases x <;> cases t <;> simp

theorem AllEnd.expectSub (h : AllEnd C.types) (t u : Ty) : Ends fun n => expectSub n C t u := by
  unfold Hir.expectSub
  exact (h.subsumeCheck _ _).bind fun _ => .ite (.ok _) (.err _)

theorem AllEnd.builtInType (h : AllEnd C.types) (f : BuiltIn) (ts : List Ty) : Ends fun n => builtInType n C f ts := by
  cases f <;> rcases ts with _ | ⟨t, _ | ⟨u, ts⟩⟩ <;> simp only [Hir.builtInType] <;>
    first
    | exact .ok _
    | exact .err _
    | exact (h.expectMap _).bind fun _ => .ok _
    | exact (h.expectList _).bind fun _ => .ok _

theorem AllEnd.checkBuiltIn (h : AllEnd C.types) (f : BuiltIn) (as : List Ty) (r : Ty) :
    Ends fun n => checkBuiltIn n C f as r := by
  cases f <;> rcases as with _ | ⟨t, _ | ⟨u, _ | ⟨v, ts⟩⟩⟩ <;> simp only [Hir.checkBuiltIn] <;>
    first
    | exact .ok _
    | exact .err _
    | exact (h.expectList _).bind fun _ => (h.expectList _).bind fun _ => .ok _
    | exact (h.expectFunction _).bind fun _ => .ite (.ok _) (.err _)
    | exact (h.expectSub _ _).bind fun _ => (h.expectMap _).bind fun _ => h.expectSub _ _
    | (refine .const ?_; split <;> simp)

end Hir

end Verif
