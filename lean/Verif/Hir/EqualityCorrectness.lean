import Verif.Hir.EqualityLemmas
import Verif.Hir.Soundness

/-!
# Comparison of values: the generated code compares
-/

namespace Verif.Hir

open Verif.Res

/-! ## The generated functions -/

theorem mapList_mem {α β : Type} {f : α → Res Err β} {as : List α} {bs : List β} (h : Res.mapList f as = .ok bs)
    {b : β} (hb : b ∈ bs) : ∃ a ∈ as, f a = .ok b := by
  rw [mapList_eq_ok] at h
  induction h with
  | nil => cases hb
  | cons h _ ih =>
    rcases List.mem_cons.mp hb with rfl | hb
    · exact ⟨_, by simp, h⟩
    · obtain ⟨q, h1, h2⟩ := ih hb
      exact ⟨q, List.mem_cons_of_mem _ h1, h2⟩

theorem mapList_mem_left {α β : Type} {f : α → Res Err β} {as : List α} {bs : List β} (h : Res.mapList f as = .ok bs)
    {a : α} (ha : a ∈ as) : ∃ b ∈ bs, f a = .ok b := by
  rw [mapList_eq_ok] at h
  induction h with
  | nil => cases ha
  | cons h _ ih =>
    rcases List.mem_cons.mp ha with rfl | ha
    · exact ⟨_, by simp, h⟩
    · obtain ⟨q, h1, h2⟩ := ih ha
      exact ⟨q, List.mem_cons_of_mem _ h1, h2⟩

theorem lastLookup_cons {β : Type} (p : String × β) (xs : List (String × β)) (x : String) :
    lastLookup (p :: xs) x = (lastLookup xs x).or (if p.1 = x then some p.2 else none) := by
  have h := lastLookup_append [p] xs x
  simp only [List.singleton_append] at h
  rw [h]
  congr 1
  unfold lastLookup
  by_cases h : p.1 = x <;> simp [h]

theorem lastLookup_filter {β : Type} (f : String → Bool) {x : String} (hx : f x = true) : ∀ (xs : List (String × β)),
    lastLookup (xs.filter fun p => f p.1) x = lastLookup xs x
  | [] => rfl
  | p :: xs => by
    have ih := lastLookup_filter f hx xs
    by_cases hp : f p.1 = true
    · rw [List.filter_cons_of_pos (by simpa using hp), lastLookup_cons, lastLookup_cons, ih]
    · rw [List.filter_cons_of_neg (by simpa using hp), lastLookup_cons, ih, if_neg]
      · simp
      · rintro rfl; exact hp hx

/-- The filter of comparable record types. -/
theorem filter_comparable {f : String → Res Err Bool} : ∀ {xs : List (String × List RecordField)}
    {ys : List ((String × List RecordField) × Bool)},
    Res.mapList (fun d : String × List RecordField => do
      let b ← f d.1
      .ok (d, b)) xs = .ok ys →
    (ys.filter fun p => p.2).map (·.1) = xs.filter fun d => f d.1 == .ok true
  | [], ys, h => by cases h; rfl
  | d :: xs, ys, h => by
    simp only [Res.mapList, bind_eq_ok] at h
    obtain ⟨p, ⟨b, hb, hp⟩, qs, hq, he⟩ := h
    cases hp
    cases he
    have ih := filter_comparable hq
    cases b <;> simp [hb, ih]

theorem lastLookup_definitions {K : EqualNames} {a : Nat} {A : Aliases} {R : Records} {n : String} :
    ∀ {xs : List (String × List RecordField)} {ds : List Definition},
    Res.mapList (fun d : String × List RecordField => equalDefinition K a A R d.1 d.2) xs = .ok ds →
    ∀ fs, lastLookup xs n = some fs → ∃ d, equalDefinition K a A R n fs = .ok d ∧
      lastLookup (ds.map fun d => (d.name, d)) (equalFunctionName n) = some d
  | [], ds, h, fs, hf => by simp [lastLookup] at hf
  | p :: xs, ds, h, fs, hf => by
    simp only [Res.mapList, bind_eq_ok] at h
    obtain ⟨d, hd, ds', hds, he⟩ := h
    cases he
    rw [lastLookup_cons] at hf
    cases hl : lastLookup xs n with
    | some gs =>
      rw [hl] at hf
      cases hf
      obtain ⟨d', h1, h2⟩ := lastLookup_definitions hds fs hl
      refine ⟨d', h1, ?_⟩
      rw [List.map_cons, lastLookup_cons, h2]
      rfl
    | none =>
      rw [hl] at hf
      simp only [Option.none_or] at hf
      split at hf
      · rename_i hp
        cases hf
        refine ⟨d, hp ▸ hd, ?_⟩
        rw [List.map_cons, lastLookup_cons]
        have hname : d.name = equalFunctionName n := by
          unfold equalDefinition at hd
          obtain ⟨e, _, he⟩ := bind_eq_ok.mp hd
          cases he
          simp [hp]
        have hnone : lastLookup (ds'.map fun d => (d.name, d)) (equalFunctionName n) = none := by
          clear hd hname
          clear d
          induction xs generalizing ds' with
          | nil => cases hds; rfl
          | cons q xs ih =>
            simp only [Res.mapList, bind_eq_ok] at hds
            obtain ⟨d, hd, ds'', hds', he⟩ := hds
            cases he
            rw [lastLookup_cons] at hl
            simp only [Option.or_eq_none_iff, ite_eq_right_iff] at hl
            rw [List.map_cons, lastLookup_cons, ih _ hds' hl.1]
            have : d.name ≠ equalFunctionName n := by
              unfold equalDefinition at hd
              obtain ⟨e, _, he⟩ := bind_eq_ok.mp hd
              cases he
              intro h
              have := hl.2 (equalFunctionName_inj h)
              cases this
            simp [this]
        rw [hnone, hname]
        simp
      · cases hf

variable {K : EqualNames} {a : Nat} {external : String → Bool} {m m' : Module}

theorem addEqualFunctions_ctx (h : addEqualFunctions K a external m = .ok m') : m'.ctx = m.ctx := by
  unfold addEqualFunctions at h
  obtain ⟨rs, _, h⟩ := bind_eq_ok.mp h
  obtain ⟨ds, _, h⟩ := bind_eq_ok.mp h
  cases h
  rfl

/-- The function that compares records of a type of the module. -/
theorem addEqualFunctions_internal (h : addEqualFunctions K a external m = .ok m') {n : String}
    (hn : external n = false) (hc : comparableCheck a m.ctx.types m.ctx.records (.record n) = .ok true)
    {fs : List RecordField} (hf : m.ctx.records n = some fs) :
    ∃ e, equalFields K a m.ctx.types m.ctx.records n fs = .ok e ∧
      lastLookup (m'.definitions.map fun d => (d.name, d)) (equalFunctionName n) =
        some ⟨equalFunctionName n, [("$lhs", .record n), ("$rhs", .record n)], .boolean, e⟩ := by
  unfold addEqualFunctions at h
  obtain ⟨rs, h1, h⟩ := bind_eq_ok.mp h
  obtain ⟨ds, h2, h⟩ := bind_eq_ok.mp h
  cases h
  simp only at h2 ⊢
  rw [filter_comparable (f := fun n => comparableCheck a m.ctx.types m.ctx.records (.record n)) h1] at h2
  obtain ⟨d, h3, h4⟩ := lastLookup_definitions (n := n) h2 fs (by
    rw [lastLookup_filter (fun n => !external n) (by simp [hn]),
      lastLookup_filter (fun n => comparableCheck a m.ctx.types m.ctx.records (.record n) == .ok true) (by simp [hc])]
    exact hf)
  unfold equalDefinition at h3
  obtain ⟨e, h5, he⟩ := bind_eq_ok.mp h3
  cases he
  refine ⟨e, h5, ?_⟩
  rw [List.map_append, lastLookup_append, h4]
  rfl

/-- The function that compares records of a type of another module. -/
theorem addEqualFunctions_external (h : addEqualFunctions K a external m = .ok m') {n : String}
    (hn : external n = true) (hc : comparableCheck a m.ctx.types m.ctx.records (.record n) = .ok true)
    {fs : List RecordField} (hf : m.ctx.records n = some fs) (hd : ∀ d ∈ m.definitions, d.name ≠ equalFunctionName n) :
    lastLookup (m'.definitions.map fun d => (d.name, d)) (equalFunctionName n) = none ∧
      equalFunctionName n ∈ m'.declarations.map (·.1) := by
  unfold addEqualFunctions at h
  obtain ⟨rs, h1, h⟩ := bind_eq_ok.mp h
  obtain ⟨ds, h2, h⟩ := bind_eq_ok.mp h
  cases h
  simp only at h2 ⊢
  rw [filter_comparable (f := fun n => comparableCheck a m.ctx.types m.ctx.records (.record n)) h1] at h2 ⊢
  refine ⟨?_, ?_⟩
  · unfold lastLookup
    simp only [Option.map_eq_none_iff, List.find?_eq_none, List.mem_reverse, List.mem_map, List.mem_append, beq_iff_eq]
    rintro p ⟨d, hd', rfl⟩ he
    rcases hd' with hd' | hd'
    · exact hd d hd' he
    · obtain ⟨q, hq, hq'⟩ := mapList_mem h2 hd'
      unfold equalDefinition at hq'
      obtain ⟨e, _, hq'⟩ := bind_eq_ok.mp hq'
      cases hq'
      have := equalFunctionName_inj he
      simp only [List.mem_filter] at hq
      rw [this, hn] at hq
      simp at hq
  · have : lastLookup m.types.records n = some fs := hf
    unfold lastLookup at this
    simp only [Option.map_eq_some_iff] at this
    obtain ⟨p, h3, h4⟩ := this
    have h5 := List.mem_of_find?_eq_some h3
    have h6 := List.find?_some h3
    simp only [List.mem_reverse, beq_iff_eq] at h5 h6
    simp only [List.map_append, List.mem_append, List.map_map]
    right
    simp only [List.mem_map, List.mem_filter]
    exact ⟨p, ⟨⟨h5, by simp [h6, hc]⟩, by simp [h6, hn]⟩, by simp [h6]⟩

/-! ## Type branches -/

variable {W : World} {n : Nat} {env : Env} {log log₁ log₂ : Log}

/-- The branch taken for a value of a member type. -/
theorem alternatives_members {x : String} {tag : Ty} {p : Val} {o : Option (Option Ty × Expr)} :
    ∀ {bs : List (Ty × Expr)}, (∀ b ∈ bs, canonicalize a m.ctx.types b.1 = .ok b.1 ∧ NotUnion b.1) →
    tag ∈ bs.map (·.1) → ∃ e, (tag, e) ∈ bs ∧
      stepAlternatives m (evaluator W m a n) env x tag p bs o log =
        (evaluator W m a n).eval (env.insert x p) e log
  | [], _, h => by simp at h
  | (t, e) :: bs, hb, h => by
    obtain ⟨h1, h2⟩ := hb (t, e) (by simp)
    simp only at h1 h2
    have hm := unionMembers_of_notUnion h2
    by_cases ht : tag = t
    · subst ht
      refine ⟨e, by simp, ?_⟩
      rw [alternatives_match h1 (by simp [hm])]
      have : alternativeValue tag tag p = p := by
        unfold alternativeValue
        split
        · exact absurd rfl (h2 _ _)
        · rfl
      rw [this]
    · obtain ⟨e', h3, h4⟩ := alternatives_members (bs := bs) (fun b hb' => hb b (by simp [hb']))
        (by simpa [ht] using h)
      refine ⟨e', by simp [h3], ?_⟩
      rw [alternatives_skip h1 (by simp [hm, ht]), h4]

/-- What the else branch is for. -/
theorem otherMembers_ok {A : Aliases} {ms : List Ty} {u o : Ty} (h : otherMembers a A ms u = .ok o)
    (hm : ∀ t ∈ ms, Canon A t t ∧ NotUnion t) (hu : u ∈ ms) :
    canonicalize a A u = .ok u ∧ ∃ c, canonicalize a A o = .ok c ∧ ∀ t ∈ ms, t ≠ u → c = .any ∨ t ∈ unionMembers c := by
  unfold otherMembers at h
  obtain ⟨ts, h1, h⟩ := bind_eq_ok.mp h
  have hcu : canonicalize a A u = .ok u := by
    obtain ⟨b, _, hb⟩ := mapList_mem_left h1 hu
    obtain ⟨b', hb', _⟩ := bind_eq_ok.mp hb
    unfold equalCheck at hb'
    obtain ⟨c, hc, _⟩ := bind_eq_ok.mp hb'
    rw [hc, (hm u hu).1.ok_eq hc]
  refine ⟨hcu, ?_⟩
  split at h
  · rename_i t ht
    obtain ⟨c, hc, h⟩ := bind_eq_ok.mp h
    cases h
    refine ⟨c, hc, ?_⟩
    have hself : List.Forall₂ (Canon A) ((ts.filter fun p => !p.2).map (·.1)) ((ts.filter fun p => !p.2).map (·.1)) := by
      rw [List.forall₂_same]
      intro x hx
      simp only [List.mem_map, List.mem_filter] at hx
      obtain ⟨p, ⟨hp, _⟩, rfl⟩ := hx
      obtain ⟨q, hq, hq'⟩ := mapList_mem h1 hp
      obtain ⟨b', _, hb'⟩ := bind_eq_ok.mp hq'
      cases hb'
      exact (hm q hq).1
    obtain ⟨j, g1, g2, g3, g4⟩ := canon_createUnion ht hself
    have := g1.ok_eq hc
    subst this
    intro t' ht' hne
    by_cases hany : c = .any
    · exact Or.inl hany
    · right
      rw [g4 hany]
      refine ⟨t', ?_, ?_⟩
      · obtain ⟨q, hq, hq'⟩ := mapList_mem_left h1 ht'
        obtain ⟨b', hb', he⟩ := bind_eq_ok.mp hq'
        cases he
        have hb : b' = false := by
          cases b' with
          | false => rfl
          | true => exact absurd ((equalCheck_ok hb' (hm t' ht').1 (hm u hu).1).mp rfl) hne
        subst hb
        simp only [List.mem_map, List.mem_filter]
        exact ⟨_, ⟨hq, rfl⟩, rfl⟩
      · have := (hm t' ht').2
        rw [unionMembers_of_notUnion this]; simp
  · cases h

end Verif.Hir
