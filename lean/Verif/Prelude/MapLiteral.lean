import Verif.Prelude.MapProperties

/-!
# C48: map literals

The calls that a map literal is compiled to, evaluated with the map operations of the prelude.
-/

namespace Verif.Prelude

/-- Elements of map literals with their values: `MapElement` (`lib/hir/src/ir/map_element.rs:5-9`). -/
inductive MapElement (K V : Type) where
  | single (key : K) (value : V)
  | multiple (map : Map K V)

/-- `transform_map` (`lib/hir-mir/src/transformation/map_literal.rs:38-132`), the elements in reverse order. The
expressions are evaluated already; the result is `none` if a call does not return within the fuel. -/
def transformMap {K V : Type} (ctx : Ctx K V) (fuel : Nat) : List (MapElement K V) → Option (Map K V)
  | [] => some newMap
  | [.multiple m] => some m
  | .single k v :: rest => (transformMap ctx fuel rest).bind fun x => setMap ctx fuel x k v
  | .multiple m :: rest => (transformMap ctx fuel rest).bind fun x => mergeMaps ctx fuel m x

/-- The map a literal evaluates to. -/
def mapLiteral {K V : Type} (ctx : Ctx K V) (fuel : Nat) (es : List (MapElement K V)) : Option (Map K V) :=
  transformMap ctx fuel es.reverse

/-! ## Specification -/

section
variable {K V : Type} (ctx : Ctx K V) (k : K)

/-- What an element has for a key. -/
def MapElement.lookup : MapElement K V → Option V
  | .single k' v => if ctx.equalKeys k' k then some v else none
  | .multiple m => getMap ctx m k

/-- The value of the last element that has the key. -/
def LastWins (es : List (MapElement K V)) (o : Option V) : Prop :=
  (o = none ∧ ∀ e ∈ es, e.lookup ctx k = none) ∨
    ∃ pre e post v, es = pre ++ e :: post ∧ e.lookup ctx k = some v ∧ o = some v ∧
      ∀ e' ∈ post, e'.lookup ctx k = none

/-- The value of the last single entry that has the key, or else of the first spread map that has it. -/
def EntriesThenFirstSpread (es : List (MapElement K V)) (o : Option V) : Prop :=
  (o = none ∧ ∀ e ∈ es, e.lookup ctx k = none) ∨
    (∃ pre k' v post, es = pre ++ .single k' v :: post ∧ ctx.equalKeys k' k = true ∧ o = some v ∧
      ∀ k' v', .single k' v' ∈ post → ctx.equalKeys k' k = false) ∨
    ((∀ k' v', .single k' v' ∈ es → ctx.equalKeys k' k = false) ∧
      ∃ pre m post v, es = pre ++ .multiple m :: post ∧ getMap ctx m k = some v ∧ o = some v ∧
        ∀ m', .multiple m' ∈ pre → getMap ctx m' k = none)

end

variable {K V : Type} {ctx : Ctx K V}

/-- All spread maps are maps that programs can build. -/
def SpreadsBuilt (ctx : Ctx K V) (es : List (MapElement K V)) : Prop := ∀ m, .multiple m ∈ es → Built ctx m

/-! ## Proofs -/

theorem transformMap_multiple {n : Nat} {m x : Map K V} {rest : List (MapElement K V)}
    (h : transformMap ctx n (.multiple m :: rest) = some x) (hm : Built ctx m) :
    ∃ y, transformMap ctx n rest = some y ∧ mergeMaps ctx n m y = some x := by
  cases rest with
  | nil =>
    simp only [transformMap, Option.some.injEq] at h
    subst h
    refine ⟨newMap, rfl, ?_⟩
    rw [mergeMaps_eq]
    have : hentries (newMap : Map K V).hamt = [] := by simp [hentries, newMap, newHamt, entries]
    rw [this]
    rfl
  | cons e rest =>
    simp only [transformMap, Option.bind_eq_some_iff] at h
    exact h

theorem transformMap_built : ∀ {n : Nat} {es : List (MapElement K V)} {x : Map K V}, SpreadsBuilt ctx es →
    transformMap ctx n es = some x → Built ctx x
  | _, [], x, _, h => by cases h; exact .new
  | n, .single k v :: rest, x, hs, h => by
    simp only [transformMap, Option.bind_eq_some_iff] at h
    obtain ⟨y, h1, h2⟩ := h
    exact .set (transformMap_built (fun m hm => hs m (by simp [hm])) h1) h2
  | n, .multiple m :: rest, x, hs, h => by
    have hm := hs m (by simp)
    obtain ⟨y, h1, h2⟩ := transformMap_multiple h hm
    exact .merge hm (transformMap_built (fun m hm => hs m (by simp [hm])) h1) h2

/-- C48, what literals mean: single entries override spread maps wherever they are, later ones override
earlier ones, and earlier spread maps override later ones. -/
theorem c48_literal (law : ctx.Lawful) {n : Nat} {es : List (MapElement K V)} {x : Map K V}
    (hs : SpreadsBuilt ctx es) (h : mapLiteral ctx n es = some x) (k : K) :
    EntriesThenFirstSpread ctx k es (getMap ctx x k) := by
  unfold mapLiteral at h
  rw [← es.reverse_reverse]
  have hs' : SpreadsBuilt ctx es.reverse := fun m hm => hs m (List.mem_reverse.mp hm)
  clear hs
  generalize es.reverse = rs at h hs'
  clear es
  induction rs generalizing x with
  | nil =>
    cases h
    refine Or.inl ⟨?_, by simp⟩
    cases hg : getMap ctx (newMap : Map K V) k with
    | none => rfl
    | some v =>
      obtain ⟨k0, h0, _⟩ := ((Built.new (ctx := ctx)).inv law |>.get_iff law).1 hg
      simp [hentries, newMap, newHamt, entries] at h0
  | cons e rest ih =>
    have hr : SpreadsBuilt ctx rest := fun m hm => hs' m (by simp [hm])
    rw [List.reverse_cons]
    cases e with
    | single k1 v1 =>
      simp only [transformMap, Option.bind_eq_some_iff] at h
      obtain ⟨y, h1, h2⟩ := h
      have hy := transformMap_built hr h1
      have ih := ih h1 hr
      by_cases hk : ctx.equalKeys k1 k = true
      · rw [c10_get_after_set_partial law hy h2 hk]
        exact Or.inr (Or.inl ⟨rest.reverse, k1, v1, [], by simp, hk, rfl, by simp⟩)
      · have hk : ctx.equalKeys k1 k = false := by simpa using hk
        rw [c11_set_other law h2 hk]
        rcases ih with ⟨h3, h4⟩ | ⟨pre, k', v, post, h3, h4, h5, h6⟩ | ⟨h0, pre, m, post, v, h3, h4, h5, h6⟩
        · refine Or.inl ⟨h3, fun e he => ?_⟩
          rcases List.mem_append.mp he with he | he
          · exact h4 e he
          · simp only [List.mem_singleton] at he
            subst he
            simp [MapElement.lookup, hk]
        · refine Or.inr (Or.inl ⟨pre, k', v, post ++ [.single k1 v1], by simp [h3], h4, h5, fun k' v' hm => ?_⟩)
          rcases List.mem_append.mp hm with hm | hm
          · exact h6 k' v' hm
          · simp only [List.mem_singleton, MapElement.single.injEq] at hm
            rw [hm.1]; exact hk
        · refine Or.inr (Or.inr ⟨fun k' v' hm => ?_, pre, m, post ++ [.single k1 v1], v, by simp [h3], h4, h5, h6⟩)
          rcases List.mem_append.mp hm with hm | hm
          · exact h0 k' v' hm
          · simp only [List.mem_singleton, MapElement.single.injEq] at hm
            rw [hm.1]; exact hk
    | multiple m1 =>
      have hm1 := hs' m1 (by simp)
      obtain ⟨y, h1, h2⟩ := transformMap_multiple h hm1
      have hy := transformMap_built hr h1
      have ih := ih h1 hr
      rw [c15_merge_partial law hm1 hy h2]
      rcases ih with ⟨h3, h4⟩ | ⟨pre, k', v, post, h3, h4, h5, h6⟩ | ⟨h0, pre, m, post, v, h3, h4, h5, h6⟩
      · rw [h3, Option.none_or]
        cases hg : getMap ctx m1 k with
        | none =>
          refine Or.inl ⟨rfl, fun e he => ?_⟩
          rcases List.mem_append.mp he with he | he
          · exact h4 e he
          · simp only [List.mem_singleton] at he
            subst he
            simpa [MapElement.lookup] using hg
        | some v =>
          refine Or.inr (Or.inr ⟨fun k' v' hm => ?_, rest.reverse, m1, [], v, by simp, hg, rfl, fun m' hm => ?_⟩)
          · rcases List.mem_append.mp hm with hm | hm
            · have := h4 _ hm
              simpa [MapElement.lookup] using this
            · simp at hm
          · exact h4 _ hm
      · rw [h5, Option.some_or]
        refine Or.inr (Or.inl ⟨pre, k', v, post ++ [.multiple m1], by simp [h3], h4, rfl, fun k' v' hm => ?_⟩)
        rcases List.mem_append.mp hm with hm | hm
        · exact h6 k' v' hm
        · simp at hm
      · rw [h5, Option.some_or]
        refine Or.inr (Or.inr ⟨fun k' v' hm => ?_, pre, m, post ++ [.multiple m1], v, by simp [h3], h4, rfl, h6⟩)
        rcases List.mem_append.mp hm with hm | hm
        · exact h0 k' v' hm
        · simp at hm

/-- C48 for literals in which no spread map has a key that an element before it has: the last element with the
key wins. -/
theorem c48_last_wins_partial (law : ctx.Lawful) {n : Nat} {es : List (MapElement K V)} {x : Map K V}
    (hs : SpreadsBuilt ctx es) (h : mapLiteral ctx n es = some x) (k : K)
    (hd : ∀ pre m post, es = pre ++ .multiple m :: post → getMap ctx m k ≠ none →
      ∀ e ∈ pre, e.lookup ctx k = none) :
    LastWins ctx k es (getMap ctx x k) := by
  rcases c48_literal law hs h k with h1 | ⟨pre, k', v, post, h3, h4, h5, h6⟩ | ⟨h0, pre, m, post, v, h3, h4, h5, h6⟩
  · exact Or.inl h1
  · refine Or.inr ⟨pre, _, post, v, h3, by simp [MapElement.lookup, h4], h5, fun e' he => ?_⟩
    cases e' with
    | single k1 v1 => simp [MapElement.lookup, h6 k1 v1 he]
    | multiple m1 =>
      obtain ⟨a, b, rfl⟩ := List.append_of_mem he
      cases hg : getMap ctx m1 k with
      | none => exact hg
      | some w =>
        have := hd (pre ++ .single k' v :: a) m1 b (by simp [h3]) (by simp [hg]) (.single k' v) (by simp)
        simp [MapElement.lookup, h4] at this
  · refine Or.inr ⟨pre, _, post, v, h3, h4, h5, fun e' he => ?_⟩
    cases e' with
    | single k1 v1 => simp [MapElement.lookup, h0 k1 v1 (by simp [h3, he])]
    | multiple m1 =>
      obtain ⟨a, b, rfl⟩ := List.append_of_mem he
      cases hg : getMap ctx m1 k with
      | none => exact hg
      | some w =>
        have := hd (pre ++ .multiple m :: a) m1 b (by simp [h3]) (by simp [hg]) (.multiple m) (by simp)
        simp [MapElement.lookup, h4] at this

/-! ## Examples -/

/-- `{1: 10, ...{2: 20}, 1: 30}`. -/
example : ((sets wordCtx 13 [(2#64, 20)]).bind fun m =>
    (mapLiteral wordCtx 13 [.single 1#64 10, .multiple m, .single 1#64 30]).map fun x =>
      (getMap wordCtx x 1#64, getMap wordCtx x 2#64)) = some (some 30, some 20) := by decide +kernel

/-- The full C48 is false: the entries of a spread map do not override what precedes it. In
`{1: 10, ...{1: 20}}`, the value of 1 is 10. -/
theorem c48_spread_does_not_override :
    ∃ (m x : Map (BitVec 64) Nat), Built wordCtx m ∧
      mapLiteral wordCtx 13 [.single 1#64 10, .multiple m] = some x ∧
      getMap wordCtx m 1#64 = some 20 ∧ getMap wordCtx x 1#64 = some 10 ∧
      ¬ LastWins wordCtx 1#64 [.single 1#64 10, .multiple m] (getMap wordCtx x 1#64) := by
  have h : ((setMap wordCtx 13 newMap 1#64 20).bind fun m =>
      (mapLiteral wordCtx 13 [.single 1#64 10, .multiple m]).map fun x =>
      (getMap wordCtx m 1#64, getMap wordCtx x 1#64)) = some (some 20, some 10) := by decide +kernel
  cases hm : setMap wordCtx 13 newMap 1#64 20 with
  | none => rw [hm] at h; cases h
  | some m =>
    rw [hm] at h
    simp only [Option.bind_some] at h
    cases hx : mapLiteral wordCtx 13 [.single 1#64 10, .multiple m] with
    | none => rw [hx] at h; cases h
    | some x =>
      rw [hx] at h
      simp only [Option.map_some, Option.some.injEq, Prod.mk.injEq] at h
      refine ⟨m, x, .set .new hm, hx, h.1, h.2, ?_⟩
      rw [h.2]
      rintro (⟨h1, _⟩ | ⟨pre, e, post, v, h1, h2, h3, h4⟩)
      · cases h1
      · cases h3
        match pre, h1 with
        | [], h1 =>
          simp only [List.nil_append, List.cons.injEq] at h1
          have := h4 (.multiple m) (by rw [← h1.2]; simp)
          simp [MapElement.lookup, h.1] at this
        | [a], h1 =>
          simp only [List.cons_append, List.nil_append, List.cons.injEq] at h1
          rw [← h1.2.1] at h2
          simp [MapElement.lookup, h.1] at h2
        | a :: b :: pre, h1 => simp at h1

end Verif.Prelude
