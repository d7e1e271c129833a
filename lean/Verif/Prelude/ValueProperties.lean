import Verif.Prelude.Values
import Verif.Prelude.MapProperties

/-!
# C19: equal values have equal hashes

For the comparison and hash functions the compiler generates (`equal`, `hash`), for every comparable type
without lists. Lists: `c19_list_hash_unreachable` (`ListProperties.lean`).
-/
namespace Verif.Prelude.Values

open Verif.Prelude

theorem equalNumbers_symm {a b : BitVec 64} (h : equalNumbers a b = true) : equalNumbers b a = true := by
  simp only [equalNumbers, Bool.and_eq_true, Bool.or_eq_true, beq_iff_eq] at *
  obtain ⟨⟨h1, h2⟩, h3⟩ := h
  refine ⟨⟨h2, h1⟩, ?_⟩
  rcases h3 with ⟨h4, h5⟩ | h4
  · exact Or.inl ⟨h5, h4⟩
  · exact Or.inr h4.symm

theorem equalNumbers_trans {a b c : BitVec 64} (h : equalNumbers a b = true) (h' : equalNumbers b c = true) :
    equalNumbers a c = true := by
  simp only [equalNumbers, Bool.and_eq_true, Bool.or_eq_true, beq_iff_eq] at *
  obtain ⟨⟨h1, h2⟩, h3⟩ := h
  obtain ⟨⟨h1', h2'⟩, h3'⟩ := h'
  refine ⟨⟨h1, h2'⟩, ?_⟩
  rcases h3 with ⟨h4, h5⟩ | rfl
  · rcases h3' with ⟨h4', h5'⟩ | rfl
    · exact Or.inl ⟨h4, h5'⟩
    · exact Or.inl ⟨h4, h5⟩
  · exact h3'

theorem hashNumber_congr (sip : BitVec 64 → BitVec 64) {a b : BitVec 64} (h : equalNumbers a b = true) :
    hashNumber sip a = hashNumber sip b := by
  simp only [equalNumbers, Bool.and_eq_true, Bool.or_eq_true, beq_iff_eq] at h
  rcases h.2 with ⟨h4, h5⟩ | rfl
  · simp [hashNumber, h4, h5]
  · rfl

/-- Two values with a common tag pass the same tests. -/
theorem hasTag_congr {env : Env} {t : CTy} {x y : Val} (hx : hasTag env t x = true) (hy : hasTag env t y = true)
    (t' : CTy) : hasTag env t' x = hasTag env t' y := by
  cases t <;> cases x <;> simp only [hasTag, Bool.false_eq_true] at hx <;> cases y <;>
    simp only [hasTag, Bool.false_eq_true] at hy <;> cases t' <;> simp_all [hasTag]

theorem equalUnion_iff {env : Env} {eq : CTy → Val → Val → Bool} (ts : List CTy) (x y : Val) :
    equalUnion env eq ts x y = true ↔
      ∃ t, ts.find? (fun t => hasTag env t x) = some t ∧ hasTag env t y = true ∧ eq t x y = true := by
  induction ts with
  | nil => simp [equalUnion]
  | cons t ts ih =>
    rw [equalUnion]
    cases hx : hasTag env t x with
    | true =>
      cases hy : hasTag env t y <;> simp [List.find?_cons, hx, hy]
    | false => simp only [Bool.false_eq_true, if_false, ih, List.find?_cons, hx]

theorem hashUnion_eq {env : Env} {h : CTy → Val → BitVec 64} (ts : List CTy) (x : Val) :
    hashUnion env h ts x = match ts.find? (fun t => hasTag env t x) with | some t => h t x | none => 0 := by
  induction ts with
  | nil => rfl
  | cons t ts ih =>
    rw [hashUnion]
    cases hx : hasTag env t x with
    | true => simp [List.find?_cons, hx]
    | false => simp only [Bool.false_eq_true, if_false, ih, List.find?_cons, hx]

theorem find_congr {env : Env} {t : CTy} {x y : Val} (hx : hasTag env t x = true) (hy : hasTag env t y = true)
    (ts : List CTy) : ts.find? (fun t => hasTag env t x) = ts.find? (fun t => hasTag env t y) := by
  congr 1
  funext t'
  exact hasTag_congr hx hy t'

theorem equalFields_symm {eq : CTy → Val → Val → Bool} (he : ∀ t x y, eq t x y = true → eq t y x = true) :
    ∀ (ts : List CTy) (xs ys : List Val), equalFields eq ts xs ys = true → equalFields eq ts ys xs = true := by
  intro ts
  induction ts with
  | nil => intro xs ys _; rfl
  | cons t ts ih =>
    intro xs ys h
    cases xs <;> cases ys <;> simp [equalFields] at h ⊢
    exact ⟨he _ _ _ h.1, ih _ _ h.2⟩

theorem equalFields_trans {eq : CTy → Val → Val → Bool}
    (he : ∀ t x y z, eq t x y = true → eq t y z = true → eq t x z = true) :
    ∀ (ts : List CTy) (xs ys zs : List Val), equalFields eq ts xs ys = true → equalFields eq ts ys zs = true →
      equalFields eq ts xs zs = true := by
  intro ts
  induction ts with
  | nil => intro xs ys zs _ _; rfl
  | cons t ts ih =>
    intro xs ys zs h h'
    cases xs <;> cases ys <;> cases zs <;> simp [equalFields] at h h' ⊢
    exact ⟨he _ _ _ _ h.1 h'.1, ih _ _ _ h.2 h'.2⟩

theorem hashFields_congr {eq : CTy → Val → Val → Bool} {hash : CTy → Val → BitVec 64}
    (he : ∀ t x y, eq t x y = true → hash t x = hash t y) (init : BitVec 64) :
    ∀ (ts : List CTy) (xs ys : List Val), equalFields eq ts xs ys = true →
      hashFields hash init ts xs = hashFields hash init ts ys := by
  intro ts
  induction ts with
  | nil => intro xs ys _; simp [hashFields]
  | cons t ts ih =>
    intro xs ys h
    cases xs <;> cases ys <;> simp [equalFields] at h
    simp only [hashFields, he _ _ _ h.1, ih _ _ h.2]

theorem equal_symm (env : Env) : ∀ (n : Nat) (t : CTy) (x y : Val),
    equal env n t x y = true → equal env n t y x = true := by
  intro n
  induction n with
  | zero => intro t x y h; simp [equal] at h
  | succ n ih =>
    intro t x y h
    cases t with
    | none => cases x <;> cases y <;> simp_all [equal]
    | boolean =>
      cases x <;> simp [equal] at h
      cases y <;> simp [equal] at h
      rename_i a b
      cases a <;> cases b <;> simp_all [equal]
    | number =>
      cases x <;> simp [equal] at h
      cases y <;> simp [equal] at h
      simp only [equal]
      exact equalNumbers_symm h
    | string =>
      cases x <;> simp [equal] at h
      cases y <;> simp [equal] at h
      simp [equal, h]
    | record name =>
      cases x <;> simp [equal] at h
      cases y <;> simp [equal] at h
      simp only [equal]
      exact equalFields_symm ih _ _ _ h
    | map k v =>
      cases x <;> simp [equal] at h
      cases y <;> simp [equal] at h
      simp only [equal]
      rw [equalMaps_iff] at h ⊢
      refine ⟨h.1.symm, equalEntries_symm ?_ ?_ _ _ h.2⟩
      · intro a b hab; simpa [mapContext] using ih k a b (by simpa [mapContext] using hab)
      · intro a b hab; simpa [mapContext] using ih v a b (by simpa [mapContext] using hab)
    | union ts =>
      have h' : equalUnion env (equal env n) ts x y = true := by
        cases x <;> cases y <;> simpa [equal] using h
      have g : equalUnion env (equal env n) ts y x = true := by
        rw [equalUnion_iff] at h' ⊢
        obtain ⟨t, h1, h2, h3⟩ := h'
        have hx := List.find?_some h1
        exact ⟨t, by rw [← h1]; exact (find_congr hx h2 ts).symm, hx, ih _ _ _ h3⟩
      cases x <;> cases y <;> simpa [equal] using g

theorem equal_trans (env : Env) : ∀ (n : Nat) (t : CTy) (x y z : Val),
    equal env n t x y = true → equal env n t y z = true → equal env n t x z = true := by
  intro n
  induction n with
  | zero => intro t x y z h; simp [equal] at h
  | succ n ih =>
    intro t x y z h h'
    cases t with
    | none => cases x <;> cases y <;> cases z <;> simp_all [equal]
    | boolean =>
      cases x <;> simp [equal] at h
      cases y <;> simp [equal] at h
      cases z <;> simp [equal] at h'
      rename_i a b c
      cases a <;> cases b <;> cases c <;> simp_all [equal]
    | number =>
      cases x <;> simp [equal] at h
      cases y <;> simp [equal] at h
      cases z <;> simp [equal] at h'
      simp only [equal]
      exact equalNumbers_trans h h'
    | string =>
      cases x <;> simp [equal] at h
      cases y <;> simp [equal] at h
      cases z <;> simp [equal] at h'
      simp [equal, h, h']
    | record name =>
      cases x <;> simp [equal] at h
      cases y <;> simp [equal] at h
      cases z <;> simp [equal] at h'
      simp only [equal]
      exact equalFields_trans ih _ _ _ _ h h'
    | map k v =>
      cases x <;> simp [equal] at h
      cases y <;> simp [equal] at h
      cases z <;> simp [equal] at h'
      simp only [equal]
      rw [equalMaps_iff] at h h' ⊢
      refine ⟨h.1.trans h'.1, equalEntries_trans ?_ ?_ _ _ _ h.2 h'.2⟩
      · intro a b c hab hbc
        simpa [mapContext] using ih k a b c (by simpa [mapContext] using hab) (by simpa [mapContext] using hbc)
      · intro a b c hab hbc
        simpa [mapContext] using ih v a b c (by simpa [mapContext] using hab) (by simpa [mapContext] using hbc)
    | union ts =>
      have h1 : equalUnion env (equal env n) ts x y = true := by
        cases x <;> cases y <;> simpa [equal] using h
      have h2 : equalUnion env (equal env n) ts y z = true := by
        cases y <;> cases z <;> simpa [equal] using h'
      have g : equalUnion env (equal env n) ts x z = true := by
        rw [equalUnion_iff] at h1 h2 ⊢
        obtain ⟨t, a1, a2, a3⟩ := h1
        obtain ⟨t', b1, b2, b3⟩ := h2
        have hx := List.find?_some a1
        rw [← find_congr hx a2 ts, a1] at b1
        cases b1
        exact ⟨t, a1, b2, ih _ _ _ _ a3 b3⟩
      cases x <;> cases z <;> simpa [equal] using g

/-- Hashing a map uses only the hash functions of its context. -/
theorem hashEntry_ctx {K V : Type} {c c' : Ctx K V} (hk : c.hashKey = c'.hashKey)
    (hv : c.hashValue = c'.hashValue) (e : Entry K V) : ∀ x, hashEntry c e x = hashEntry c' e x := by
  induction e with
  | none => intro x; rfl
  | kv k v => intro x; simp only [hashEntry, hk, hv]
  | hamt f ih =>
    intro x
    simp only [hashEntry]
    congr 1
    congr 1
    funext r i
    exact ih i r

theorem hashMap_ctx {K V : Type} {c c' : Ctx K V} (hk : c.hashKey = c'.hashKey)
    (hv : c.hashValue = c'.hashValue) (x : BitVec 64) (m : Map K V) : hashMap c x m = hashMap c' x m := by
  unfold hashMap
  congr 1
  funext r i
  exact hashEntry_ctx hk hv _ r

/-- **C19**: values that compare equal have the same hash, at every comparable type without lists (numbers
including both zeros, strings, records, unions and maps, nested to any depth). -/
theorem c19_equal_hash_partial (env : Env) : ∀ (n : Nat) (t : CTy) (x y : Val),
    equal env n t x y = true → ∀ m, hash env m t x = hash env m t y := by
  intro n
  induction n with
  | zero => intro t x y h; simp [equal] at h
  | succ n ih =>
    intro t x y h m
    cases m with
    | zero => simp [hash]
    | succ m =>
      cases t with
      | none => cases x <;> cases y <;> simp_all [equal]
      | boolean =>
        cases x <;> simp [equal] at h
        cases y <;> simp [equal] at h
        rename_i a b
        cases a <;> cases b <;> simp_all [hash]
      | number =>
        cases x <;> simp [equal] at h
        cases y <;> simp [equal] at h
        simp only [hash]
        exact hashNumber_congr _ h
      | string =>
        cases x <;> simp [equal] at h
        cases y <;> simp [equal] at h
        simp [h]
      | record name =>
        cases x <;> simp [equal] at h
        cases y <;> simp [equal] at h
        simp only [hash]
        exact hashFields_congr (fun t a b hab => ih t a b hab m) _ _ _ _ h
      | map k v =>
        cases x <;> simp [equal] at h
        cases y <;> simp [equal] at h
        simp only [hash]
        -- comparison with fuel `n`, hashes with fuel `m`
        have e : equalMaps (mapContext env (equal env n) (hash env m) k v) ⟨_, _⟩ ⟨_, _⟩ = true := h
        have c : ∀ mp, hashMap (mapContext env (equal env m) (hash env m) k v) env.mapHeader mp =
            hashMap (mapContext env (equal env n) (hash env m) k v) env.mapHeader mp :=
          fun mp => hashMap_ctx (c := mapContext env (equal env m) (hash env m) k v)
            (c' := mapContext env (equal env n) (hash env m) k v) rfl rfl _ mp
        rw [c, c]
        exact c19_map_hash (ctx := mapContext env (equal env n) (hash env m) k v)
          (fun a b hab => ih k a b hab m) (fun a b hab => ih v a b hab m) e env.mapHeader
      | union ts =>
        have h' : equalUnion env (equal env n) ts x y = true := by
          cases x <;> cases y <;> simpa [equal] using h
        have g : hashUnion env (hash env m) ts x = hashUnion env (hash env m) ts y := by
          rw [equalUnion_iff] at h'
          obtain ⟨t, h1, h2, h3⟩ := h'
          have hx := List.find?_some h1
          rw [hashUnion_eq, hashUnion_eq, ← find_congr hx h2 ts, h1]
          exact ih _ _ _ h3 m
        cases x <;> cases y <;> simpa [hash] using g

/-- The map contexts that the compiler generates are lawful, so that C10-C17 apply to them. -/
theorem c19_generated_lawful (env : Env) (n m : Nat) (k v : CTy) :
    (mapContext env (equal env n) (hash env m) k v).Lawful where
  symm := fun a b h => equal_symm env n k a b h
  trans := fun a b c h h' => equal_trans env n k a b c h h'
  hash := fun a b h => c19_equal_hash_partial env n k a b h m

/-- **C19**, lookups: equal keys find the same entry, in every map whatsoever. -/
theorem c19_lookup {K V : Type} {ctx : Ctx K V} (law : ctx.Lawful) {a b : K} (h : ctx.equalKeys a b = true)
    (m : Map K V) : getMap ctx m a = getMap ctx m b := by
  have key : ∀ (e : Entry K V) (lay d : Nat), getFromEntry ctx a e lay d = getFromEntry ctx b e lay d := by
    intro e
    induction e with
    | none => intro lay d; rfl
    | kv k v =>
      intro lay d
      simp only [getFromEntry]
      have : ctx.equalKeys k a = ctx.equalKeys k b := by
        rw [Bool.eq_iff_iff]
        exact ⟨fun hk => law.trans _ _ _ hk h, fun hk => law.trans _ _ _ hk (law.symm _ _ h)⟩
      rw [this]
    | hamt f ih =>
      intro lay d
      simp only [getFromEntry, index_congr law h]
      exact ih _ _ _
  unfold getMap getValue
  rw [index_congr law h]
  exact key _ _ _

/-- A record type `point {x number, y number | none}`. -/
def exampleEnv : Env where
  fields _ := [.number, .union [.number, .none]]
  identityHash _ := 7#64
  mapTag _ _ := 0
  sip x := x + 1#64
  sipString l := BitVec.ofNat 64 l.length
  noneHash := 0#64
  trueHash := 0x3FF0000000000000#64
  falseHash := 0x4000000000000000#64
  mapHeader := 0x4014000000000000#64

/-- `point{x: 0, y: none}` and `point{x: -0, y: none}` are equal; a NaN is not equal to itself. -/
example : equal exampleEnv 3 (.record "point") (.record "point" [.number 0#64, .none])
      (.record "point" [.number 0x8000000000000000#64, .none]) = true ∧
    equal exampleEnv 3 .number (.number 0x7FF8000000000000#64) (.number 0x7FF8000000000000#64) = false := by
  decide +kernel

/-- Setting a NaN twice never returns, since it is not equal to itself. -/
theorem c17_nan_diverges (env : Env) (n : Nat) (m : Nat) (v : CTy) {k : Nat} {x y : Val}
    {mp : Map Val Val}
    (hs : setMap (mapContext env (equal env (n + 1)) (hash env m) .number v) k newMap
      (.number 0x7FF8000000000000#64) x = some mp) :
    ∀ k', setMap (mapContext env (equal env (n + 1)) (hash env m) .number v) k' mp
      (.number 0x7FF8000000000000#64) y = none :=
  c17_set_diverges (c19_generated_lawful env (n + 1) m .number v) hs rfl (by
    simp only [mapContext, equal]
    decide +kernel)

end Verif.Prelude.Values
