import Verif.Prelude.MapLemmas2

/-!
# Maps: C10-C17

`getMap`, `setMap`, `deleteMap`, `mergeMaps`, `iterateMap`, `mapSize`, `equalMaps` and `hashMap` are the
exported functions of `packages/prelude/Map.pen`. A context is *lawful* if key equality is symmetric and transitive
and hashes respect it; the contexts that the compiler generates are (`c19_generated_lawful`). Key equality need
not be reflexive, because a NaN is not equal to itself.

`normalizeHamt` lifts a subtree one level up without re-hashing it, so that `DeleteMap` can lose keys
(`c12_delete_loses_keys`). The positive theorems below that are named `_partial` are about histories in which
every deletion is *safe* (`DeleteSafe`), i.e. such that the bug is not triggered; the remaining ones hold for
every map value whatsoever.
-/
namespace Verif.Prelude

variable {K V : Type}

/-- Two keys have the same first `d` indices. -/
def ShareIndices (ctx : Ctx K V) (d : Nat) (a b : K) : Prop :=
  ∀ l, 1 ≤ l → l ≤ d → hamtIndex ctx a 1 l = hamtIndex ctx b 1 l

/-- Deleting `key` from `m` is safe: for no depth `d ≥ 1` do two or more of the other keys that share their
first `d` indices with `key` all have the same next index. -/
def DeleteSafe (ctx : Ctx K V) (m : Map K V) (key : K) : Prop :=
  ∀ d, 1 ≤ d →
    let others := fun p => p ∈ iterateMap m ∧ ctx.equalKeys p.1 key = false ∧ ShareIndices ctx d p.1 key
    (∃ p q, others p ∧ others q ∧ ctx.equalKeys p.1 q.1 = false) →
    ∃ p q, others p ∧ others q ∧ hamtIndex ctx p.1 1 (d + 1) ≠ hamtIndex ctx q.1 1 (d + 1)

/-- Maps built by a history of API calls that return, all deletions being safe. -/
inductive Built (ctx : Ctx K V) : Map K V → Prop
  | new : Built ctx newMap
  | set {n m k v m'} : Built ctx m → setMap ctx n m k v = some m' → Built ctx m'
  | merge {n x y m} : Built ctx x → Built ctx y → mergeMaps ctx n x y = some m → Built ctx m
  | delete {m k} : Built ctx m → DeleteSafe ctx m k → Built ctx (deleteMap ctx m k)

/-- The representation invariant. -/
structure Inv (ctx : Ctx K V) (m : Map K V) : Prop where
  wf : HWF ctx 1 m.hamt
  size : m.size = (hentries m.hamt).length

theorem samePath_one (ctx : Ctx K V) (a b : K) : SamePath ctx 1 a b := by
  intro l h1 h2; omega

theorem samePath_iff_share {ctx : Ctx K V} {d : Nat} {a b : K} :
    SamePath ctx (d + 1) a b ↔ ShareIndices ctx d a b := by
  constructor
  · exact fun h l h1 h2 => h l h1 (by omega)
  · exact fun h l h1 h2 => h l h1 (by omega)

/-- A set on a well-formed map that returns satisfies its specification. -/
theorem set_spec {ctx : Ctx K V} (law : ctx.Lawful) {n : Nat} {m m' : Map K V} {k : K} {v : V}
    (hi : Inv ctx m) (hs : setMap ctx n m k v = some m') :
    ∃ b, SetSpec ctx 1 m.hamt k v (m'.hamt, b) ∧ m'.size = m.size + if b then 1 else 0 := by
  unfold setMap at hs
  cases hu : setKeyValue ctx n m.hamt k v 1 1 with
  | none => simp [hu] at hs
  | some u =>
    simp only [hu, Option.some.injEq] at hs
    subst hs
    have hc : ∀ p ∈ hentries m.hamt, ctx.hashKey p.1 = ctx.hashKey k → ctx.equalKeys p.1 k = true := by
      intro p hp hh
      by_contra hne
      rw [Bool.not_eq_true] at hne
      rw [setKeyValue_diverges hh hne n m.hamt v 1 hi.wf hp] at hu
      cases hu
    obtain ⟨u', hu', su⟩ := setKeyValue_spec law 13 1 m.hamt k v (by omega) (by omega) (by omega) hi.wf
      (fun p _ => samePath_one ctx _ _) hc
    have e1 := setKeyValue_mono n (max n 13) _ _ _ _ _ _ (Nat.le_max_left _ _) hu
    have e2 := setKeyValue_mono 13 (max n 13) _ _ _ _ _ _ (Nat.le_max_right _ _) hu'
    rw [e1] at e2
    cases e2
    exact ⟨u.2, su, rfl⟩

theorem set_inv {ctx : Ctx K V} (law : ctx.Lawful) {n : Nat} {m m' : Map K V} {k : K} {v : V}
    (hi : Inv ctx m) (hs : setMap ctx n m k v = some m') : Inv ctx m' := by
  obtain ⟨b, sp, hsz⟩ := set_spec law hi hs
  refine ⟨sp.wf, ?_⟩
  rw [hsz, hi.size]
  have := sp.length
  simp only at this
  rw [this]
  cases b <;> simp

theorem setAll_inv {ctx : Ctx K V} (law : ctx.Lawful) {n : Nat} (l : List (K × V)) :
    ∀ {m m' : Map K V}, Inv ctx m → setAll ctx n l m = some m' → Inv ctx m' := by
  induction l with
  | nil => intro m m' hi h; simp only [setAll, Option.some.injEq] at h; exact h ▸ hi
  | cons p l ih =>
    intro m m' hi h
    simp only [setAll] at h
    cases hs : setMap ctx n m p.1 p.2 with
    | none => simp [hs] at h
    | some m1 =>
      simp only [hs, Option.bind_some] at h
      exact ih (set_inv law hi hs) h

theorem delete_spec {ctx : Ctx K V} (law : ctx.Lawful) {m : Map K V} {k : K} (hi : Inv ctx m)
    (hs : DeleteSafe ctx m k) :
    Inv ctx (deleteMap ctx m k) ∧
      ∀ p, p ∈ hentries (deleteMap ctx m k).hamt ↔ p ∈ hentries m.hamt ∧ ctx.equalKeys p.1 k = false := by
  have hw := hi.wf
  have hmi : ∀ p ∈ hentries m.hamt, hamtIndex ctx p.1 1 1 = hamtIndex ctx k 1 1 →
      p ∈ entries (m.hamt (hamtIndex ctx k 1 1)) := by
    intro p hp h
    have := hw.mem_index.1 hp
    rwa [h] at this
  have sp := deleteFromEntry_spec law k (m.hamt (hamtIndex ctx k 1 1)) (hw _).2
    (by
      intro p hp
      exact (samePath_one ctx _ _).succ ((hw _).1 p hp))
    (by
      intro d hd hex
      obtain ⟨p, hp, q, hq, hpq, hp', hq'⟩ := hex
      have h := hs d hd
      simp only [iterateMap_eq] at h
      obtain ⟨p, q, hp, hq, hne⟩ := h ⟨p, q,
        ⟨mem_hentries.2 ⟨_, hp⟩, hp'.1, samePath_iff_share.1 hp'.2⟩,
        ⟨mem_hentries.2 ⟨_, hq⟩, hq'.1, samePath_iff_share.1 hq'.2⟩, hpq⟩
      exact ⟨p, hmi p hp.1 (hp.2.2 1 (by omega) hd), q, hmi q hq.1 (hq.2.2 1 (by omega) hd),
        ⟨hp.2.1, samePath_iff_share.2 hp.2.2⟩, ⟨hq.2.1, samePath_iff_share.2 hq.2.2⟩, hne⟩)
  have hdm : deleteMap ctx m k = ⟨setEntry m.hamt (hamtIndex ctx k 1 1)
      ((deleteFromEntry ctx k (m.hamt (hamtIndex ctx k 1 1)) 1 1).1.getD (m.hamt (hamtIndex ctx k 1 1))),
      m.size - if (deleteFromEntry ctx k (m.hamt (hamtIndex ctx k 1 1)) 1 1).2 = true then 1 else 0⟩ := by
    unfold deleteMap deleteKey
    simp only [putBack_eq]
  rw [hdm]
  clear hdm
  generalize hg : hamtIndex ctx k 1 1 = i at *
  generalize deleteFromEntry ctx k (m.hamt i) 1 1 = u at *
  constructor
  · refine ⟨?_, ?_⟩
    · exact hw.setEntry (fun p hp => (hw i).1 p ((sp.mem p).1 hp).1) sp.wf
    · have h1 := length_setEntry m.hamt i (u.1.getD (m.hamt i))
      have h2 := sp.length
      have h3 := hi.size
      simp only
      rw [h3]
      cases hb : u.2 <;> simp [hb] at h2 ⊢ <;> omega
  · intro p
    rw [mem_hentries_setEntry, sp.mem, mem_hentries]
    constructor
    · rintro (⟨h1, h2⟩ | ⟨j, hj, hp⟩)
      · exact ⟨⟨i, h1⟩, h2⟩
      · refine ⟨⟨j, hp⟩, ?_⟩
        rw [Bool.eq_false_iff]
        intro hk
        apply hj
        rw [← (hw j).1 p hp, ← hg]
        exact index_congr law hk 1 1
    · rintro ⟨⟨j, hp⟩, hk⟩
      by_cases hj : j = i
      · subst hj; exact Or.inl ⟨hp, hk⟩
      · exact Or.inr ⟨j, hj, hp⟩

theorem Built.inv {ctx : Ctx K V} (law : ctx.Lawful) {m : Map K V} (hb : Built ctx m) : Inv ctx m := by
  induction hb with
  | new => exact ⟨HWF_newHamt ctx 1, by simp [newMap, hentries_newHamt]⟩
  | set _ h ih => exact set_inv law ih h
  | merge _ _ h ih _ => rw [mergeMaps_eq] at h; exact setAll_inv law _ ih h
  | delete _ hs ih => exact (delete_spec law ih hs).1

/-- Lookups are determined by the stored pairs. -/
theorem Inv.get_iff {ctx : Ctx K V} (law : ctx.Lawful) {m : Map K V} (hi : Inv ctx m) {key : K} {v : V} :
    getMap ctx m key = some v ↔ ∃ k, (k, v) ∈ hentries m.hamt ∧ ctx.equalKeys k key = true :=
  getValue_iff law hi.wf

theorem Inv.get_none {ctx : Ctx K V} (law : ctx.Lawful) {m : Map K V} (hi : Inv ctx m) {key : K} :
    getMap ctx m key = none ↔ ∀ p ∈ hentries m.hamt, ctx.equalKeys p.1 key = false := by
  constructor
  · intro h p hp
    rw [Bool.eq_false_iff]
    intro hk
    have := (hi.get_iff law (key := key) (v := p.2)).2 ⟨p.1, hp, hk⟩
    rw [h] at this
    cases this
  · intro h
    cases hg : getMap ctx m key with
    | none => rfl
    | some v =>
      obtain ⟨k, hk, he⟩ := (hi.get_iff law).1 hg
      rw [h _ hk] at he
      cases he

theorem unique_pair {ctx : Ctx K V} (law : ctx.Lawful) {l : List (K × V)}
    (hp : l.Pairwise fun p q => ctx.equalKeys p.1 q.1 = false) {p q : K × V} (h1 : p ∈ l) (h2 : q ∈ l)
    (he : ctx.equalKeys p.1 q.1 = true) : p = q := by
  induction l with
  | nil => cases h1
  | cons a l ih =>
    rw [List.pairwise_cons] at hp
    rcases List.mem_cons.1 h1 with rfl | h1' <;> rcases List.mem_cons.1 h2 with h2' | h2'
    · exact h2'.symm
    · rw [hp.1 q h2'] at he; cases he
    · subst h2'
      have := hp.1 p h1'
      rw [law.symm _ _ he] at this
      cases this
    · exact ih hp.2 h1' h2'

theorem set_get {ctx : Ctx K V} (law : ctx.Lawful) {n : Nat} {m m' : Map K V} {k : K} {v : V}
    (hi : Inv ctx m) (hs : setMap ctx n m k v = some m') (k' : K) :
    getMap ctx m' k' = if ctx.equalKeys k k' then some v else getMap ctx m k' := by
  have hi' := set_inv law hi hs
  obtain ⟨b, sp, _⟩ := set_spec law hi hs
  by_cases hk : ctx.equalKeys k k' = true
  · rw [if_pos hk]
    exact (hi'.get_iff law).2 ⟨k, (sp.mem _).2 (Or.inl rfl), hk⟩
  · rw [if_neg hk]
    have key : ∀ w, getMap ctx m' k' = some w ↔ getMap ctx m k' = some w := by
      intro w
      rw [hi'.get_iff law, hi.get_iff law]
      constructor
      · rintro ⟨k0, h0, he⟩
        rcases (sp.mem _).1 h0 with h | ⟨h, _⟩
        · cases h; exact absurd he hk
        · exact ⟨k0, h, he⟩
      · rintro ⟨k0, h0, he⟩
        refine ⟨k0, (sp.mem _).2 (Or.inr ⟨h0, ?_⟩), he⟩
        rw [Bool.eq_false_iff]
        intro h
        exact hk (law.trans _ _ _ (law.symm _ _ h) he)
    cases h1 : getMap ctx m' k' with
    | some w => exact ((key w).1 h1).symm
    | none =>
      cases h2 : getMap ctx m k' with
      | none => rfl
      | some w => rw [(key w).2 h2] at h1; cases h1

/-! ## A concrete context -/

/-- Keys are 64-bit words whose path is given by their own bits. -/
def wordCtx : Ctx (BitVec 64) Nat where
  equalKeys a b := a == b
  equalValues a b := a == b
  hashKey a := a * 0xEF7BDEF7BDEF7BDF#64
  hashValue a := BitVec.ofNat 64 a
  salt _ := 0#64

theorem wordCtx_lawful : wordCtx.Lawful where
  symm := by simp only [wordCtx, beq_iff_eq]; exact fun _ _ h => h.symm
  trans := by simp only [wordCtx, beq_iff_eq]; exact fun _ _ _ h1 h2 => h1.trans h2
  hash := by simp only [wordCtx, beq_iff_eq]; exact fun _ _ h => by rw [h]

/-- Run sets in sequence. -/
def sets (ctx : Ctx K V) (fuel : Nat) (l : List (K × V)) : Option (Map K V) := setAll ctx fuel l newMap

theorem built_sets {ctx : Ctx K V} {n : Nat} {l : List (K × V)} {m : Map K V}
    (h : sets ctx n l = some m) : Built ctx m := by
  unfold sets at h
  have : ∀ (l : List (K × V)) (m0 : Map K V), Built ctx m0 → setAll ctx n l m0 = some m → Built ctx m := by
    intro l
    induction l with
    | nil => intro m0 hb h; simp only [setAll, Option.some.injEq] at h; exact h ▸ hb
    | cons p l ih =>
      intro m0 hb h
      simp only [setAll] at h
      cases hs : setMap ctx n m0 p.1 p.2 with
      | none => simp [hs] at h
      | some m1 => simp only [hs, Option.bind_some] at h; exact ih m1 (.set hb hs) h
  exact this l newMap .new h

/-! ## C10 -/

/-- **C10** (histories with safe deletions): a lookup right after a set finds the value just set. -/
theorem c10_get_after_set_partial {ctx : Ctx K V} (law : ctx.Lawful) {n : Nat} {m m' : Map K V} {k k' : K}
    {v : V} (hb : Built ctx m) (hs : setMap ctx n m k v = some m') (hk : ctx.equalKeys k k' = true) :
    getMap ctx m' k' = some v := by
  rw [set_get law (hb.inv law) hs, if_pos hk]

/-- `{1024 ↦ 1, 2048 ↦ 2, 160 ↦ 3}`: all three share the first index, the first two also the second one. -/
def threeKeys : Option (Map (BitVec 64) Nat) := sets wordCtx 13 [(1024#64, 1), (2048#64, 2), (160#64, 3)]

example : ∃ m, threeKeys = some m ∧ Built wordCtx m ∧ getMap wordCtx m 1024#64 = some 1 ∧
    ∃ m', setMap wordCtx 13 m 1024#64 7 = some m' ∧ getMap wordCtx m' 1024#64 = some 7 := by
  have h : ∃ m, threeKeys = some m := by
    cases hm : threeKeys with
    | some m => exact ⟨m, rfl⟩
    | none =>
      have : threeKeys.isSome = true := by decide +kernel
      rw [hm] at this
      cases this
  obtain ⟨m, hm⟩ := h
  have h1 : (threeKeys.bind fun m => getMap wordCtx m 1024#64) = some 1 := by decide +kernel
  have h2 : (threeKeys.bind fun m => setMap wordCtx 13 m 1024#64 7).isSome = true := by decide +kernel
  rw [hm] at h1 h2
  simp only [Option.bind_some] at h1 h2
  obtain ⟨m', hm'⟩ := Option.isSome_iff_exists.1 h2
  exact ⟨m, hm, built_sets hm, h1, m', hm',
    c10_get_after_set_partial wordCtx_lawful (built_sets hm) hm' (by decide)⟩

/-- The full C10 fails: after an unsafe deletion, a lookup right after a set can miss the key. (In a debug
build the same calls panic, on a shift by 65.) -/
theorem c10_fails_after_delete :
    ∃ (m m' : Map (BitVec 64) Nat) (k d : BitVec 64), Built wordCtx m ∧
      setMap wordCtx 20 (deleteMap wordCtx m d) k 9 = some m' ∧ getMap wordCtx m' k = none := by
  have h1 : (threeKeys.bind fun m => setMap wordCtx 20 (deleteMap wordCtx m 160#64) 1056#64 9).isSome = true := by
    decide +kernel
  have h2 : ((threeKeys.bind fun m => setMap wordCtx 20 (deleteMap wordCtx m 160#64) 1056#64 9).map
      fun m' => getMap wordCtx m' 1056#64) = some none := by decide +kernel
  cases hm : threeKeys with
  | none => rw [hm] at h1; cases h1
  | some m =>
    rw [hm] at h1 h2
    simp only [Option.bind_some] at h1 h2
    obtain ⟨m', hm'⟩ := Option.isSome_iff_exists.1 h1
    rw [hm'] at h2
    exact ⟨m, m', 1056#64, 160#64, built_sets hm, hm', by simpa using h2⟩

/-! ## C11 -/

/-- Everything found by a lookup is stored. -/
theorem getFromEntry_mem {ctx : Ctx K V} {key : K} {v : V} (e : Entry K V) :
    ∀ {lay d : Nat}, getFromEntry ctx key e lay d = some v →
      ∃ k, (k, v) ∈ entries e ∧ ctx.equalKeys k key = true := by
  induction e with
  | none => intro lay d h; simp [getFromEntry] at h
  | kv k v' =>
    intro lay d h
    simp only [getFromEntry] at h
    by_cases hk : ctx.equalKeys k key = true
    · simp only [hk, if_true, Option.some.injEq] at h
      exact ⟨k, by simp [entries, h], hk⟩
    · simp [hk] at h
  | hamt f ih =>
    intro lay d h
    simp only [getFromEntry] at h
    obtain ⟨k, hk, he⟩ := ih _ h
    exact ⟨k, by rw [entries_hamt]; exact mem_hentries.2 ⟨_, hk⟩, he⟩

/-- Whatever is stored after a set was stored before or is the pair just set. -/
theorem setKeyValue_mem {ctx : Ctx K V} :
    ∀ (n : Nat) (h : Hamt K V) (key : K) (value : V) (lay d : Nat) (u : Hamt K V × Bool),
      setKeyValue ctx n h key value lay d = some u →
      ∀ p ∈ hentries u.1, p = (key, value) ∨ p ∈ hentries h := by
  intro n
  induction n with
  | zero => intro h key value lay d u hu; simp [setKeyValue] at hu
  | succ n ih =>
    intro h key value lay d u hu p hp
    rw [setKeyValue] at hu
    cases he : h (hamtIndex ctx key lay d) with
    | none =>
      simp only [he, Option.some.injEq] at hu
      subst hu
      rcases mem_hentries_setEntry.1 hp with h1 | ⟨j, _, h1⟩
      · left; simpa [entries] using h1
      · right; exact mem_hentries.2 ⟨j, h1⟩
    | kv k v =>
      simp only [he] at hu
      by_cases hk : ctx.equalKeys k key = true
      · simp only [hk, if_true, Option.some.injEq] at hu
        subst hu
        rcases mem_hentries_setEntry.1 hp with h1 | ⟨j, _, h1⟩
        · left; simpa [entries] using h1
        · right; exact mem_hentries.2 ⟨j, h1⟩
      · simp only [hk] at hu
        cases h1 : setKeyValue ctx n newHamt k v lay (d + 1) with
        | none => simp [h1] at hu
        | some u1 =>
          simp only [h1] at hu
          cases h2 : setKeyValue ctx n u1.1 key value lay (d + 1) with
          | none => simp [h2] at hu
          | some u2 =>
            simp only [h2, Bool.false_eq_true, if_false, Option.some.injEq] at hu
            subst hu
            rcases mem_hentries_setEntry.1 hp with h3 | ⟨j, _, h3⟩
            · rw [entries_hamt] at h3
              rcases ih _ _ _ _ _ _ h2 p h3 with h4 | h4
              · exact Or.inl h4
              · rcases ih _ _ _ _ _ _ h1 p h4 with h5 | h5
                · right
                  exact mem_hentries.2 ⟨hamtIndex ctx key lay d, by rw [he, h5]; simp [entries]⟩
                · rw [hentries_newHamt] at h5; cases h5
            · right; exact mem_hentries.2 ⟨j, h3⟩
    | hamt e =>
      simp only [he] at hu
      cases h1 : setKeyValue ctx n e key value (nextLevel lay d).1 (nextLevel lay d).2 with
      | none => simp [h1] at hu
      | some u1 =>
        simp only [h1, Option.some.injEq] at hu
        subst hu
        rcases mem_hentries_setEntry.1 hp with h3 | ⟨j, _, h3⟩
        · rw [entries_hamt] at h3
          rcases ih _ _ _ _ _ _ h1 p h3 with h4 | h4
          · exact Or.inl h4
          · right; exact mem_hentries.2 ⟨hamtIndex ctx key lay d, by rw [he, entries_hamt]; exact h4⟩
        · right; exact mem_hentries.2 ⟨j, h3⟩

theorem setKeyValue_get_other {ctx : Ctx K V} (law : ctx.Lawful) {key k' : K}
    (hk' : ctx.equalKeys key k' = false) :
    ∀ (n : Nat) (h : Hamt K V) (value : V) (lay d : Nat) (u : Hamt K V × Bool), 1 ≤ d → d ≤ 13 →
      (∀ l, 1 ≤ l → l < d → hamtIndex ctx key lay l = hamtIndex ctx k' lay l) →
      setKeyValue ctx n h key value lay d = some u →
      getValue ctx u.1 k' lay d = getValue ctx h k' lay d := by
  intro n
  induction n with
  | zero => intro h value lay d u _ _ _ hu; simp [setKeyValue] at hu
  | succ n ih =>
    intro h value lay d u h1 h13 hpath hu
    by_cases hidx : hamtIndex ctx k' lay d = hamtIndex ctx key lay d
    · rw [setKeyValue] at hu
      unfold getValue
      rw [hidx]
      cases he : h (hamtIndex ctx key lay d) with
      | none =>
        simp only [he, Option.some.injEq] at hu
        subst hu
        simp [setEntry_same, getFromEntry, hk']
      | kv k v =>
        simp only [he] at hu
        by_cases hk : ctx.equalKeys k key = true
        · simp only [hk, if_true, Option.some.injEq] at hu
          subst hu
          have : ctx.equalKeys k k' = false := by
            rw [Bool.eq_false_iff]
            intro hc
            rw [law.trans _ _ _ (law.symm _ _ hk) hc] at hk'
            cases hk'
          simp [setEntry_same, getFromEntry, hk', this]
        · have hkf : ctx.equalKeys k key = false := by simpa using hk
          cases hu1 : setKeyValue ctx n newHamt k v lay (d + 1) with
          | none => simp [hkf, hu1] at hu
          | some u1 =>
            cases hu2 : setKeyValue ctx n u1.1 key value lay (d + 1) with
            | none => simp [hkf, hu1, hu2] at hu
            | some u2 =>
              simp only [hkf, Bool.false_eq_true, if_false, hu1, hu2, Option.some.injEq] at hu
              subst hu
              simp only [setEntry_same, getFromEntry]
              by_cases hd : d + 1 ≤ 13
              · simp only [nextLevel_of_le hd]
                have e2 := ih u1.1 value lay (d + 1) u2 (by omega) hd
                  (by
                    intro l hl1 hl2
                    by_cases hl : l = d
                    · subst hl; exact hidx.symm
                    · exact hpath l hl1 (by omega)) hu2
                have e1 : getValue ctx u1.1 k' lay (d + 1) =
                    if ctx.equalKeys k k' then some v else none := by
                  cases n with
                  | zero => simp [setKeyValue] at hu1
                  | succ n =>
                    rw [setKeyValue] at hu1
                    simp only [newHamt, Option.some.injEq] at hu1
                    subst hu1
                    unfold getValue
                    by_cases hkk : hamtIndex ctx k' lay (d + 1) = hamtIndex ctx k lay (d + 1)
                    · simp only [hkk, setEntry_same, getFromEntry]
                    · simp only [setEntry_ne _ _ hkk]
                      have : ctx.equalKeys k k' = false := by
                        rw [Bool.eq_false_iff]
                        intro hc
                        exact hkk (index_congr law (law.symm _ _ hc) _ _)
                      simp [this, getFromEntry, newHamt]
                rw [e1] at e2
                exact e2
              · -- the level is 13: all the indices are equal
                have hh : ∀ l, 1 ≤ l → l ≤ 13 → hamtIndex ctx key lay l = hamtIndex ctx k' lay l := by
                  intro l hl1 hl2
                  by_cases hl : l = d
                  · subst hl; exact hidx.symm
                  · exact hpath l hl1 (by omega)
                have hash : ctx.hashKey key = ctx.hashKey k' := hash_eq_of_index hh
                have hne : ctx.equalKeys k k' = false := by
                  rw [Bool.eq_false_iff]
                  intro hc
                  have hkh : ctx.hashKey k = ctx.hashKey key := by rw [law.hash _ _ hc, hash]
                  have := setKeyValue_collision hkh hkf n u1.1 value lay (d + 1) (v0 := v) (by
                    cases n with
                    | zero => simp [setKeyValue] at hu1
                    | succ n =>
                      rw [setKeyValue] at hu1
                      simp only [newHamt, Option.some.injEq] at hu1
                      subst hu1
                      rw [← index_congr_hash hkh]
                      exact setEntry_same _ _ _)
                  rw [this] at hu2
                  cases hu2
                simp only [hne, Bool.false_eq_true, if_false]
                generalize hgen : getFromEntry ctx k' _ _ _ = r
                cases r with
                | none => rfl
                | some w =>
                  obtain ⟨k0, h0, he0⟩ := getFromEntry_mem _ hgen
                  rcases setKeyValue_mem _ _ _ _ _ _ _ hu2 _ (mem_hentries.2 ⟨_, h0⟩) with h3 | h3
                  · cases h3; rw [hk'] at he0; cases he0
                  · rcases setKeyValue_mem _ _ _ _ _ _ _ hu1 _ h3 with h4 | h4
                    · cases h4; rw [hne] at he0; cases he0
                    · rw [hentries_newHamt] at h4; cases h4
      | hamt e =>
        simp only [he] at hu
        cases hu1 : setKeyValue ctx n e key value (nextLevel lay d).1 (nextLevel lay d).2 with
        | none => simp [hu1] at hu
        | some u1 =>
          simp only [hu1, Option.some.injEq] at hu
          subst hu
          simp only [setEntry_same, getFromEntry]
          by_cases hd : d + 1 ≤ 13
          · simp only [nextLevel_of_le hd] at hu1 ⊢
            exact ih e value lay (d + 1) u1 (by omega) hd
              (by
                intro l hl1 hl2
                by_cases hl : l = d
                · subst hl; exact hidx.symm
                · exact hpath l hl1 (by omega)) hu1
          · have hn : nextLevel lay d = (lay + 1, 1) := by
              unfold nextLevel maxLevel
              rw [if_pos (by omega)]
            simp only [hn] at hu1 ⊢
            exact ih e value (lay + 1) 1 u1 (by omega) (by omega) (by intro l _ _; omega) hu1
    · -- another slot
      have hslot : u.1 (hamtIndex ctx k' lay d) = h (hamtIndex ctx k' lay d) := by
        rw [setKeyValue] at hu
        cases he : h (hamtIndex ctx key lay d) with
        | none =>
          simp only [he, Option.some.injEq] at hu
          subst hu
          exact setEntry_ne _ _ hidx
        | kv k v =>
          simp only [he] at hu
          by_cases hk : ctx.equalKeys k key = true
          · simp only [hk, if_true, Option.some.injEq] at hu
            subst hu
            exact setEntry_ne _ _ hidx
          · simp only [hk] at hu
            cases hu1 : setKeyValue ctx n newHamt k v lay (d + 1) with
            | none => simp [hu1] at hu
            | some u1 =>
              cases hu2 : setKeyValue ctx n u1.1 key value lay (d + 1) with
              | none => simp [hu1, hu2] at hu
              | some u2 =>
                simp only [hu1, hu2, Bool.false_eq_true, if_false, Option.some.injEq] at hu
                subst hu
                exact setEntry_ne _ _ hidx
        | hamt e =>
          simp only [he] at hu
          cases hu1 : setKeyValue ctx n e key value (nextLevel lay d).1 (nextLevel lay d).2 with
          | none => simp [hu1] at hu
          | some u1 =>
            simp only [hu1, Option.some.injEq] at hu
            subst hu
            exact setEntry_ne _ _ hidx
      unfold getValue
      rw [hslot]

/-- **C11**: setting a key does not change the lookup of any other key; for every map value, including
those damaged by an unsafe deletion. -/
theorem c11_set_other {ctx : Ctx K V} (law : ctx.Lawful) {n : Nat} {m m' : Map K V} {k k' : K} {v : V}
    (hs : setMap ctx n m k v = some m') (hk : ctx.equalKeys k k' = false) :
    getMap ctx m' k' = getMap ctx m k' := by
  unfold setMap at hs
  cases hu : setKeyValue ctx n m.hamt k v 1 1 with
  | none => simp [hu] at hs
  | some u =>
    simp only [hu, Option.some.injEq] at hs
    subst hs
    exact setKeyValue_get_other law hk n m.hamt v 1 1 u (by omega) (by omega) (by intro l _ _; omega) hu

example : (threeKeys.bind fun m => (setMap wordCtx 13 m 1024#64 7).bind fun m' => getMap wordCtx m' 2048#64) =
    some 2 := by decide +kernel

/-! ## C12 -/

/-- **C12** (safe deletions): after a deletion the key is absent and every other key keeps its value. -/
theorem c12_delete_partial {ctx : Ctx K V} (law : ctx.Lawful) {m : Map K V} {k : K} (hb : Built ctx m)
    (hs : DeleteSafe ctx m k) (k' : K) :
    getMap ctx (deleteMap ctx m k) k' = if ctx.equalKeys k k' then none else getMap ctx m k' := by
  obtain ⟨hi', hmem⟩ := delete_spec law (hb.inv law) hs
  have hi := hb.inv law
  by_cases hk : ctx.equalKeys k k' = true
  · rw [if_pos hk, hi'.get_none law]
    intro p hp
    rw [Bool.eq_false_iff]
    intro he
    have := ((hmem p).1 hp).2
    rw [law.trans _ _ _ he (law.symm _ _ hk)] at this
    cases this
  · rw [if_neg hk]
    have key : ∀ w, getMap ctx (deleteMap ctx m k) k' = some w ↔ getMap ctx m k' = some w := by
      intro w
      rw [hi'.get_iff law, hi.get_iff law]
      constructor
      · rintro ⟨k0, h0, he⟩; exact ⟨k0, ((hmem _).1 h0).1, he⟩
      · rintro ⟨k0, h0, he⟩
        refine ⟨k0, (hmem _).2 ⟨h0, ?_⟩, he⟩
        rw [Bool.eq_false_iff]
        intro h
        exact hk (law.trans _ _ _ (law.symm _ _ h) he)
    cases h1 : getMap ctx (deleteMap ctx m k) k' with
    | some w => exact ((key w).1 h1).symm
    | none =>
      cases h2 : getMap ctx m k' with
      | none => rfl
      | some w => rw [(key w).2 h2] at h1; cases h1

/-- Deleting from a map of at most two other keys on the path is safe when they split right away; here: a
map in which all the stored keys have distinct first indices. -/
theorem deleteSafe_of_distinct {ctx : Ctx K V} {m : Map K V} {k : K}
    (h : ∀ p ∈ iterateMap m, ∀ q ∈ iterateMap m, ctx.equalKeys p.1 q.1 = false →
      hamtIndex ctx p.1 1 1 ≠ hamtIndex ctx q.1 1 1) : DeleteSafe ctx m k := by
  intro d hd others
  rintro ⟨p, q, ⟨hp, _, hp'⟩, ⟨hq, _, hq'⟩, hpq⟩
  exact absurd ((hp' 1 (by omega) hd).trans (hq' 1 (by omega) hd).symm) (h p hp q hq hpq)

example : ∃ m, sets wordCtx 13 [(1#64, 1), (2#64, 2)] = some m ∧ DeleteSafe wordCtx m 1#64 := by
  have h : (sets wordCtx 13 [(1#64, 1), (2#64, 2)]).isSome = true := by decide +kernel
  obtain ⟨m, hm⟩ := Option.isSome_iff_exists.1 h
  refine ⟨m, hm, deleteSafe_of_distinct ?_⟩
  have : (sets wordCtx 13 [(1#64, 1), (2#64, 2)]).map iterateMap = some [(1#64, 1), (2#64, 2)] := by
    decide +kernel
  rw [hm] at this
  simp only [Option.map_some, Option.some.injEq] at this
  rw [this]
  decide +kernel

/-- The full C12 fails: deleting a key *that is not in the map* makes two keys that are in it unreachable. -/
theorem c12_delete_loses_keys :
    ∃ (m : Map (BitVec 64) Nat) (k a b : BitVec 64), Built wordCtx m ∧
      getMap wordCtx m k = none ∧ getMap wordCtx m a = some 1 ∧ getMap wordCtx m b = some 2 ∧
      getMap wordCtx (deleteMap wordCtx m k) a = none ∧ getMap wordCtx (deleteMap wordCtx m k) b = none := by
  have h : ((sets wordCtx 13 [(1024#64, 1), (2048#64, 2)]).map fun m =>
      (getMap wordCtx m 160#64, getMap wordCtx m 1024#64, getMap wordCtx m 2048#64,
       getMap wordCtx (deleteMap wordCtx m 160#64) 1024#64,
       getMap wordCtx (deleteMap wordCtx m 160#64) 2048#64)) = some (none, some 1, some 2, none, none) := by
    decide +kernel
  cases hm : sets wordCtx 13 [(1024#64, 1), (2048#64, 2)] with
  | none => rw [hm] at h; cases h
  | some m =>
    rw [hm] at h
    simp only [Option.map_some, Option.some.injEq, Prod.mk.injEq] at h
    exact ⟨m, 160#64, 1024#64, 2048#64, built_sets hm, h⟩

/-! ## C13, C14 -/

/-- **C13** (histories with safe deletions): there is a list of pairwise distinct keys that are exactly the
keys of the map, and the size of the map is its length. -/
theorem c13_size_partial {ctx : Ctx K V} (law : ctx.Lawful) {m : Map K V} (hb : Built ctx m) :
    ∃ keys : List K, keys.Pairwise (fun a b => ctx.equalKeys a b = false) ∧
      (∀ k, (getMap ctx m k).isSome = true ↔ ∃ k' ∈ keys, ctx.equalKeys k' k = true) ∧
      mapSize m = keys.length := by
  have hi := hb.inv law
  refine ⟨(hentries m.hamt).map Prod.fst, ?_, ?_, ?_⟩
  · rw [List.pairwise_map]; exact HWF.pairwise law hi.wf
  · intro k
    rw [Option.isSome_iff_exists]
    constructor
    · rintro ⟨v, hv⟩
      obtain ⟨k', hk, he⟩ := (hi.get_iff law).1 hv
      exact ⟨k', List.mem_map.2 ⟨_, hk, rfl⟩, he⟩
    · rintro ⟨k', hk, he⟩
      obtain ⟨p, hp, rfl⟩ := List.mem_map.1 hk
      exact ⟨p.2, (hi.get_iff law).2 ⟨p.1, hp, he⟩⟩
  · simp [mapSize, hi.size]

/-- **C14** (histories with safe deletions): iteration yields exactly the pairs of the map, each once. -/
theorem c14_iterate_partial {ctx : Ctx K V} (law : ctx.Lawful) {m : Map K V} (hb : Built ctx m) :
    (iterateMap m).Pairwise (fun p q => ctx.equalKeys p.1 q.1 = false) ∧
      (∀ k v, (k, v) ∈ iterateMap m → ctx.equalKeys k k = true → getMap ctx m k = some v) ∧
      (∀ k v, getMap ctx m k = some v → ∃ k', (k', v) ∈ iterateMap m ∧ ctx.equalKeys k' k = true) ∧
      ((iterateMap m).length : Int) = mapSize m := by
  have hi := hb.inv law
  rw [iterateMap_eq]
  refine ⟨HWF.pairwise law hi.wf, ?_, ?_, by simp [mapSize, hi.size]⟩
  · intro k v h hr; exact (hi.get_iff law).2 ⟨k, h, hr⟩
  · intro k v h; exact (hi.get_iff law).1 h

example : threeKeys.map iterateMap = some [(1024#64, 1), (2048#64, 2), (160#64, 3)] ∧
    threeKeys.map mapSize = some 3 := by decide +kernel

/-- The full C13 and C14 fail: deleting an absent key and setting a present one leaves three pairs, of only two
distinct keys. -/
theorem c13_c14_fail_after_delete :
    ∃ (m m' : Map (BitVec 64) Nat) (k a : BitVec 64), Built wordCtx m ∧
      getMap wordCtx m k = none ∧ (getMap wordCtx m a).isSome = true ∧ mapSize m = 2 ∧
      setMap wordCtx 13 (deleteMap wordCtx m k) a 9 = some m' ∧
      mapSize m' = 3 ∧ (iterateMap m').map Prod.fst = [a, a, 2048#64] := by
  have h : ((sets wordCtx 13 [(1024#64, 1), (2048#64, 2)]).bind fun m =>
      (setMap wordCtx 13 (deleteMap wordCtx m 160#64) 1024#64 9).map fun m' =>
      (getMap wordCtx m 160#64, (getMap wordCtx m 1024#64).isSome, mapSize m, mapSize m',
        (iterateMap m').map Prod.fst)) =
      some (none, true, 2, 3, [1024#64, 1024#64, 2048#64]) := by
    decide +kernel
  cases hm : sets wordCtx 13 [(1024#64, 1), (2048#64, 2)] with
  | none => rw [hm] at h; cases h
  | some m =>
    rw [hm] at h
    simp only [Option.bind_some] at h
    cases hm' : setMap wordCtx 13 (deleteMap wordCtx m 160#64) 1024#64 9 with
    | none => rw [hm'] at h; cases h
    | some m' =>
      rw [hm'] at h
      simp only [Option.map_some, Option.some.injEq, Prod.mk.injEq] at h
      exact ⟨m, m', 160#64, 1024#64, built_sets hm, h.1, h.2.1, h.2.2.1, hm', h.2.2.2.1, h.2.2.2.2⟩

/-! ## C15 -/

theorem setAll_get {ctx : Ctx K V} (law : ctx.Lawful) {n : Nat} (l : List (K × V))
    (hl : l.Pairwise fun p q => ctx.equalKeys p.1 q.1 = false) :
    ∀ {m m' : Map K V}, Inv ctx m → setAll ctx n l m = some m' → ∀ k,
      (∀ v k0, (k0, v) ∈ l → ctx.equalKeys k0 k = true → getMap ctx m' k = some v) ∧
      ((∀ p ∈ l, ctx.equalKeys p.1 k = false) → getMap ctx m' k = getMap ctx m k) := by
  induction l with
  | nil =>
    intro m m' _ h k
    simp only [setAll, Option.some.injEq] at h
    subst h
    simp
  | cons p l ih =>
    intro m m' hi h k
    rw [List.pairwise_cons] at hl
    simp only [setAll] at h
    cases hs : setMap ctx n m p.1 p.2 with
    | none => simp [hs] at h
    | some m1 =>
      simp only [hs, Option.bind_some] at h
      have ihk := ih hl.2 (set_inv law hi hs) h k
      constructor
      · intro v k0 h0 he
        rcases List.mem_cons.1 h0 with h1 | h1
        · subst h1
          rw [ihk.2, set_get law hi hs, if_pos he]
          intro q hq
          rw [Bool.eq_false_iff]
          intro hqe
          have := hl.1 q hq
          rw [law.trans _ _ _ he (law.symm _ _ hqe)] at this
          cases this
        · exact ihk.1 v k0 h1 he
      · intro hall
        rw [ihk.2 (fun q hq => hall q (List.mem_cons_of_mem _ hq)), set_get law hi hs,
          if_neg (by rw [hall p List.mem_cons_self]; decide)]

/-- **C15** (histories with safe deletions): merging is a right-biased union. -/
theorem c15_merge_partial {ctx : Ctx K V} (law : ctx.Lawful) {n : Nat} {x y m : Map K V}
    (hx : Built ctx x) (hy : Built ctx y) (hm : mergeMaps ctx n x y = some m) (k : K) :
    getMap ctx m k = (getMap ctx y k).or (getMap ctx x k) := by
  rw [mergeMaps_eq] at hm
  have hiy := hy.inv law
  have h := setAll_get law _ (HWF.pairwise law hiy.wf) (hx.inv law) hm k
  cases hg : getMap ctx y k with
  | some v =>
    obtain ⟨k0, h0, he⟩ := (hiy.get_iff law).1 hg
    rw [h.1 v k0 h0 he]
    rfl
  | none =>
    rw [h.2 ((hiy.get_none law).1 hg)]
    rfl

example : ((sets wordCtx 13 [(1#64, 1), (2#64, 2)]).bind fun x =>
    (sets wordCtx 13 [(2#64, 3), (33#64, 4)]).bind fun y => (mergeMaps wordCtx 13 x y).map fun m =>
      (getMap wordCtx m 1#64, getMap wordCtx m 2#64, getMap wordCtx m 33#64, mapSize m)) =
    some (some 1, some 3, some 4, 3) := by decide +kernel

/-- The full C15 fails: a merge into an empty map brings keys back that an unsafe deletion made unreachable. -/
theorem c15_fails_after_delete :
    ∃ (m x : Map (BitVec 64) Nat) (k a : BitVec 64), Built wordCtx m ∧
      getMap wordCtx (deleteMap wordCtx m k) a = none ∧
      mergeMaps wordCtx 13 newMap (deleteMap wordCtx m k) = some x ∧ getMap wordCtx x a = some 1 := by
  have h : ((sets wordCtx 13 [(1024#64, 1), (2048#64, 2)]).bind fun m =>
      (mergeMaps wordCtx 13 newMap (deleteMap wordCtx m 160#64)).map fun x =>
      (getMap wordCtx (deleteMap wordCtx m 160#64) 1024#64, getMap wordCtx x 1024#64)) =
      some (none, some 1) := by
    decide +kernel
  cases hm : sets wordCtx 13 [(1024#64, 1), (2048#64, 2)] with
  | none => rw [hm] at h; cases h
  | some m =>
    rw [hm] at h
    simp only [Option.bind_some] at h
    cases hx : mergeMaps wordCtx 13 newMap (deleteMap wordCtx m 160#64) with
    | none => rw [hx] at h; cases h
    | some x =>
      rw [hx] at h
      simp only [Option.map_some, Option.some.injEq, Prod.mk.injEq] at h
      exact ⟨m, x, 160#64, 1024#64, built_sets hm, h.1, hx, h.2⟩

/-! ## C16 -/

/-- Two lookups agree: both find nothing, or both find equal values. -/
def LookupsAgree (ctx : Ctx K V) : Option V → Option V → Prop
  | none, none => True
  | some a, some b => ctx.equalValues a b = true
  | _, _ => False

/-- **C16** (histories with safe deletions): maps are equal iff all lookups agree
(for key types without NaNs). -/
theorem c16_equal_partial {ctx : Ctx K V} (law : ctx.Lawful) {x y : Map K V}
    (hrefl : ∀ k, ctx.equalKeys k k = true) (hx : Built ctx x) (hy : Built ctx y) :
    equalMaps ctx x y = true ↔ ∀ k, LookupsAgree ctx (getMap ctx x k) (getMap ctx y k) := by
  have hix := hx.inv law
  have hiy := hy.inv law
  have h1 : equalMaps ctx x y = true ↔
      equalHamts (fun a b => some (ctx.equalKeys a b)) (fun a b => some (ctx.equalValues a b))
        x.hamt y.hamt = some true := by
    unfold equalMaps
    constructor
    · intro h
      split at h
      · split at h
        · rename_i b hb; rw [hb, h]
        · cases h
      · cases h
    · intro h
      rw [h]
      have := (equalHamts_forall₂ h).length_eq
      rw [if_pos (by rw [hix.size, hiy.size, this])]
  rw [h1, equalHamts_iff law hix.wf hiy.wf]
  constructor
  · rintro ⟨ha, hb⟩ k
    cases hgx : getMap ctx x k with
    | none =>
      cases hgy : getMap ctx y k with
      | none => trivial
      | some w =>
        obtain ⟨q, hq, he⟩ := (hiy.get_iff law).1 hgy
        obtain ⟨p, hp, hpe⟩ := hb _ hq
        have := (hix.get_none law).1 hgx p hp
        rw [law.trans _ _ _ hpe he] at this
        cases this
    | some v =>
      obtain ⟨p, hp, he⟩ := (hix.get_iff law).1 hgx
      obtain ⟨q, hq, hqe, hv⟩ := ha _ hp
      have : getMap ctx y k = some q.2 :=
        (hiy.get_iff law).2 ⟨q.1, hq, law.trans _ _ _ (law.symm _ _ hqe) he⟩
      rw [this]
      exact hv
  · intro h
    constructor
    · intro p hp
      have h0 := h p.1
      rw [(hix.get_iff law).2 ⟨p.1, hp, hrefl _⟩] at h0
      cases hgy : getMap ctx y p.1 with
      | none => rw [hgy] at h0; exact h0.elim
      | some w =>
        rw [hgy] at h0
        obtain ⟨q, hq, he⟩ := (hiy.get_iff law).1 hgy
        exact ⟨(q, w), hq, law.symm _ _ he, h0⟩
    · intro q hq
      have h0 := h q.1
      rw [(hiy.get_iff law).2 ⟨q.1, hq, hrefl _⟩] at h0
      cases hgx : getMap ctx x q.1 with
      | none => rw [hgx] at h0; exact h0.elim
      | some w =>
        obtain ⟨p, hp, he⟩ := (hix.get_iff law).1 hgx
        exact ⟨(p, w), hp, he⟩

/-- Equal maps iterate over equal keys in the same order. -/
theorem c16_same_order {ctx : Ctx K V} {x y : Map K V} (h : equalMaps ctx x y = true) :
    List.Forall₂ (fun p q => ctx.equalKeys p.1 q.1 = true ∧ ctx.equalValues p.2 q.2 = true)
      (iterateMap x) (iterateMap y) := by
  unfold equalMaps at h
  split at h
  · split at h
    · rename_i b hb
      subst h
      rw [iterateMap_eq, iterateMap_eq]
      exact (equalHamts_forall₂ hb).imp (fun _ _ h => by simpa using h)
    · cases h
  · cases h

example : ((sets wordCtx 13 [(1024#64, 1), (2048#64, 2), (160#64, 3)]).bind fun x =>
    (sets wordCtx 13 [(160#64, 3), (2048#64, 0), (1024#64, 1), (2048#64, 2)]).map fun y =>
      equalMaps wordCtx x y) = some true := by decide +kernel

/-- The full C16 fails: `{a, b}` and `{a, b, c}` with `c` deleted differ. -/
theorem c16_fails_after_delete :
    ∃ (x m : Map (BitVec 64) Nat), sets wordCtx 13 [(1024#64, 1), (2048#64, 2)] = some x ∧
      sets wordCtx 13 [(1024#64, 1), (2048#64, 2), (160#64, 3)] = some m ∧
      mapSize (deleteMap wordCtx m 160#64) = mapSize x ∧
      equalMaps wordCtx x (deleteMap wordCtx m 160#64) = false := by
  have h : ((sets wordCtx 13 [(1024#64, 1), (2048#64, 2)]).bind fun x =>
      (sets wordCtx 13 [(1024#64, 1), (2048#64, 2), (160#64, 3)]).map fun m =>
      (decide (mapSize (deleteMap wordCtx m 160#64) = mapSize x),
        equalMaps wordCtx x (deleteMap wordCtx m 160#64))) = some (true, false) := by
    decide +kernel
  cases hx : sets wordCtx 13 [(1024#64, 1), (2048#64, 2)] with
  | none => rw [hx] at h; cases h
  | some x =>
    rw [hx] at h
    simp only [Option.bind_some] at h
    cases hm : sets wordCtx 13 [(1024#64, 1), (2048#64, 2), (160#64, 3)] with
    | none => rw [hm] at h; cases h
    | some m =>
      rw [hm] at h
      simp only [Option.map_some, Option.some.injEq, Prod.mk.injEq, decide_eq_true_eq] at h
      exact ⟨x, m, rfl, rfl, h⟩

/-! ## C17 -/

/-- **C17** (exact condition): setting a key returns iff no different key of the map has the same hash. -/
theorem c17_set_terminates_iff_partial {ctx : Ctx K V} (law : ctx.Lawful) {m : Map K V} (hb : Built ctx m)
    (k : K) (v : V) :
    (∃ n m', setMap ctx n m k v = some m') ↔
      ∀ p ∈ iterateMap m, ctx.hashKey p.1 = ctx.hashKey k → ctx.equalKeys p.1 k = true := by
  have hi := hb.inv law
  rw [iterateMap_eq]
  constructor
  · rintro ⟨n, m', hs⟩ p hp hh
    by_contra hne
    rw [Bool.not_eq_true] at hne
    have := setKeyValue_diverges hh hne n m.hamt v 1 hi.wf hp
    simp [setMap, this] at hs
  · intro h
    obtain ⟨u, hu, _⟩ := setKeyValue_spec law 13 1 m.hamt k v (by omega) (by omega) (by omega) hi.wf
      (fun p _ => samePath_one ctx _ _) h
    refine ⟨13, ⟨u.1, m.size + if u.2 then 1 else 0⟩, ?_⟩
    simp [setMap, hu]

/-- Thirteen nested calls always suffice. -/
theorem c17_depth_bound {ctx : Ctx K V} (law : ctx.Lawful) {m m' : Map K V} (hb : Built ctx m) {k : K} {v : V}
    {n : Nat} (hs : setMap ctx n m k v = some m') : setMap ctx 13 m k v = some m' := by
  have hi := hb.inv law
  have hret := (c17_set_terminates_iff_partial law hb k v).1 ⟨n, m', hs⟩
  rw [iterateMap_eq] at hret
  obtain ⟨u, hu, _⟩ := setKeyValue_spec law 13 1 m.hamt k v (by omega) (by omega) (by omega) hi.wf
    (fun p _ => samePath_one ctx _ _) hret
  unfold setMap at hs ⊢
  cases hn : setKeyValue ctx n m.hamt k v 1 1 with
  | none => simp [hn] at hs
  | some w =>
    have e1 := setKeyValue_mono n (max n 13) _ _ _ _ _ _ (Nat.le_max_left _ _) hn
    have e2 := setKeyValue_mono 13 (max n 13) _ _ _ _ _ _ (Nat.le_max_right _ _) hu
    rw [e1] at e2
    cases e2
    rw [hn] at hs
    rw [hu]
    exact hs

/-- The full C17 fails: in every context, a key with the same hash as the only key of a map that is not equal to
it (be it another key, or another NaN) can never be set. -/
theorem c17_set_diverges {ctx : Ctx K V} (law : ctx.Lawful) {n : Nat} {m : Map K V} {k k' : K} {v v' : V}
    (hs : setMap ctx n newMap k v = some m) (hh : ctx.hashKey k = ctx.hashKey k')
    (hne : ctx.equalKeys k k' = false) : ∀ n', setMap ctx n' m k' v' = none := by
  intro n'
  have hb : Built ctx m := .set .new hs
  cases hs' : setMap ctx n' m k' v' with
  | none => rfl
  | some m' =>
    obtain ⟨b, sp, _⟩ := set_spec law (Built.new.inv law) hs
    have h1 := (c17_set_terminates_iff_partial law hb k' v').1 ⟨n', m', hs'⟩ (k, v)
      (by rw [iterateMap_eq]; exact (sp.mem _).2 (Or.inl rfl)) hh
    rw [hne] at h1
    cases h1

/-- Two different keys with the same hash, e.g. `none` and an empty list (both hash to 0). -/
def collidingCtx : Ctx Bool Nat where
  equalKeys a b := a == b
  equalValues a b := a == b
  hashKey _ := 0#64
  hashValue _ := 0#64
  salt n := BitVec.ofNat 64 n

theorem collidingCtx_lawful : collidingCtx.Lawful where
  symm := by simp [collidingCtx]
  trans := by simp [collidingCtx]
  hash := by simp [collidingCtx]

example : ∃ m, setMap collidingCtx 1 newMap true 0 = some m ∧ ∀ n, setMap collidingCtx n m false 1 = none := by
  have h : (setMap collidingCtx 1 newMap true 0).isSome = true := by decide +kernel
  obtain ⟨m, hm⟩ := Option.isSome_iff_exists.1 h
  exact ⟨m, hm, c17_set_diverges collidingCtx_lawful hm rfl rfl⟩

/-! ## C19, maps -/

/-- **C19** for maps: equal maps have equal hashes, if equal keys and equal values do. -/
theorem c19_map_hash {ctx : Ctx K V}
    (hk : ∀ a b, ctx.equalKeys a b = true → ctx.hashKey a = ctx.hashKey b)
    (hv : ∀ a b, ctx.equalValues a b = true → ctx.hashValue a = ctx.hashValue b) {x y : Map K V}
    (h : equalMaps ctx x y = true) (header : BitVec 64) : hashMap ctx header x = hashMap ctx header y := by
  unfold equalMaps at h
  split at h
  · split at h
    · rename_i b hb
      subst h
      exact hashMap_congr hk hv hb header
    · cases h
  · cases h

example : ∀ a b, wordCtx.equalValues a b = true → wordCtx.hashValue a = wordCtx.hashValue b := by
  simp only [wordCtx, beq_iff_eq]
  exact fun _ _ h => by rw [h]

end Verif.Prelude
