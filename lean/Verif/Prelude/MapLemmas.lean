import Verif.Prelude.Map
import Mathlib.Data.List.FinRange
import Mathlib.Algebra.BigOperators.Group.List.Basic
import Mathlib.Tactic.Ring

namespace Verif.Prelude

variable {K V : Type}

/-! ### Hash indices -/

theorem combineHashes_inj {a b c : BitVec 64} (h : combineHashes a c = combineHashes b c) : a = b := by
  unfold combineHashes at h
  have h1 : a * 31#64 = b * 31#64 := by
    have := congrArg (fun x => x - c) h
    simpa using this
  have h2 := congrArg (fun x => x * 0xEF7BDEF7BDEF7BDF#64) h1
  simp only [BitVec.mul_assoc] at h2
  have e : (31#64 * 0xEF7BDEF7BDEF7BDF#64) = 1#64 := by decide
  rw [e] at h2
  simpa using h2

theorem hashToIndex_val (salt : Nat → BitVec 64) (a : BitVec 64) (lay : Nat) {l : Nat} (h : l ≤ 13) :
    (hashToIndex salt a lay l).val = (combineHashes a (salt lay)).toNat / 2 ^ (5 * (l - 1)) % 32 := by
  unfold hashToIndex
  have hm : (5 * (l - 1)) % 64 = 5 * (l - 1) := Nat.mod_eq_of_lt (by omega)
  simp only [hm, BitVec.toNat_and, BitVec.toNat_ushiftRight, BitVec.toNat_ofNat]
  rw [Nat.shiftRight_eq_div_pow]
  exact Nat.and_two_pow_sub_one_eq_mod _ 5

/-- Thirteen five-bit segments determine a 64-bit hash. -/
theorem hash_eq_of_index {salt : Nat → BitVec 64} {a b : BitVec 64} {lay : Nat}
    (h : ∀ l, 1 ≤ l → l ≤ 13 → hashToIndex salt a lay l = hashToIndex salt b lay l) : a = b := by
  apply combineHashes_inj (c := salt lay)
  apply BitVec.eq_of_toNat_eq
  apply Nat.eq_of_testBit_eq
  intro i
  by_cases hi : i < 64
  · have hl := congrArg Fin.val (h (i / 5 + 1) (by omega) (by omega))
    rw [hashToIndex_val _ _ _ (by omega), hashToIndex_val _ _ _ (by omega)] at hl
    have hb := congrArg (fun x => x.testBit (i % 5)) hl
    simp only [show (32 : Nat) = 2 ^ 5 from rfl, Nat.testBit_mod_two_pow, Nat.testBit_div_two_pow,
      Nat.mod_lt i (show 5 > 0 by decide), decide_true, Bool.true_and] at hb
    have e : 5 * (i / 5 + 1 - 1) + i % 5 = i := by omega
    have e' : i % 5 + 5 * (i / 5 + 1 - 1) = i := by omega
    first
      | rw [e] at hb; exact hb
      | rw [e'] at hb; exact hb
  · rw [BitVec.testBit_toNat, BitVec.testBit_toNat, BitVec.getLsbD_of_ge _ _ (by omega),
      BitVec.getLsbD_of_ge _ _ (by omega)]

/-! ### Contents -/

/-- The pairs stored below an entry, in iteration order. -/
def entries : Entry K V → List (K × V)
  | .none => []
  | .kv k v => [(k, v)]
  | .hamt h => (List.finRange 32).flatMap fun i => entries (h i)

/-- The pairs stored in a node. -/
def hentries (h : Hamt K V) : List (K × V) := (List.finRange 32).flatMap fun i => entries (h i)

theorem entries_hamt (h : Hamt K V) : entries (.hamt h) = hentries h := by
  simp [entries, hentries]

theorem mem_hentries {h : Hamt K V} {p : K × V} : p ∈ hentries h ↔ ∃ i, p ∈ entries (h i) := by
  simp [hentries]

theorem foldr_flatMap {α β : Type} (f : α → List β → List β) (g : α → List β)
    (hf : ∀ a r, f a r = g a ++ r) (l : List α) (r : List β) : l.foldr f r = l.flatMap g ++ r := by
  induction l with
  | nil => simp
  | cons a l ih => simp [hf, ih]

theorem iterateEntry_eq (e : Entry K V) (r : List (K × V)) : iterateEntry e r = entries e ++ r := by
  induction e generalizing r with
  | none => simp [iterateEntry, entries]
  | kv k v => simp [iterateEntry, entries]
  | hamt h ih =>
    simp only [iterateEntry, entries]
    exact foldr_flatMap _ _ (fun a r => ih a r) _ _

theorem iterateMap_eq (m : Map K V) : iterateMap m = hentries m.hamt := by
  unfold iterateMap hentries
  rw [foldr_flatMap _ _ (fun a r => iterateEntry_eq (m.hamt a) r)]
  simp

theorem setEntry_same (h : Hamt K V) (i : Fin 32) (e : Entry K V) : setEntry h i e i = e := by
  simp [setEntry]

theorem setEntry_ne (h : Hamt K V) {i j : Fin 32} (e : Entry K V) (hj : j ≠ i) :
    setEntry h i e j = h j := by
  simp [setEntry, hj]

theorem mem_hentries_setEntry {h : Hamt K V} {i : Fin 32} {e : Entry K V} {p : K × V} :
    p ∈ hentries (setEntry h i e) ↔ p ∈ entries e ∨ ∃ j, j ≠ i ∧ p ∈ entries (h j) := by
  rw [mem_hentries]
  constructor
  · rintro ⟨j, hj⟩
    by_cases hji : j = i
    · subst hji; rw [setEntry_same] at hj; exact Or.inl hj
    · rw [setEntry_ne _ _ hji] at hj; exact Or.inr ⟨j, hji, hj⟩
  · rintro (hp | ⟨j, hji, hp⟩)
    · exact ⟨i, by rwa [setEntry_same]⟩
    · exact ⟨j, by rwa [setEntry_ne _ _ hji]⟩

theorem length_hentries (h : Hamt K V) :
    (hentries h).length = ((List.finRange 32).map fun i => (entries (h i)).length).sum := by
  simp [hentries, List.length_flatMap]

theorem sum_update {l : List (Fin 32)} (hl : l.Nodup) (f : Fin 32 → Nat) (g : Fin 32 → Nat) (i : Fin 32)
    (hi : i ∈ l) (hg : ∀ j, j ≠ i → g j = f j) :
    (l.map g).sum + f i = (l.map f).sum + g i := by
  induction l with
  | nil => cases hi
  | cons a l ih =>
    rw [List.nodup_cons] at hl
    by_cases ha : a = i
    · subst ha
      have : l.map g = l.map f := by
        apply List.map_congr_left
        intro j hj
        exact hg j (fun e => hl.1 (e ▸ hj))
      simp only [List.map_cons, List.sum_cons, this]
      omega
    · have hi' : i ∈ l := by
        rcases List.mem_cons.1 hi with h | h
        · exact absurd h.symm ha
        · exact h
      have := ih hl.2 hi'
      simp only [List.map_cons, List.sum_cons, hg a ha]
      omega

theorem length_setEntry (h : Hamt K V) (i : Fin 32) (e : Entry K V) :
    (hentries (setEntry h i e)).length + (entries (h i)).length =
      (hentries h).length + (entries e).length := by
  rw [length_hentries, length_hentries]
  have := sum_update (List.nodup_finRange 32) (fun i => (entries (h i)).length)
    (fun j => (entries (setEntry h i e j)).length) i (List.mem_finRange i)
    (fun j hj => by simp [setEntry_ne _ _ hj])
  simpa [setEntry_same] using this

theorem hentries_newHamt : hentries (newHamt : Hamt K V) = [] := by
  simp [hentries, newHamt, entries]

/-! ### Contexts and well-formed tries -/

/-- What the map code assumes about its context: key equality is symmetric and transitive, and hashes respect
it. (It need not be reflexive: a NaN is not equal to itself.) -/
structure Ctx.Lawful (ctx : Ctx K V) : Prop where
  symm : ∀ a b, ctx.equalKeys a b = true → ctx.equalKeys b a = true
  trans : ∀ a b c, ctx.equalKeys a b = true → ctx.equalKeys b c = true → ctx.equalKeys a c = true
  hash : ∀ a b, ctx.equalKeys a b = true → ctx.hashKey a = ctx.hashKey b

/-- An entry of a node at level `d` (layer 1) is well formed. -/
def WF (ctx : Ctx K V) : Nat → Entry K V → Prop
  | _, .none => True
  | _, .kv _ _ => True
  | d, .hamt h =>
    d + 1 ≤ 13 ∧ 2 ≤ (hentries h).length ∧
      ∀ i, (∀ p ∈ entries (h i), hamtIndex ctx p.1 1 (d + 1) = i) ∧ WF ctx (d + 1) (h i)

/-- A node at level `d` is well formed. -/
def HWF (ctx : Ctx K V) (d : Nat) (h : Hamt K V) : Prop :=
  ∀ i, (∀ p ∈ entries (h i), hamtIndex ctx p.1 1 d = i) ∧ WF ctx d (h i)

theorem WF_hamt {ctx : Ctx K V} {d : Nat} {h : Hamt K V} :
    WF ctx d (.hamt h) ↔ d + 1 ≤ 13 ∧ 2 ≤ (hentries h).length ∧ HWF ctx (d + 1) h := by
  simp only [WF, HWF]

theorem HWF_newHamt (ctx : Ctx K V) (d : Nat) : HWF ctx d newHamt := by
  intro i
  simp [newHamt, entries, WF]

theorem nextLevel_of_le {lay d : Nat} (h : d + 1 ≤ 13) : nextLevel lay d = (lay, d + 1) := by
  unfold nextLevel maxLevel
  rw [if_neg (by omega)]

theorem index_congr {ctx : Ctx K V} (law : ctx.Lawful) {a b : K} (h : ctx.equalKeys a b = true)
    (lay l : Nat) : hamtIndex ctx a lay l = hamtIndex ctx b lay l := by
  unfold hamtIndex
  rw [law.hash a b h]

theorem index_congr_hash {ctx : Ctx K V} {a b : K} (h : ctx.hashKey a = ctx.hashKey b)
    (lay l : Nat) : hamtIndex ctx a lay l = hamtIndex ctx b lay l := by
  unfold hamtIndex
  rw [h]

theorem HWF.mem_index {ctx : Ctx K V} {d : Nat} {h : Hamt K V} (hw : HWF ctx d h) {p : K × V} :
    p ∈ hentries h ↔ p ∈ entries (h (hamtIndex ctx p.1 1 d)) := by
  rw [mem_hentries]
  constructor
  · rintro ⟨i, hi⟩
    rw [(hw i).1 p hi]
    exact hi
  · intro hp
    exact ⟨_, hp⟩

theorem HWF.setEntry {ctx : Ctx K V} {d : Nat} {h : Hamt K V} (hw : HWF ctx d h) {i : Fin 32}
    {e : Entry K V} (hi : ∀ p ∈ entries e, hamtIndex ctx p.1 1 d = i) (he : WF ctx d e) :
    HWF ctx d (setEntry h i e) := by
  intro j
  by_cases hj : j = i
  · subst hj; rw [setEntry_same]; exact ⟨hi, he⟩
  · rw [setEntry_ne _ _ hj]; exact hw j

/-! ### Get -/

theorem getFromEntry_iff {ctx : Ctx K V} (law : ctx.Lawful) {key : K} {v : V} (e : Entry K V) :
    ∀ {d : Nat}, WF ctx d e →
      (getFromEntry ctx key e 1 d = some v ↔ ∃ k, (k, v) ∈ entries e ∧ ctx.equalKeys k key = true) := by
  induction e with
  | none => intro d _; simp [getFromEntry, entries]
  | kv k v' =>
    intro d _
    simp only [getFromEntry, entries, List.mem_singleton, Prod.mk.injEq]
    by_cases h : ctx.equalKeys k key = true
    · simp only [h, if_true]
      constructor
      · intro hv; cases hv; exact ⟨k, ⟨rfl, rfl⟩, h⟩
      · rintro ⟨_, ⟨rfl, rfl⟩, _⟩; rfl
    · simp only [h]
      constructor
      · intro hv; cases hv
      · rintro ⟨_, ⟨rfl, rfl⟩, h'⟩; exact absurd h' h
  | hamt h ih =>
    intro d hw
    rw [WF_hamt] at hw
    obtain ⟨hd, _, hw⟩ := hw
    simp only [getFromEntry, nextLevel_of_le hd, entries_hamt]
    rw [ih _ (hw _).2]
    constructor
    · rintro ⟨k, hk, he⟩
      exact ⟨k, mem_hentries.2 ⟨_, hk⟩, he⟩
    · rintro ⟨k, hk, he⟩
      refine ⟨k, ?_, he⟩
      have := hw.mem_index.1 hk
      rwa [index_congr law he] at this

theorem getValue_iff {ctx : Ctx K V} (law : ctx.Lawful) {key : K} {v : V} {h : Hamt K V} {d : Nat}
    (hw : HWF ctx d h) :
    getValue ctx h key 1 d = some v ↔ ∃ k, (k, v) ∈ hentries h ∧ ctx.equalKeys k key = true := by
  unfold getValue
  rw [getFromEntry_iff law _ (hw _).2]
  constructor
  · rintro ⟨k, hk, he⟩
    exact ⟨k, mem_hentries.2 ⟨_, hk⟩, he⟩
  · rintro ⟨k, hk, he⟩
    refine ⟨k, ?_, he⟩
    have := hw.mem_index.1 hk
    rwa [index_congr law he] at this

/-! ### Keys are distinct -/

theorem HWF.pairwise_of {ctx : Ctx K V} (law : ctx.Lawful) {d : Nat} {h : Hamt K V} (hw : HWF ctx d h)
    (hc : ∀ i, (entries (h i)).Pairwise fun p q => ctx.equalKeys p.1 q.1 = false) :
    (hentries h).Pairwise fun p q => ctx.equalKeys p.1 q.1 = false := by
  unfold hentries
  rw [List.pairwise_flatMap]
  refine ⟨fun i _ => hc i, ?_⟩
  apply List.Pairwise.imp _ (List.nodup_finRange 32)
  intro i j hij p hp q hq
  rw [Bool.eq_false_iff]
  intro he
  apply hij
  rw [← (hw i).1 p hp, ← (hw j).1 q hq]
  exact index_congr law he 1 d

theorem WF.pairwise {ctx : Ctx K V} (law : ctx.Lawful) (e : Entry K V) :
    ∀ {d : Nat}, WF ctx d e → (entries e).Pairwise fun p q => ctx.equalKeys p.1 q.1 = false := by
  induction e with
  | none => intro d _; simp [entries]
  | kv k v => intro d _; simp [entries]
  | hamt h ih =>
    intro d hw
    rw [WF_hamt] at hw
    rw [entries_hamt]
    exact hw.2.2.pairwise_of law fun i => ih i (hw.2.2 i).2

theorem HWF.pairwise {ctx : Ctx K V} (law : ctx.Lawful) {d : Nat} {h : Hamt K V} (hw : HWF ctx d h) :
    (hentries h).Pairwise fun p q => ctx.equalKeys p.1 q.1 = false :=
  hw.pairwise_of law fun i => WF.pairwise law (h i) (hw i).2

/-! ### Set -/

/-- `a` and `b` take the same path through the levels below `d`. -/
def SamePath (ctx : Ctx K V) (d : Nat) (a b : K) : Prop :=
  ∀ l, 1 ≤ l → l < d → hamtIndex ctx a 1 l = hamtIndex ctx b 1 l

theorem SamePath.succ {ctx : Ctx K V} {d : Nat} {a b : K} (h : SamePath ctx d a b)
    (hd : hamtIndex ctx a 1 d = hamtIndex ctx b 1 d) : SamePath ctx (d + 1) a b := by
  intro l h1 h2
  by_cases hl : l = d
  · subst hl; exact hd
  · exact h l h1 (by omega)

theorem SamePath.hash_eq {ctx : Ctx K V} {d : Nat} {a b : K} (h : SamePath ctx d a b) (hd : 14 ≤ d) :
    ctx.hashKey a = ctx.hashKey b :=
  hash_eq_of_index (salt := ctx.salt) (lay := 1) fun l h1 h2 => h l h1 (by omega)

/-- What `setKeyValue` achieves on a node at level `d`. -/
structure SetSpec (ctx : Ctx K V) (d : Nat) (h : Hamt K V) (key : K) (value : V)
    (u : Hamt K V × Bool) : Prop where
  wf : HWF ctx d u.1
  mem : ∀ p, p ∈ hentries u.1 ↔ p = (key, value) ∨ (p ∈ hentries h ∧ ctx.equalKeys p.1 key = false)
  length : (hentries u.1).length = (hentries h).length + if u.2 then 1 else 0
  fresh : u.2 = true ↔ ∀ p ∈ hentries h, ctx.equalKeys p.1 key = false

theorem setKeyValue_spec {ctx : Ctx K V} (law : ctx.Lawful) :
    ∀ (n d : Nat) (h : Hamt K V) (key : K) (value : V), 1 ≤ d → d ≤ 13 → 14 ≤ n + d → HWF ctx d h →
      (∀ p ∈ hentries h, SamePath ctx d p.1 key) →
      (∀ p ∈ hentries h, ctx.hashKey p.1 = ctx.hashKey key → ctx.equalKeys p.1 key = true) →
      ∃ u, setKeyValue ctx n h key value 1 d = some u ∧ SetSpec ctx d h key value u := by
  intro n
  induction n with
  | zero => intro d h key value h1 h13 hn; omega
  | succ n ih =>
    intro d h key value h1 h13 hn hw hpath hinj
    have hi : ∀ p ∈ hentries h, ctx.equalKeys p.1 key = true → p ∈ entries (h (hamtIndex ctx key 1 d)) := by
      intro p hp he
      have := hw.mem_index.1 hp
      rwa [index_congr law he] at this
    have hother : ∀ j, j ≠ hamtIndex ctx key 1 d → ∀ p ∈ entries (h j), ctx.equalKeys p.1 key = false := by
      intro j hj p hp
      rw [Bool.eq_false_iff]
      intro he
      apply hj
      rw [← (hw j).1 p hp]
      exact index_congr law he 1 d
    rw [setKeyValue]
    generalize hg : hamtIndex ctx key 1 d = i at *
    have hlen := length_setEntry h i
    cases he : h i with
    | none =>
      rw [he] at hlen
      simp only
      refine ⟨_, rfl, ?_, ?_, ?_, ?_⟩
      · exact hw.setEntry (by simp [entries, hg]) (by simp [WF])
      · intro p
        rw [mem_hentries_setEntry]
        simp only [entries, List.mem_singleton]
        constructor
        · rintro (hp | ⟨j, hj, hp⟩)
          · exact Or.inl hp
          · exact Or.inr ⟨mem_hentries.2 ⟨j, hp⟩, hother j hj p hp⟩
        · rintro (hp | ⟨hp, _⟩)
          · exact Or.inl hp
          · obtain ⟨j, hj⟩ := mem_hentries.1 hp
            refine Or.inr ⟨j, ?_, hj⟩
            rintro rfl
            rw [he] at hj
            simp [entries] at hj
      · have := hlen (.kv key value)
        simp only [entries, List.length_nil, List.length_singleton] at this
        simp only [if_true]
        omega
      · simp only [true_iff]
        intro p hp
        rw [Bool.eq_false_iff]
        intro hk
        have := hi p hp hk
        rw [he] at this
        simp [entries] at this
    | kv k v =>
      rw [he] at hlen
      have hmem : (k, v) ∈ hentries h := mem_hentries.2 ⟨i, by simp [he, entries]⟩
      simp only
      by_cases hk : ctx.equalKeys k key = true
      · simp only [hk, if_true]
        refine ⟨_, rfl, ?_, ?_, ?_, ?_⟩
        · exact hw.setEntry (by simp [entries, hg]) (by simp [WF])
        · intro p
          rw [mem_hentries_setEntry]
          simp only [entries, List.mem_singleton]
          constructor
          · rintro (hp | ⟨j, hj, hp⟩)
            · exact Or.inl hp
            · exact Or.inr ⟨mem_hentries.2 ⟨j, hp⟩, hother j hj p hp⟩
          · rintro (hp | ⟨hp, hne⟩)
            · exact Or.inl hp
            · obtain ⟨j, hj⟩ := mem_hentries.1 hp
              refine Or.inr ⟨j, ?_, hj⟩
              rintro rfl
              rw [he] at hj
              simp only [entries, List.mem_singleton] at hj
              subst hj
              rw [hk] at hne
              cases hne
        · have := hlen (.kv key value)
          simp only [entries, List.length_singleton] at this
          simp
          omega
        · simp only [Bool.false_eq_true, false_iff]
          intro hall
          have := hall _ hmem
          rw [hk] at this
          cases this
      · simp only [hk]
        have hki : hamtIndex ctx k 1 d = i := (hw i).1 (k, v) (by simp [he, entries])
        have hpk : SamePath ctx (d + 1) k key :=
          (hpath _ hmem).succ (by rw [hki, hg])
        have hne : ctx.hashKey k ≠ ctx.hashKey key := fun e => hk (hinj _ hmem e)
        have hd : d + 1 ≤ 13 := by
          by_contra hc
          exact hne (hpk.hash_eq (by omega))
        obtain ⟨u, hu, su⟩ := ih (d + 1) newHamt k v (by omega) hd (by omega) (HWF_newHamt ctx _)
          (by simp [hentries_newHamt]) (by simp [hentries_newHamt])
        have umem : ∀ p, p ∈ hentries u.1 ↔ p = (k, v) := by
          intro p; rw [su.mem, hentries_newHamt]; simp
        obtain ⟨w, hw', sw⟩ := ih (d + 1) u.1 key value (by omega) hd (by omega) su.wf
          (by intro p hp; rw [umem] at hp; subst hp; exact hpk)
          (by intro p hp; rw [umem] at hp; subst hp; exact fun e => absurd e hne)
        have wmem : ∀ p, p ∈ hentries w.1 ↔ p = (key, value) ∨ p = (k, v) := by
          intro p
          rw [sw.mem, umem]
          constructor
          · rintro (h | ⟨h, _⟩)
            · exact Or.inl h
            · exact Or.inr h
          · rintro (h | rfl)
            · exact Or.inl h
            · exact Or.inr ⟨rfl, by simpa using hk⟩
        have wlen : (hentries w.1).length = 2 := by
          have hu2 : u.2 = true := by rw [su.fresh]; simp [hentries_newHamt]
          have hw2 : w.2 = true := by
            rw [sw.fresh]
            intro p hp
            rw [umem] at hp
            subst hp
            simpa using hk
          rw [sw.length, su.length, hu2, hw2, hentries_newHamt]
          simp
        simp only [hu, hw']
        refine ⟨_, rfl, ?_, ?_, ?_, ?_⟩
        · refine hw.setEntry ?_ ?_
          · intro p hp
            rw [entries_hamt, wmem] at hp
            rcases hp with rfl | rfl
            · exact hg
            · exact hki
          · rw [WF_hamt]
            exact ⟨hd, by omega, sw.wf⟩
        · intro p
          rw [mem_hentries_setEntry, entries_hamt, wmem]
          constructor
          · rintro ((hp | hp) | ⟨j, hj, hp⟩)
            · exact Or.inl hp
            · subst hp; exact Or.inr ⟨hmem, by simpa using hk⟩
            · exact Or.inr ⟨mem_hentries.2 ⟨j, hp⟩, hother j hj p hp⟩
          · rintro (hp | ⟨hp, _⟩)
            · exact Or.inl (Or.inl hp)
            · obtain ⟨j, hj⟩ := mem_hentries.1 hp
              by_cases hji : j = i
              · subst hji
                rw [he] at hj
                simp only [entries, List.mem_singleton] at hj
                exact Or.inl (Or.inr hj)
              · exact Or.inr ⟨j, hji, hj⟩
        · have := hlen (.hamt w.1)
          rw [entries_hamt, wlen] at this
          simp only [entries, List.length_singleton] at this
          simp
          omega
        · simp only [true_iff]
          intro p hp
          rw [Bool.eq_false_iff]
          intro hk'
          have := hi p hp hk'
          rw [he] at this
          simp only [entries, List.mem_singleton] at this
          subst this
          exact hk hk'
    | hamt e =>
      rw [he] at hlen
      have hwe := (hw i).2
      rw [he, WF_hamt] at hwe
      obtain ⟨hd, h2, hwe⟩ := hwe
      have hsub : ∀ p ∈ hentries e, p ∈ hentries h := by
        intro p hp
        exact mem_hentries.2 ⟨i, by rw [he, entries_hamt]; exact hp⟩
      have hidx : ∀ p ∈ hentries e, hamtIndex ctx p.1 1 d = i := by
        intro p hp
        exact (hw i).1 p (by rw [he, entries_hamt]; exact hp)
      obtain ⟨u, hu, su⟩ := ih (d + 1) e key value (by omega) hd (by omega) hwe
        (by intro p hp; exact (hpath p (hsub p hp)).succ (by rw [hidx p hp, hg]))
        (by intro p hp; exact hinj p (hsub p hp))
      simp only [nextLevel_of_le hd, hu]
      have umem := su.mem
      refine ⟨_, rfl, ?_, ?_, ?_, ?_⟩
      · refine hw.setEntry ?_ ?_
        · intro p hp
          rw [entries_hamt, umem] at hp
          rcases hp with rfl | ⟨hp, _⟩
          · exact hg
          · exact hidx p hp
        · rw [WF_hamt]
          refine ⟨hd, ?_, su.wf⟩
          rw [su.length]
          omega
      · intro p
        rw [mem_hentries_setEntry, entries_hamt, umem]
        constructor
        · rintro ((hp | ⟨hp, hk⟩) | ⟨j, hj, hp⟩)
          · exact Or.inl hp
          · exact Or.inr ⟨hsub p hp, hk⟩
          · exact Or.inr ⟨mem_hentries.2 ⟨j, hp⟩, hother j hj p hp⟩
        · rintro (hp | ⟨hp, hk⟩)
          · exact Or.inl (Or.inl hp)
          · obtain ⟨j, hj⟩ := mem_hentries.1 hp
            by_cases hji : j = i
            · subst hji
              rw [he, entries_hamt] at hj
              exact Or.inl (Or.inr ⟨hj, hk⟩)
            · exact Or.inr ⟨j, hji, hj⟩
      · have := hlen (.hamt u.1)
        rw [entries_hamt, entries_hamt, su.length] at this
        show (hentries (setEntry h i (.hamt u.1))).length = (hentries h).length + if u.2 = true then 1 else 0
        omega
      · show u.2 = true ↔ _
        rw [su.fresh]
        constructor
        · intro hall p hp
          rw [Bool.eq_false_iff]
          intro hk
          have := hi p hp hk
          rw [he, entries_hamt] at this
          have := hall p this
          rw [hk] at this
          cases this
        · intro hall p hp
          exact hall p (hsub p hp)

/-- A key-value pair whose key has the same hash but is a different key makes `setKeyValue` spin. -/
theorem setKeyValue_collision {ctx : Ctx K V} {key k0 : K} {v0 : V}
    (hh : ctx.hashKey k0 = ctx.hashKey key) (hne : ctx.equalKeys k0 key = false) :
    ∀ (n : Nat) (h : Hamt K V) (value : V) (lay d : Nat),
      h (hamtIndex ctx key lay d) = .kv k0 v0 → setKeyValue ctx n h key value lay d = none := by
  intro n
  induction n with
  | zero => intros; rfl
  | succ n ih =>
    intro h value lay d hk
    rw [setKeyValue]
    simp only [hk, hne, Bool.false_eq_true, if_false]
    cases hu : setKeyValue ctx n newHamt k0 v0 lay (d + 1) with
    | none => rfl
    | some u =>
      simp only
      cases n with
      | zero => simp [setKeyValue] at hu
      | succ n =>
        have : u.1 (hamtIndex ctx key lay (d + 1)) = .kv k0 v0 := by
          rw [setKeyValue] at hu
          simp only [newHamt] at hu
          cases hu
          rw [← index_congr_hash hh lay (d + 1)]
          exact setEntry_same _ _ _
        rw [ih u.1 value lay (d + 1) this]

theorem setKeyValue_diverges {ctx : Ctx K V} {key : K} {p : K × V}
    (hh : ctx.hashKey p.1 = ctx.hashKey key) (hne : ctx.equalKeys p.1 key = false) :
    ∀ (n : Nat) (h : Hamt K V) (value : V) (d : Nat), HWF ctx d h → p ∈ hentries h →
      setKeyValue ctx n h key value 1 d = none := by
  intro n
  induction n with
  | zero => intros; rfl
  | succ n ih =>
    intro h value d hw hp
    have hp' := hw.mem_index.1 hp
    rw [index_congr_hash hh] at hp'
    cases he : h (hamtIndex ctx key 1 d) with
    | none => rw [he] at hp'; simp [entries] at hp'
    | kv k v =>
      rw [he] at hp'
      simp only [entries, List.mem_singleton] at hp'
      subst hp'
      exact setKeyValue_collision hh hne _ _ _ _ _ he
    | hamt e =>
      rw [he, entries_hamt] at hp'
      have hwe := (hw (hamtIndex ctx key 1 d)).2
      rw [he, WF_hamt] at hwe
      rw [setKeyValue]
      simp only [he, nextLevel_of_le hwe.1, ih e value (d + 1) hwe.2.2 hp']

/-- More fuel does not change a result. -/
theorem setKeyValue_mono {ctx : Ctx K V} :
    ∀ (n m : Nat) (h : Hamt K V) (key : K) (value : V) (lay d : Nat) (u : Hamt K V × Bool), n ≤ m →
      setKeyValue ctx n h key value lay d = some u → setKeyValue ctx m h key value lay d = some u := by
  intro n
  induction n with
  | zero => intro m h key value lay d u _ hu; simp [setKeyValue] at hu
  | succ n ih =>
    intro m h key value lay d u hm hu
    cases m with
    | zero => omega
    | succ m =>
      have hm' : n ≤ m := by omega
      rw [setKeyValue] at hu ⊢
      cases he : h (hamtIndex ctx key lay d) with
      | none => simpa [he] using hu
      | kv k v =>
        simp only [he] at hu ⊢
        by_cases hk : ctx.equalKeys k key = true
        · simpa [hk] using hu
        · simp only [hk] at hu ⊢
          cases h1 : setKeyValue ctx n newHamt k v lay (d + 1) with
          | none => simp [h1] at hu
          | some u1 =>
            simp only [h1] at hu
            rw [ih m _ _ _ _ _ _ hm' h1]
            cases h2 : setKeyValue ctx n u1.1 key value lay (d + 1) with
            | none => simp [h2] at hu
            | some u2 =>
              simp only [h2] at hu
              simp only [ih m _ _ _ _ _ _ hm' h2]
              exact hu
      | hamt e =>
        simp only [he] at hu ⊢
        cases h1 : setKeyValue ctx n e key value (nextLevel lay d).1 (nextLevel lay d).2 with
        | none => simp [h1] at hu
        | some u1 =>
          simp only [h1] at hu
          simp only [ih m _ _ _ _ _ _ hm' h1]
          exact hu

end Verif.Prelude
